import Verif.Model.Rust
import Mathlib.Data.List.Basic
import Mathlib.Tactic.Common

/-! Small lemmas on the Rust primitives. -/

namespace Adhoc

@[simp] theorem bind_ok {α β} (a : α) (f : α → R β) : (Except.ok a >>= f) = f a := rfl
@[simp] theorem bind_error {α β} (e : Panic) (f : α → R β) : ((Except.error e : R α) >>= f) = .error e := rfl
@[simp] theorem pure_eq_ok {α} (a : α) : (pure a : R α) = .ok a := rfl

theorem bind_eq_ok {α β} {x : R α} {f : α → R β} {b : β} : (x >>= f) = .ok b ↔ ∃ a, x = .ok a ∧ f a = .ok b := by
  cases x with
  | error e => simp
  | ok a => simp

theorem idx_of_lt {α} {l : List α} {i : Nat} (h : i < l.length) : idx l i = .ok l[i] := by
  simp [idx, List.getElem?_eq_getElem h]

theorem idx_eq_ok {α} {l : List α} {i : Nat} {a : α} : idx l i = .ok a ↔ l[i]? = some a := by
  unfold idx; cases h : l[i]? <;> simp

theorem idx_of_ge {α} {l : List α} {i : Nat} (h : l.length ≤ i) : idx l i = .error .index := by
  simp [idx, List.getElem?_eq_none h]

theorem setIdx_of_lt {α} {l : List α} {i : Nat} {a : α} (h : i < l.length) : setIdx l i a = .ok (l.set i a) := by
  simp [setIdx, h]

theorem setIdx_eq_ok {α} {l l' : List α} {i : Nat} {a : α} :
    setIdx l i a = .ok l' ↔ i < l.length ∧ l' = l.set i a := by
  unfold setIdx
  split
  · next h => simp [h, eq_comm]
  · next h => simp [h]

theorem udiv_of_pos {a b : Nat} (h : 0 < b) : udiv a b = .ok (a / b) := by
  simp [udiv, Nat.pos_iff_ne_zero.1 h]

theorem chkI_of {b : Build} {n : Nat} {x : Int} (h : InI n x) : chkI b n x = .ok x := by simp [chkI, h]

theorem chkU_of {b : Build} {n : Nat} {x : Int} (h : 0 ≤ x ∧ x < (2 : Int) ^ n) : chkU b n x = .ok x.toNat := by
  simp [chkU, h]

theorem chkU_nat {b : Build} {n : Nat} {x : Nat} (h : x < 2 ^ n) : chkU b n (x : Int) = .ok x := by
  rw [chkU_of ⟨by omega, by exact_mod_cast h⟩]; simp

end Adhoc

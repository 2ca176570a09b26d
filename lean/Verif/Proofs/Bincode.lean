import Verif.Proofs.Basic
import Verif.Model.Bincode
import Verif.Model.Io

/-! Reading back what was written, and failing on everything that was cut short. -/

namespace Adhoc
namespace Bincode

/-- `d` reads `a` from `bs`, leaving alone what follows, and fails on every proper prefix of `bs` -/
structure Good {α : Type} (d : Dec α) (a : α) (bs : List Byte) : Prop where
  read : ∀ rest, d (bs ++ rest) = some (a, rest)
  torn : ∀ p q, bs = p ++ q → q ≠ [] → d p = none

theorem length_leBytes : ∀ (w n : Nat), (leBytes w n).length = w
  | 0, _ => rfl
  | w + 1, n => by simp [leBytes, length_leBytes w]

theorem leNat_leBytes : ∀ (w n : Nat), n < 256 ^ w → leNat (leBytes w n) = n
  | 0, n, h => by simp at h; simp [leBytes, leNat, h]
  | w + 1, n, h => by
    have : n / 256 < 256 ^ w := by rw [Nat.pow_succ] at h; omega
    simp only [leBytes, leNat, leNat_leBytes w _ this, BitVec.toNat_ofNat]
    omega

theorem good_U {w n : Nat} (h : n < 256 ^ w) : Good (decU w) n (leBytes w n) where
  read := by
    intro rest
    unfold decU
    rw [if_pos (by simp [length_leBytes]), List.take_left' (length_leBytes w n), List.drop_left' (length_leBytes w n), leNat_leBytes w n h]
  torn := by
    intro p q e hq
    unfold decU
    have := congrArg List.length e
    rw [length_leBytes, List.length_append] at this
    have := List.length_pos_iff.2 hq
    rw [if_neg (by omega)]

/-- one decoder after the other -/
theorem Good.bind {α β : Type} {d : Dec α} {f : α → Dec β} {a : α} {c : β} {bs bs' : List Byte} (h : Good d a bs) (h' : Good (f a) c bs') :
    Good (fun s => d s >>= fun x => f x.1 x.2) c (bs ++ bs') where
  read := by
    intro rest
    show (d _).bind _ = _
    rw [List.append_assoc, h.read]
    exact h'.read rest
  torn := by
    intro p q e hq
    show (d _).bind _ = _
    rcases List.append_eq_append_iff.1 e with ⟨x, e1, e2⟩ | ⟨x, e1, e2⟩
    · rw [e1, h.read]
      exact h'.torn x q e2 hq
    · by_cases hx : x = []
      · subst hx
        simp only [List.append_nil] at e1
        have := h'.torn [] q (by simpa using e2.symm) hq
        rw [← e1]
        have hr := h.read []
        rw [List.append_nil] at hr
        rw [hr]
        exact this
      · rw [h.torn p x e1 hx]
        rfl

theorem good_pure {α : Type} (a : α) : Good (fun s => some (a, s)) a [] where
  read := fun _ => rfl
  torn := by
    intro p q e hq
    have := List.append_eq_nil_iff.1 e.symm
    exact absurd this.2 hq

theorem Good.map {α β : Type} {d : Dec α} {a : α} {bs : List Byte} (h : Good d a bs) (f : α → β) :
    Good (fun s => (d s).map fun x => (f x.1, x.2)) (f a) bs where
  read := by intro rest; simp only [h.read]; rfl
  torn := by intro p q e hq; simp only [h.torn p q e hq]; rfl

theorem good_I16 {x : Int} (h : InI 16 x) : Good decI16 x (leBytes 2 (asU 16 x)) := by
  have h1 : asU 16 x < 256 ^ 2 := by unfold asU; omega
  have := (good_U h1).map (fun n : Nat => asI 16 n)
  have e : asI 16 (asU 16 x : Nat) = x := by
    unfold asI asU
    obtain ⟨h2, h3⟩ := h
    rw [Int.bmod_def]
    omega
  rw [e] at this
  have e2 : (fun s => (decU 2 s).map fun x => (asI 16 (x.1 : Nat), x.2)) = decI16 := by
    funext s
    unfold decI16
    cases decU 2 s <;> rfl
  rw [e2] at this
  exact this

theorem good_N {α : Type} {d : Dec α} {e : α → List Byte} : ∀ (l : List α), (∀ a ∈ l, Good d a (e a)) → Good (decN d l.length) l (l.flatMap e)
  | [], _ => good_pure []
  | a :: l, h => by
    have ih := good_N l (fun x hx => h x (by simp [hx]))
    have h2 := ih.map (fun l => a :: l)
    have := (h a (by simp)).bind (f := fun a s => (decN d l.length s).map fun x => (a :: x.1, x.2)) h2
    have e1 : (fun s => d s >>= fun x => (decN d l.length x.2).map fun y => (x.1 :: y.1, y.2)) = decN d (a :: l).length := by
      funext s
      show _ = decN d (l.length + 1) s
      conv_rhs => unfold decN
      cases d s with
      | none => rfl
      | some x =>
        show Option.map _ _ = (decN d l.length x.2).bind _
        cases decN d l.length x.2 <;> rfl
    rw [e1] at this
    rw [List.flatMap_cons]
    exact this

theorem good_Vec {α : Type} {d : Dec α} {e : α → List Byte} {l : List α} (hl : l.length < 2 ^ 64) (h : ∀ a ∈ l, Good d a (e a)) :
    Good (decVec d) l (leBytes 8 l.length ++ l.flatMap e) :=
  (good_U (w := 8) (by simpa using hl)).bind (f := fun n => decN d n) (good_N l h)

theorem good_some {α : Type} {d : Dec α} {a : α} {bs : List Byte} (h : Good d a bs) : Good (decOpt d) (some a) (1#8 :: bs) where
  read := by intro rest; simp [decOpt, h.read]
  torn := by
    intro p q e hq
    cases p with
    | nil => rfl
    | cons x p =>
      simp only [List.cons_append, List.cons.injEq] at e
      obtain ⟨rfl, e⟩ := e
      simp [decOpt, h.torn p q e hq]

theorem good_none {α : Type} {d : Dec α} : Good (decOpt d) none [0#8] where
  read := by intro rest; simp [decOpt]
  torn := by
    intro p q e hq
    cases p with
    | nil => rfl
    | cons x p =>
      simp only [List.cons_append, List.cons.injEq] at e
      exact absurd (List.append_eq_nil_iff.1 e.2.symm).2 hq

theorem good_bits {w n : Nat} (h : n = 8 * w) (v : BitVec n) :
    Good (fun bs => (decU w bs).map fun (n', bs) => (BitVec.ofNat n n', bs)) v (leBytes w v.toNat) := by
  have h1 : v.toNat < 256 ^ w := by
    have := v.isLt
    have e : 2 ^ n = 256 ^ w := by rw [h, Nat.pow_mul]
    omega
  have := (good_U h1).map (BitVec.ofNat n)
  rw [BitVec.ofNat_toNat, BitVec.setWidth_eq] at this
  exact this

@[simp] theorem flatten_encU (w n : Nat) : (encU w n).flatten = leBytes w n := by simp [encU]

theorem flatten_encVec {α : Type} (e : α → List (List Byte)) (l : List α) :
    (encVec e l).flatten = leBytes 8 l.length ++ l.flatMap fun a => (e a).flatten := by
  rw [encVec, List.flatten_append, flatten_encU]
  congr 1
  rw [List.flatMap_def, List.flatten_flatten, List.map_map, List.flatMap_def]
  rfl

end Bincode

/-! ## writers -/

namespace Writer

theorem writeAllAux_spec : ∀ (script : List WriteResp) (out buf : List Byte),
    ∃ p q, buf = p ++ q ∧ (writeAllAux script out buf).1.out = out ++ p ∧
      ((writeAllAux script out buf).2 = true ↔ q = []) := by
  intro script
  induction script with
  | nil =>
    intro out buf
    cases buf with
    | nil => exact ⟨[], [], rfl, by simp [writeAllAux], by simp [writeAllAux]⟩
    | cons x buf => exact ⟨x :: buf, [], by simp, by simp [writeAllAux], by simp [writeAllAux]⟩
  | cons r script ih =>
    intro out buf
    cases buf with
    | nil => exact ⟨[], [], rfl, by simp [writeAllAux], by simp [writeAllAux]⟩
    | cons x buf =>
      cases r with
      | fail => exact ⟨[], x :: buf, rfl, by simp [writeAllAux], by simp [writeAllAux]⟩
      | interrupted =>
        obtain ⟨p, q, h1, h2, h3⟩ := ih out (x :: buf)
        exact ⟨p, q, h1, by simpa [writeAllAux] using h2, by simpa [writeAllAux] using h3⟩
      | accept n =>
        cases n with
        | zero => exact ⟨[], x :: buf, rfl, by simp [writeAllAux], by simp [writeAllAux]⟩
        | succ n =>
          obtain ⟨p, q, h1, h2, h3⟩ := ih (out ++ (x :: buf).take (n + 1)) ((x :: buf).drop (n + 1))
          refine ⟨(x :: buf).take (n + 1) ++ p, q, ?_, ?_, ?_⟩
          · rw [List.append_assoc, ← h1, List.take_append_drop]
          · rw [← List.append_assoc]; simpa [writeAllAux] using h2
          · simpa [writeAllAux] using h3

/-- `write_all` writes everything, or fails having written a proper prefix -/
theorem writeAll_spec (w : Writer) (buf : List Byte) :
    ∃ p q, buf = p ++ q ∧ (w.writeAll buf).1.out = w.out ++ p ∧ ((w.writeAll buf).2 = true ↔ q = []) := writeAllAux_spec _ _ _

theorem writePieces_spec : ∀ (ps : List (List Byte)) (w : Writer),
    ∃ p q, ps.flatten = p ++ q ∧ (w.writePieces ps).1.out = w.out ++ p ∧ ((w.writePieces ps).2 = true ↔ q = [])
  | [], w => ⟨[], [], rfl, by simp [writePieces], by simp [writePieces]⟩
  | x :: ps, w => by
    obtain ⟨p, q, h1, h2, h3⟩ := w.writeAll_spec x
    unfold writePieces
    rcases hx : w.writeAll x with ⟨w', ok⟩
    rw [hx] at h2 h3
    dsimp only at h2 h3
    cases ok with
    | true =>
      have hq := h3.1 rfl
      subst hq
      obtain ⟨p', q', h4, h5, h6⟩ := writePieces_spec ps w'
      refine ⟨p ++ p', q', ?_, ?_, h6⟩
      · rw [List.flatten_cons, h1, h4]; simp
      · rw [h5, h2, List.append_assoc]
    | false =>
      refine ⟨p, q ++ ps.flatten, ?_, h2, ?_⟩
      · rw [List.flatten_cons, h1, List.append_assoc]
      · have : q ≠ [] := fun h => by simpa using h3.2 h
        simp [this]

theorem writeAllAux_perfect (out buf : List Byte) : writeAllAux [] out buf = ({ out := out ++ buf, script := [] }, true) := by
  cases buf <;> simp [writeAllAux]

theorem writePieces_perfect : ∀ (ps : List (List Byte)) (out : List Byte),
    writePieces { out := out, script := [] } ps = ({ out := out ++ ps.flatten, script := [] }, true)
  | [], out => by simp [writePieces]
  | x :: ps, out => by
    unfold writePieces writeAll
    rw [writeAllAux_perfect]
    dsimp only
    rw [writePieces_perfect ps]
    simp

end Writer
end Adhoc

import Verif.Model.Usize
import Verif.Proofs.Basic

/-!
# Reading files with a narrow `usize`
-/

namespace Adhoc.Bincode

/-- both decoders do the same, and leave at most `n` bytes -/
def Narrow {α : Type} (x y : Option (α × List Byte)) (n : Nat) : Prop := x = y ∧ ∀ a r, y = some (a, r) → r.length ≤ n

theorem Narrow.bind {α β : Type} {n : Nat} {x y : Option (α × List Byte)} {f g : α × List Byte → Option (β × List Byte)} (h : Narrow x y n)
    (hf : ∀ a r, r.length ≤ n → Narrow (f (a, r)) (g (a, r)) n) : Narrow (x >>= f) (y >>= g) n := by
  obtain ⟨rfl, h⟩ := h
  match x, h with
  | none, _ => exact ⟨rfl, fun a r h => by cases h⟩
  | some (a, r), h => exact hf a r (h a r rfl)

theorem Narrow.done {α : Type} {n : Nat} {a : α} {r : List Byte} (h : r.length ≤ n) : Narrow (some (a, r)) (some (a, r)) n :=
  ⟨rfl, fun _ _ e => (Prod.mk.inj (Option.some.inj e)).2 ▸ h⟩

/-- takes at least one byte -/
def Eats {α : Type} (d : Dec α) : Prop := ∀ bs a r, d bs = some (a, r) → r.length < bs.length

theorem eats_U {k : Nat} (hk : 0 < k) : Eats (decU k) := by
  intro bs a r h
  unfold decU at h
  split at h
  · rw [← (Prod.mk.inj (Option.some.inj h)).2, List.length_drop]
    omega
  · cases h

theorem Eats.map {α β : Type} {d : Dec α} (h : Eats d) (f : α → β) : Eats fun bs => (d bs).map fun (a, bs) => (f a, bs) := by
  intro bs b r e
  rw [Option.map_eq_some_iff] at e
  obtain ⟨⟨a, r'⟩, h1, h2⟩ := e
  rw [← (Prod.mk.inj h2).2]
  exact h bs a r' h1

theorem Eats.bind {α β : Type} {d : Dec α} {f : α × List Byte → Option (β × List Byte)} (h : Eats d)
    (hf : ∀ a r b r', f (a, r) = some (b, r') → r'.length ≤ r.length) : Eats fun bs => d bs >>= f := by
  intro bs b r e
  dsimp only at e
  match hd : d bs with
  | none => rw [hd] at e; cases e
  | some (a, r') =>
    rw [hd] at e
    have := hf a r' b r e
    have := h bs a r' hd
    omega

theorem eats_I16 : Eats decI16 :=
  (eats_U (by decide)).bind fun a r b r' h => by rw [(Prod.mk.inj (Option.some.inj h)).2]

theorem narrow_of_eats {α : Type} {n : Nat} {d : Dec α} (h : Eats d) {bs : List Byte} (hb : bs.length ≤ n) : Narrow (d bs) (d bs) n :=
  ⟨rfl, fun a r e => by have := h bs a r e; omega⟩

theorem decN_shrinks {α : Type} {d : Dec α} (hd : Eats d) : ∀ (k : Nat) (bs : List Byte) (l : List α) (r : List Byte), decN d k bs = some (l, r) →
    r.length + k ≤ bs.length
  | 0, bs, l, r, h => by
    rw [decN] at h
    rw [(Prod.mk.inj (Option.some.inj h)).2]
    omega
  | k + 1, bs, l, r, h => by
    rw [decN] at h
    match h1 : d bs with
    | none => rw [h1] at h; cases h
    | some (a, r1) =>
      rw [h1] at h
      have h : (decN d k r1 >>= fun x => some (a :: x.1, x.2)) = some (l, r) := h
      match h2 : decN d k r1 with
      | none => rw [h2] at h; cases h
      | some (as, r2) =>
        rw [h2] at h
        have e : r2 = r := (Prod.mk.inj (Option.some.inj h)).2
        have := decN_shrinks hd k r1 as r2 h2
        have := hd bs a r1 h1
        rw [← e]
        omega

theorem narrow_Vec {α : Type} {w n : Nat} {d : Dec α} (hd : Eats d) (hn : n < 2 ^ w) {bs : List Byte} (hb : bs.length ≤ n) :
    Narrow (decVecW w d bs) (decVec d bs) n := by
  unfold decVecW decVec
  refine Narrow.bind (narrow_of_eats (eats_U (by decide)) hb) fun k r hr => ?_
  dsimp only
  have h2 : ∀ l r', decN d k r = some (l, r') → r'.length ≤ n := fun l r' h => by have := decN_shrinks hd k r l r' h; omega
  by_cases hk : k < 2 ^ w
  · rw [if_pos hk]
    exact ⟨rfl, h2⟩
  · rw [if_neg hk]
    refine ⟨?_, h2⟩
    match h : decN d k r with
    | none => rfl
    | some (l, r') => have := decN_shrinks hd k r l r' h; omega

theorem narrow_Opt {α : Type} {n : Nat} {d : Dec α} (hd : Eats d) {bs : List Byte} (hb : bs.length ≤ n) : Narrow (decOpt d bs) (decOpt d bs) n := by
  refine ⟨rfl, fun a r h => ?_⟩
  unfold decOpt at h
  match bs, hb, h with
  | t :: bs, hb, h =>
    rw [List.length_cons] at hb
    dsimp only at h
    split at h
    · rw [← (Prod.mk.inj (Option.some.inj h)).2]; omega
    · split at h
      · rw [Option.map_eq_some_iff] at h
        obtain ⟨⟨a', r'⟩, h1, h2⟩ := h
        have := hd bs a' r' h1
        have e : r' = r := (Prod.mk.inj h2).2
        rw [← e]
        omega
      · cases h

end Adhoc.Bincode

namespace Adhoc.AdhocCodec
open Bincode

theorem decSlimW_eq {w n : Nat} (hn : n < 2 ^ w) {bs : List Byte} (hb : bs.length ≤ n) : Narrow (decSlimW w bs) (decSlim bs) n := by
  have u : ∀ {k : Nat} (_ : 0 < k) {bs : List Byte} (_ : bs.length ≤ n), Narrow (decU k bs) (decU k bs) n := fun hk _ hb => narrow_of_eats (eats_U hk) hb
  unfold decSlimW decSlim
  refine (u (by decide) hb).bind fun level bs hb => ?_
  refine (narrow_Vec ((eats_U (by decide)).map _) hn hb).bind fun data bs hb => ?_
  refine (u (by decide) hb).bind fun count bs hb => ?_
  refine (narrow_Vec ((eats_U (by decide)).map _) hn hb).bind fun bits bs hb => ?_
  refine (u (by decide) hb).bind fun cursor bs hb => ?_
  refine (narrow_Vec (eats_U (by decide)) hn hb).bind fun sizes bs hb => ?_
  refine (narrow_Vec (eats_U (by decide)) hn hb).bind fun cursors bs hb => ?_
  refine (narrow_Vec ?_ hn hb).bind fun hist bs hb => ?_
  · refine eats_I16.bind fun a r x r' h => Nat.le_of_lt ?_
    refine eats_I16.bind (f := fun y => decI16 y.2 >>= fun z => some ((a, y.1, z.1), z.2)) (fun b r2 x2 r3 h2 => Nat.le_of_lt ?_) r x r' h
    exact eats_I16.bind (f := fun z => some ((a, b, z.1), z.2)) (fun c r4 x4 r5 h4 => ((Prod.mk.inj (Option.some.inj h4)).2 ▸ Nat.le_refl _ : r5.length ≤ r4.length)) r2 x2 r3 h2
  refine (u (by decide) hb).bind fun hc bs hb => ?_
  refine (narrow_Opt ?_ hb).bind fun info bs hb => ?_
  · refine (eats_U (by decide)).bind fun a r x r' h => Nat.le_of_lt ?_
    exact (eats_U (k := 4) (by decide)).bind (f := fun y => some (({ sampleRate := a, channels := y.1 } : StreamInfo), y.2))
      (fun c r4 x4 r5 h4 => ((Prod.mk.inj (Option.some.inj h4)).2 ▸ Nat.le_refl _ : r5.length ≤ r4.length)) r x r' h
  refine (narrow_Vec ((eats_U (by decide)).map _) hn hb).bind fun binary bs hb => ?_
  refine (u (by decide) hb).bind fun bc bs hb => ?_
  exact (u (by decide) hb).bind fun cap bs hb => .done hb

theorem loadW_eq {b : Build} {w : Nat} {bytes : List Byte} (h : bytes.length < 2 ^ w) : loadW b w bytes = load b bytes := by
  unfold loadW load
  rw [(decSlimW_eq h (Nat.le_refl _)).1]
  rfl

end Adhoc.AdhocCodec

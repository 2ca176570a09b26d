import Verif.Spec.Reader
import Verif.Proofs.Basic

/-!
# Reading in pieces is reading the content
-/

namespace Adhoc
open Spec

namespace Reader

theorem readExactAux_sound : ∀ (script : List ReadResp) (u : List Byte) (n : Nat) (got : List Byte) {x : List Byte} {s : List ReadResp},
    readExactAux script u n got = some (x, s) → n ≤ u.length ∧ x = got ++ u.take n ∧ ∀ a ∈ s, a ∈ script
  | script, u, 0, got, x, s, h => by
    simp only [readExactAux, Option.some.injEq, Prod.mk.injEq] at h
    obtain ⟨rfl, rfl⟩ := h
    simp
  | [], u, n + 1, got, x, s, h => by
    unfold readExactAux at h
    split at h
    · simp only [Option.some.injEq, Prod.mk.injEq] at h
      obtain ⟨rfl, rfl⟩ := h
      exact ⟨by assumption, rfl, by simp⟩
    · cases h
  | .give k :: rest, u, n + 1, got, x, s, h => by
    unfold readExactAux at h
    dsimp only at h
    split at h
    · cases h
    · rename_i hm
      obtain ⟨h1, h2, h3⟩ := readExactAux_sound rest _ _ _ h
      rw [List.length_drop] at h1
      generalize hM : min k (min (n + 1) u.length) = m at *
      refine ⟨by omega, ?_, fun a ha => List.mem_cons_of_mem _ (h3 a ha)⟩
      rw [h2, List.append_assoc]
      congr 1
      have e : n + 1 = m + (n + 1 - m) := by omega
      conv_rhs => rw [e, List.take_add]
  | .interrupted :: rest, u, n + 1, got, x, s, h => by
    unfold readExactAux at h
    obtain ⟨h1, h2, h3⟩ := readExactAux_sound rest _ _ _ h
    exact ⟨h1, h2, fun a ha => List.mem_cons_of_mem _ (h3 a ha)⟩
  | .fail :: rest, u, n + 1, got, x, s, h => by
    unfold readExactAux at h
    cases h

theorem readExactAux_complete : ∀ (script : List ReadResp) (u : List Byte) (n : Nat) (got : List Byte),
    (∀ a ∈ script, a ≠ .fail ∧ a ≠ .give 0) → n ≤ u.length → ∃ y, readExactAux script u n got = some y
  | script, u, 0, got, _, _ => ⟨_, by unfold readExactAux; rfl⟩
  | [], u, n + 1, got, _, h => ⟨_, by unfold readExactAux; rw [if_pos h]⟩
  | .give k :: rest, u, n + 1, got, hs, h => by
    have hk := (hs (.give k) List.mem_cons_self).2
    have hk : k ≠ 0 := fun e => hk (e ▸ rfl)
    unfold readExactAux
    dsimp only
    rw [if_neg (by omega)]
    refine readExactAux_complete rest _ _ _ (fun a ha => hs a (List.mem_cons_of_mem _ ha)) ?_
    rw [List.length_drop]
    omega
  | .interrupted :: rest, u, n + 1, got, hs, h => by
    unfold readExactAux
    exact readExactAux_complete rest _ _ _ (fun a ha => hs a (List.mem_cons_of_mem _ ha)) h
  | .fail :: rest, u, n + 1, got, hs, _ => absurd rfl (hs .fail List.mem_cons_self).1

theorem readToEndAux_sound : ∀ (script : List ReadResp) (u got : List Byte) {x : List Byte}, .give 0 ∉ script →
    readToEndAux script u got = some x → x = got ++ u
  | [], u, got, x, _, h => by
    unfold readToEndAux at h
    exact (Option.some.inj h).symm
  | .give k :: rest, u, got, x, hs, h => by
    have hk : k ≠ 0 := fun e => hs (e ▸ List.mem_cons_self)
    unfold readToEndAux at h
    dsimp only at h
    split at h
    · have hu : u = [] := List.eq_nil_of_length_eq_zero (by omega)
      rw [← Option.some.inj h, hu, List.append_nil]
    · rw [readToEndAux_sound rest _ _ (fun h => hs (List.mem_cons_of_mem _ h)) h, List.append_assoc, List.take_append_drop]
  | .interrupted :: rest, u, got, x, hs, h => by
    unfold readToEndAux at h
    exact readToEndAux_sound rest _ _ (fun h => hs (List.mem_cons_of_mem _ h)) h
  | .fail :: rest, u, got, x, _, h => by
    unfold readToEndAux at h
    cases h

theorem readToEndAux_complete : ∀ (script : List ReadResp) (u got : List Byte), .fail ∉ script →
    ∃ x, readToEndAux script u got = some x
  | [], u, got, _ => ⟨_, by unfold readToEndAux; rfl⟩
  | .give k :: rest, u, got, hs => by
    unfold readToEndAux
    dsimp only
    split
    · exact ⟨_, rfl⟩
    · exact readToEndAux_complete rest _ _ (fun h => hs (List.mem_cons_of_mem _ h))
  | .interrupted :: rest, u, got, hs => by
    unfold readToEndAux
    exact readToEndAux_complete rest _ _ (fun h => hs (List.mem_cons_of_mem _ h))
  | .fail :: rest, u, got, hs => absurd List.mem_cons_self hs

theorem readExact_sound {r r' : Reader} {n : Nat} {x : List Byte} (h : r.readExact n = some (x, r')) :
    n ≤ r.unread.length ∧ x = r.unread.take n ∧ r'.unread = r.unread.drop n ∧ r'.bytes = r.bytes ∧ r'.pos = r.pos + n
      ∧ r'.seekable = r.seekable ∧ ∀ a ∈ r'.script, a ∈ r.script := by
  unfold readExact at h
  rw [Option.map_eq_some_iff] at h
  obtain ⟨⟨y, s⟩, h1, h2⟩ := h
  obtain ⟨h3, h4, h5⟩ := readExactAux_sound _ _ _ _ h1
  obtain ⟨rfl, rfl⟩ := Prod.mk.inj h2
  exact ⟨h3, by simpa using h4, by simp [unread, List.drop_drop], rfl, rfl, rfl, h5⟩

theorem readExact_complete {r : Reader} {n : Nat} (hs : Steady r) (h : n ≤ r.unread.length) : ∃ y, r.readExact n = some y := by
  obtain ⟨y, hy⟩ := readExactAux_complete r.script r.unread n [] hs h
  exact ⟨_, by unfold readExact; rw [hy]; rfl⟩

/-- what was read from a reader, and what is read from its content; `steady` says that the reader does not fail -/
def Reads {α : Type} (steady : Prop) : Option (α × Reader) → Option (α × List Byte) → Prop
  | some (a, r), some (a', bs) => a = a' ∧ r.unread = bs ∧ (steady → Steady r)
  | none, none => True
  | none, some _ => ¬ steady
  | some _, none => False

theorem Reads.bind {α β : Type} {p : Prop} {x : Option (α × Reader)} {y : Option (α × List Byte)} {f : α × Reader → Option (β × Reader)}
    {g : α × List Byte → Option (β × List Byte)} (h : Reads p x y) (hf : ∀ a r, (p → Steady r) → Reads p (f (a, r)) (g (a, r.unread))) :
    Reads p (x >>= f) (y >>= g) := by
  match x, y, h with
  | some (a, r), some (a', bs), h =>
    obtain ⟨rfl, rfl, h⟩ := h
    exact hf a r h
  | none, none, _ => trivial
  | none, some (a, bs), h =>
    show Reads p none (g (a, bs))
    match g (a, bs) with
    | none => trivial
    | some _ => exact h

theorem Reads.done {α : Type} {p : Prop} {a : α} {r : Reader} (h : p → Steady r) : Reads p (some (a, r)) (some (a, r.unread)) := ⟨rfl, rfl, h⟩

theorem Reads.map {α β : Type} {p : Prop} {x : Option (α × Reader)} {y : Option (α × List Byte)} (h : Reads p x y) (f : α → β) :
    Reads p (x.map fun (a, r) => (f a, r)) (y.map fun (a, bs) => (f a, bs)) := by
  match x, y, h with
  | some (a, r), some (a', bs), h =>
    obtain ⟨rfl, rfl, h⟩ := h
    exact ⟨rfl, rfl, h⟩
  | none, none, _ => trivial
  | none, some _, h => exact h

theorem reads_U {p : Prop} (w : Nat) {r : Reader} (hr : p → Steady r) : Reads p (decU w r) (Bincode.decU w r.unread) := by
  unfold decU Bincode.decU
  by_cases h : w ≤ r.unread.length
  · rw [if_pos h]
    match e : r.readExact w with
    | none =>
      intro hp
      obtain ⟨y, hy⟩ := readExact_complete (hr hp) h
      rw [e] at hy
      cases hy
    | some (x, r') =>
      obtain ⟨_, h2, h3, _, _, _, h4⟩ := readExact_sound e
      exact ⟨by rw [h2], h3, fun hp a ha => hr hp a (h4 a ha)⟩
  · rw [if_neg h]
    match e : r.readExact w with
    | none => trivial
    | some (x, r') => exact h (readExact_sound e).1

theorem reads_I16 {p : Prop} {r : Reader} (hr : p → Steady r) : Reads p (decI16 r) (Bincode.decI16 r.unread) :=
  (reads_U 2 hr).bind fun _ _ h => .done h

theorem reads_N {α : Type} {p : Prop} {d : Dec α} {d' : Bincode.Dec α} (hd : ∀ r, (p → Steady r) → Reads p (d r) (d' r.unread)) :
    ∀ (n : Nat) (r : Reader), (p → Steady r) → Reads p (decN d n r) (Bincode.decN d' n r.unread)
  | 0, _, hr => .done hr
  | n + 1, r, hr => (hd r hr).bind fun _ r hr => (reads_N hd n r hr).bind fun _ _ hr => .done hr

theorem reads_Vec {α : Type} {p : Prop} {d : Dec α} {d' : Bincode.Dec α} (hd : ∀ r, (p → Steady r) → Reads p (d r) (d' r.unread))
    {r : Reader} (hr : p → Steady r) : Reads p (decVec d r) (Bincode.decVec d' r.unread) :=
  (reads_U 8 hr).bind fun n r hr => reads_N hd n r hr

theorem reads_bits {p : Prop} (w : Nat) {r : Reader} (hr : p → Steady r) :
    Reads p (decBits w r) ((Bincode.decU w r.unread).map fun (n, bs) => (BitVec.ofNat (8 * w) n, bs)) := by
  unfold decBits
  have h := (reads_U w hr).map (BitVec.ofNat (8 * w))
  match decU w r, h with
  | none, h => exact h
  | some _, h => exact h

theorem reads_Opt {α : Type} {p : Prop} {d : Dec α} {d' : Bincode.Dec α} (hd : ∀ r, (p → Steady r) → Reads p (d r) (d' r.unread))
    {r : Reader} (hr : p → Steady r) : Reads p (decOpt d r) (Bincode.decOpt d' r.unread) := by
  have e : Bincode.decOpt d' r.unread = (do
      let (t, bs) ← Bincode.decU 1 r.unread
      if t = 0 then some (none, bs)
      else if t = 1 then (d' bs).map fun (a, bs) => (some a, bs)
      else none) := by
    unfold Bincode.decOpt Bincode.decU
    match r.unread with
    | [] => rfl
    | t :: bs =>
      have ht : Bincode.leNat [t] = t.toNat := by simp [Bincode.leNat]
      have h0 : (t = 0#8) ↔ t.toNat = 0 := by rw [← BitVec.toNat_inj]; rfl
      have h1 : (t = 1#8) ↔ t.toNat = 1 := by rw [← BitVec.toNat_inj]; rfl
      simp [ht, h0, h1]
  rw [e]
  refine (reads_U 1 hr).bind fun t r hr => ?_
  dsimp only
  split
  · exact .done hr
  · split
    · exact (hd r hr).map some
    · trivial

end Reader

namespace AdhocCodec
open Reader

theorem reads_slim {p : Prop} {r : Reader} (hr : p → Steady r) : Reads p (readSlim r) (decSlim r.unread) := by
  unfold readSlim decSlim
  refine (reads_U 4 hr).bind fun level r hr => ?_
  refine (reads_Vec (fun r hr => reads_bits 1 hr) hr).bind fun data r hr => ?_
  refine (reads_U 4 hr).bind fun count r hr => ?_
  refine (reads_Vec (fun r hr => reads_bits 8 hr) hr).bind fun bits r hr => ?_
  refine (reads_U 16 hr).bind fun cursor r hr => ?_
  refine (reads_Vec (fun r hr => reads_U 2 hr) hr).bind fun sizes r hr => ?_
  refine (reads_Vec (fun r hr => reads_U 8 hr) hr).bind fun cursors r hr => ?_
  refine (reads_Vec (fun r hr => ?_) hr).bind fun hist r hr => ?_
  · exact (reads_I16 hr).bind fun a r hr => (reads_I16 hr).bind fun b r hr => (reads_I16 hr).bind fun c r hr => .done hr
  refine (reads_U 4 hr).bind fun hc r hr => ?_
  refine (reads_Opt (fun r hr => ?_) hr).bind fun info r hr => ?_
  · exact (reads_U 4 hr).bind fun q r hr => (reads_U 4 hr).bind fun c r hr => .done hr
  refine (reads_Vec (fun r hr => reads_bits 16 hr) hr).bind fun binary r hr => ?_
  refine (reads_U 16 hr).bind fun bc r hr => ?_
  exact (reads_U 16 hr).bind fun cap r hr => .done hr

end AdhocCodec
end Adhoc

import Verif.Proofs.Files

/-! Each content has one encoding: what the reader accepts is what the writer would have written. -/

namespace Adhoc
open Spec Bincode

/-- the decoder accepts only encodings, and the values it gives are in range -/
def Back {α : Type} (d : Dec α) (e : α → List Byte) (P : α → Prop) : Prop := ∀ bs a rest, d bs = some (a, rest) → bs = e a ++ rest ∧ P a

theorem byteNat_lt : ∀ bs : List Byte, leNat bs < 256 ^ bs.length
  | [] => by simp [leNat]
  | b :: bs => by
    have h1 := byteNat_lt bs
    have h2 := b.isLt
    rw [List.length_cons, Nat.pow_succ, leNat]
    omega

theorem leBytes_of_leNat : ∀ bs : List Byte, leBytes bs.length (leNat bs) = bs
  | [] => rfl
  | b :: bs => by
    have h2 := b.isLt
    rw [List.length_cons, leBytes, leNat]
    congr 1
    · apply BitVec.eq_of_toNat_eq
      rw [BitVec.toNat_ofNat]
      omega
    · rw [show (b.toNat + 256 * leNat bs) / 256 = leNat bs by omega]
      exact leBytes_of_leNat bs

theorem back_U (w : Nat) : Back (decU w) (leBytes w) (fun n => n < 256 ^ w) := by
  intro bs a rest h
  unfold decU at h
  split at h
  · next hw =>
    simp only [Option.some.injEq, Prod.mk.injEq] at h
    obtain ⟨rfl, rfl⟩ := h
    have hl : (bs.take w).length = w := by simp [hw]
    refine ⟨?_, ?_⟩
    · conv_rhs => rw [← hl]
      rw [hl]
      have := leBytes_of_leNat (bs.take w)
      rw [hl] at this
      rw [this, List.take_append_drop]
    · have := byteNat_lt (bs.take w)
      rwa [hl] at this
  · exact absurd h (by simp)

theorem back_bits {w n : Nat} (h : n = 8 * w) :
    Back (fun bs => (decU w bs).map fun (k, bs) => (BitVec.ofNat n k, bs)) (fun v : BitVec n => leBytes w v.toNat) (fun _ => True) := by
  intro bs a rest hd
  rw [Option.map_eq_some_iff] at hd
  obtain ⟨⟨k, bs'⟩, h1, h2⟩ := hd
  simp only [Prod.mk.injEq] at h2
  obtain ⟨rfl, rfl⟩ := h2
  obtain ⟨h3, h4⟩ := back_U w _ _ _ h1
  refine ⟨?_, trivial⟩
  dsimp only
  rw [BitVec.toNat_ofNat, Nat.mod_eq_of_lt (by subst h; rw [Nat.pow_mul]; exact h4)]
  exact h3

theorem back_I16 : Back decI16 (fun x => leBytes 2 (asU 16 x)) (fun x => InI 16 x) := by
  intro bs a rest hd
  unfold decI16 at hd
  simp only [Option.bind_eq_bind, Option.bind_eq_some_iff] at hd
  obtain ⟨⟨k, bs'⟩, h1, h2⟩ := hd
  simp only [Option.pure_def, Option.some.injEq, Prod.mk.injEq] at h2
  obtain ⟨rfl, rfl⟩ := h2
  obtain ⟨h3, h4⟩ := back_U 2 _ _ _ h1
  have h5 : asU 16 (asI 16 (k : Int)) = k := by
    unfold asU asI
    have h6 : (k : Int).bmod (2 ^ 16) % ((2 ^ 16 : Nat) : Int) = k % ((2 ^ 16 : Nat) : Int) := Int.bmod_emod
    norm_num at h4 h6 ⊢
    omega
  refine ⟨by dsimp only; rw [h5]; exact h3, ?_⟩
  have h6 := Int.le_bmod (x := (k : Int)) (m := 2 ^ 16) (by norm_num)
  have h7 := Int.bmod_lt (x := (k : Int)) (m := 2 ^ 16) (by norm_num)
  exact inI16.2 ⟨by unfold asI; norm_num at h6 ⊢; omega, by unfold asI; norm_num at h7 ⊢; omega⟩

theorem back_N {α : Type} {d : Dec α} {e : α → List Byte} {P : α → Prop} (H : Back d e P) : ∀ (n : Nat),
    Back (decN d n) (fun l => l.flatMap e) (fun l => l.length = n ∧ ∀ a ∈ l, P a)
  | 0 => by
    intro bs a rest h
    simp only [decN, Option.some.injEq, Prod.mk.injEq] at h
    obtain ⟨rfl, rfl⟩ := h
    simp
  | n + 1 => by
    intro bs a rest h
    simp only [decN, Option.bind_eq_bind, Option.bind_eq_some_iff] at h
    obtain ⟨⟨x, bs1⟩, h1, ⟨xs, bs2⟩, h2, h3⟩ := h
    simp only [Option.pure_def, Option.some.injEq, Prod.mk.injEq] at h3
    obtain ⟨rfl, rfl⟩ := h3
    obtain ⟨k1, k2⟩ := H _ _ _ h1
    obtain ⟨k3, k4, k5⟩ := back_N H n _ _ _ h2
    refine ⟨?_, by simp [k4], ?_⟩
    · dsimp only at k3 ⊢
      rw [k1, k3, List.flatMap_cons, List.append_assoc]
    · intro a ha
      rcases List.mem_cons.1 ha with rfl | ha
      · exact k2
      · exact k5 a ha

theorem back_Vec {α : Type} {d : Dec α} {e : α → List Byte} {P : α → Prop} (H : Back d e P) :
    Back (decVec d) (fun l => leBytes 8 l.length ++ l.flatMap e) (fun l => l.length < 2 ^ 64 ∧ ∀ a ∈ l, P a) := by
  intro bs a rest h
  simp only [decVec, Option.bind_eq_bind, Option.bind_eq_some_iff] at h
  obtain ⟨⟨n, bs1⟩, h1, h2⟩ := h
  obtain ⟨k1, k2⟩ := back_U 8 _ _ _ h1
  obtain ⟨k3, k4, k5⟩ := back_N H n _ _ _ h2
  subst k4
  refine ⟨?_, by norm_num at k2 ⊢; exact k2, k5⟩
  dsimp only at k3 ⊢
  rw [k1, k3, List.append_assoc]

theorem back_Opt {α : Type} {d : Dec α} {e : α → List Byte} {P : α → Prop} (H : Back d e P) :
    Back (decOpt d) (fun o => match o with | none => [0#8] | some a => 1#8 :: e a) (fun o => ∀ a, o = some a → P a) := by
  intro bs o rest h
  unfold decOpt at h
  cases bs with
  | nil => exact absurd h (by simp)
  | cons t bs =>
    dsimp only at h
    split at h
    · next ht =>
      simp only [Option.some.injEq, Prod.mk.injEq] at h
      obtain ⟨rfl, rfl⟩ := h
      subst ht
      exact ⟨rfl, fun a ha => absurd ha (by simp)⟩
    · split at h
      · next ht =>
        rw [Option.map_eq_some_iff] at h
        obtain ⟨⟨a, bs'⟩, h1, h2⟩ := h
        simp only [Prod.mk.injEq] at h2
        obtain ⟨rfl, rfl⟩ := h2
        obtain ⟨k1, k2⟩ := H _ _ _ h1
        subst ht
        exact ⟨by rw [k1]; rfl, fun b hb => by rw [← Option.some.inj hb]; exact k2⟩
      · exact absurd h (by simp)

/-- a codec with these contents -/
def ofSlim (s : AdhocCodec.Slim) : AdhocCodec :=
  { AdhocCodec.new with compressionLevel := s.compressionLevel, frameHeaderList := s.frameHeaderList, stream := s.stream }

theorem back_hist : Back (fun bs => do
    let (a, bs) ← decI16 bs
    let (b, bs) ← decI16 bs
    let (c, bs) ← decI16 bs
    pure ((a, b, c), bs)) (fun t : Int × Int × Int => leBytes 2 (asU 16 t.1) ++ (leBytes 2 (asU 16 t.2.1) ++ leBytes 2 (asU 16 t.2.2)))
    (fun t => InI 16 t.1 ∧ InI 16 t.2.1 ∧ InI 16 t.2.2) := by
  intro bs t rest h
  simp only [Option.bind_eq_bind, Option.bind_eq_some_iff] at h
  obtain ⟨⟨a, bs1⟩, h1, ⟨b, bs2⟩, h2, ⟨c, bs3⟩, h3, h4⟩ := h
  simp only [Option.pure_def, Option.some.injEq, Prod.mk.injEq] at h4
  obtain ⟨rfl, rfl⟩ := h4
  obtain ⟨k1, l1⟩ := back_I16 _ _ _ h1
  obtain ⟨k2, l2⟩ := back_I16 _ _ _ h2
  obtain ⟨k3, l3⟩ := back_I16 _ _ _ h3
  exact ⟨by dsimp only at k1 k2 k3 ⊢; rw [k1, k2, k3]; simp, l1, l2, l3⟩

theorem back_info : Back (fun bs => do
    let (r, bs) ← decU 4 bs
    let (c, bs) ← decU 4 bs
    pure (({ sampleRate := r, channels := c } : StreamInfo), bs)) (fun i => leBytes 4 i.sampleRate ++ leBytes 4 i.channels)
    (fun i => i.sampleRate < 2 ^ 32 ∧ i.channels < 2 ^ 32) := by
  intro bs t rest h
  simp only [Option.bind_eq_bind, Option.bind_eq_some_iff] at h
  obtain ⟨⟨a, bs1⟩, h1, ⟨b, bs2⟩, h2, h4⟩ := h
  simp only [Option.pure_def, Option.some.injEq, Prod.mk.injEq] at h4
  obtain ⟨rfl, rfl⟩ := h4
  obtain ⟨k1, l1⟩ := back_U 4 _ _ _ h1
  obtain ⟨k2, l2⟩ := back_U 4 _ _ _ h2
  norm_num at l1 l2
  exact ⟨by dsimp only at k1 k2 ⊢; rw [k1, k2]; simp, by simpa using l1, by simpa using l2⟩

theorem step {α β : Type} {d : Option (α × List Byte)} {k : α × List Byte → Option (β × List Byte)} {r : β × List Byte} (h : (d >>= k) = some r) :
    ∃ a bs, d = some (a, bs) ∧ k (a, bs) = some r := by
  rw [Option.bind_eq_bind, Option.bind_eq_some_iff] at h
  obtain ⟨⟨a, bs⟩, h1, h2⟩ := h
  exact ⟨a, bs, h1, h2⟩

/-- what the reader accepts is an encoding of what it gives, followed by what it leaves -/
theorem back_slim {bs rest : List Byte} {s : AdhocCodec.Slim} (h : AdhocCodec.decSlim bs = some (s, rest)) :
    bs = savedBytes (ofSlim s) ++ rest ∧ Counted (ofSlim s) ∧ TypedHeaders s.frameHeaderList ∧ s.compressionLevel < 2 ^ 32 := by
  unfold AdhocCodec.decSlim at h
  obtain ⟨a1, r1, h1, h⟩ := step h
  obtain ⟨a2, r2, h2, h⟩ := step h
  obtain ⟨a3, r3, h3, h⟩ := step h
  obtain ⟨a4, r4, h4, h⟩ := step h
  obtain ⟨a5, r5, h5, h⟩ := step h
  obtain ⟨a6, r6, h6, h⟩ := step h
  obtain ⟨a7, r7, h7, h⟩ := step h
  obtain ⟨a8, r8, h8, h⟩ := step h
  obtain ⟨a9, r9, h9, h⟩ := step h
  obtain ⟨a10, r10, h10, h⟩ := step h
  obtain ⟨a11, r11, h11, h⟩ := step h
  obtain ⟨a12, r12, h12, h⟩ := step h
  obtain ⟨a13, r13, h13, h⟩ := step h
  simp only [Option.pure_def, Option.some.injEq, Prod.mk.injEq] at h
  obtain ⟨rfl, rfl⟩ := h
  obtain ⟨k1, l1⟩ := back_U 4 _ _ _ h1
  obtain ⟨k2, l2⟩ := back_Vec (back_bits (w := 1) (n := 8) rfl) _ _ _ h2
  obtain ⟨k3, l3⟩ := back_U 4 _ _ _ h3
  obtain ⟨k4, l4⟩ := back_Vec (back_bits (w := 8) (n := 64) rfl) _ _ _ h4
  obtain ⟨k5, l5⟩ := back_U 16 _ _ _ h5
  obtain ⟨k6, l6⟩ := back_Vec (back_U 2) _ _ _ h6
  obtain ⟨k7, l7⟩ := back_Vec (back_U 8) _ _ _ h7
  obtain ⟨k8, l8⟩ := back_Vec back_hist _ _ _ h8
  obtain ⟨k9, l9⟩ := back_U 4 _ _ _ h9
  obtain ⟨k10, l10⟩ := back_Opt back_info _ _ _ h10
  obtain ⟨k11, l11⟩ := back_Vec (back_bits (w := 16) (n := 128) rfl) _ _ _ h11
  obtain ⟨k12, l12⟩ := back_U 16 _ _ _ h12
  obtain ⟨k13, l13⟩ := back_U 16 _ _ _ h13
  norm_num at l1 l3 l5 l9 l12 l13
  refine ⟨?_, ⟨l10, l2.1, ?_, l4.1, ?_, l6.1, l7.1, l8.1, ?_, l11.1, ?_, ?_⟩, ⟨?_, ?_, l8.2⟩, by simpa using l1⟩
  · rw [k1, k2, k3, k4, k5, k6, k7, k8, k9, k10, k11, k12, k13]
    unfold savedBytes AdhocCodec.encPieces ofSlim
    simp only [List.flatten_append, flatten_encU, flatten_encVec, List.append_assoc, encI16]
    cases a10 <;> simp [encOpt]
  · simpa [ofSlim] using l3
  · simpa [ofSlim] using l5
  · simpa [ofSlim] using l9
  · simpa [ofSlim] using l12
  · simpa [ofSlim] using l13
  · intro x hx; have := l6.2 x hx; norm_num at this; simpa using this
  · intro x hx; have := l7.2 x hx; norm_num at this; simpa using this

end Adhoc

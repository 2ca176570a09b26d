import Verif.Proofs.Codec

/-! A recording that is continued. -/

namespace Adhoc
open Spec

theorem encodeAll_append (b : Build) (c : AdhocCodec) (calls more : List (List F32)) :
    encodeAll b c (calls ++ more) = (encodeAll b c calls >>= fun c => encodeAll b c more) := by
  unfold encodeAll
  rw [foldlM_append']

theorem signal_append (n : Nat) (calls more : List (List F32)) : signal n (calls ++ more) = signal n calls ++ signal n more := by
  simp [signal]

/-- Both recordings, the earlier one and the continued one, and that the frames of the earlier one are the first frames of the other. -/
theorem recorded_split {b : Build} {info : StreamInfo} {level : Nat} {calls more : List (List F32)} {c : AdhocCodec}
    (hn : 0 < info.channels) (h : encodeAll b (fresh info level) (calls ++ more) = .ok c) :
    ∃ c0 blocks new, encodeAll b (fresh info level) calls = .ok c0 ∧ encodeAll b c0 more = .ok c ∧
      EncSt c0 info (flat info.channels blocks) (codesOf blocks) ∧ Recorded info.channels (fresh info level).invScale calls blocks ∧
      EncSt c info (flat info.channels (blocks ++ new)) (codesOf (blocks ++ new)) ∧
      Recorded info.channels (fresh info level).invScale (calls ++ more) (blocks ++ new) ∧ SameLevel (fresh info level) c0 ∧ SameLevel (fresh info level) c := by
  obtain ⟨hfirst, -⟩ := recorded_of_ok hn h
  rw [encodeAll_append] at h
  cases h0 : encodeAll b (fresh info level) calls with
  | error e => rw [h0] at h; cases h
  | ok c0 =>
    rw [h0, bind_ok] at h
    obtain ⟨-, blocks, H, HR, s⟩ := recorded_of_ok hn h0
    have hrel : encodeAll .release c0 more = .ok c := by
      refine Ref.build (f := fun b => encodeAll b c0 more) ?_ h
      exact Ref.foldlM (fun c pcm => (ref_encode c pcm).bind fun _ => Ref.rfl) _ _
    have hrec := HR.toRec hn
    obtain ⟨c', blocks', e, H', HR', s', ⟨new, rfl⟩⟩ := encodeAll_ok (b := .release) hn (inv := (fresh info level).invScale)
      (fun blocks rest => (blocks = [] ∧ ∀ first ∈ rest.head?, 3 ≤ first.length / info.channels) ∨ ∀ ch < info.channels, 3 ≤ (codesOf blocks ch).length)
      (by
        intro blocks pcm rest hI
        refine ⟨?_, fun ch _ => by unfold Fr.calm Calm; split <;> exact .inl rfl, ?_⟩
        · intro ch hch h0
          rcases hI with ⟨-, h⟩ | hb
          · exact h pcm (by simp)
          · have := hb ch hch
            rw [h0] at this
            simp at this
        · intro blk hm
          right
          intro ch hch
          rw [codesOf_append, List.length_append]
          rcases hI with ⟨rfl, h⟩ | hb
          · have h1 := h pcm (by simp)
            have h2 := (hm ch hch).length
            rw [codesOf_singleton, h2]
            omega
          · have := hb ch hch
            omega)
      more s.inv H HR (by
        cases calls with
        | nil =>
          left
          exact ⟨List.eq_nil_of_length_eq_zero HR.len, by simpa using hfirst⟩
        | cons first rest =>
          right
          intro ch hch
          rw [hrec.length hch, HR.rows hn]
          have := hfirst first (by simp)
          simp only [signal, List.flatMap_cons, List.length_append, length_blocksOf]
          omega)
    rw [e] at hrel
    cases hrel
    exact ⟨c0, blocks, new, rfl, h, H, HR, H', HR', s, s.trans s'⟩

end Adhoc

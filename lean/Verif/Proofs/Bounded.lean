import Verif.Proofs.Ends
import Verif.Proofs.Canonical
import Verif.Spec.Tape

/-! What is left to play after loading and after seeking. -/

namespace Adhoc
open Spec

/-- rows of frame headers, the last one possibly short -/
def Spec.rowsHeld (h : FrameHeaders) (n : Nat) : Nat := (headersHeld h + n - 1) / n

theorem rows_cover {h : FrameHeaders} {n : Nat} (hn : 0 < n) : headersHeld h ≤ rowsHeld h n * n := by
  unfold rowsHeld
  have h1 := Nat.div_add_mod (headersHeld h + n - 1) n
  have h2 := Nat.mod_lt (headersHeld h + n - 1) hn
  rw [Nat.mul_comm] at h1
  omega

theorem init_left {c : AdhocCodec} {n : Nat} {base : FrameHeaders} (hn : 0 < n) (H : Cast c n base) :
    Cast c.init n base ∧ Left c.init n base (65535 * rowsHeld base n) := by
  refine ⟨⟨H.chans, ?_, H.sizes, by simpa [AdhocCodec.init] using H.width⟩, 0, rowsHeld base n, fun i => ?_, ?_, by omega⟩
  · show c.frameHeaderList.reset = _
    rw [H.headers]; rfl
  · unfold bufLen AdhocCodec.init
    dsimp only
    rw [List.getElem?_map]
    cases c.channelStateList[i]? <;> simp [FrameCodec.init]
  · show _ ≤ 0 + _
    have := rows_cover (h := base) hn
    omega

theorem halts_seekChannel {b : Build} {c : AdhocCodec} {n : Nat} {base : FrameHeaders} (H : Cast c n base) (start off : Nat) (hc : c.frameHeaderList.headerCursor = start + off)
    (hb : ∀ i, bufLen c i ≤ 65535) : Halts (c.seekChannel b start off) (fun c' => Cast c' n base ∧
      c'.frameHeaderList.headerCursor = start + (off + 1) ∧ ∀ i, bufLen c' i ≤ 65535) := by
  unfold AdhocCodec.seekChannel
  refine (halts_get _ _).bind fun o ho => ?_
  refine (halts_expect _).bind fun hdr hhdr => (halts_idx _ _).bind fun fc hfc => (halts_decodeFrame H.sizes').bind ?_
  rintro ⟨fc', st, hd, o'⟩ ⟨hi, hr⟩
  refine (halts_setIdx _ _ _).bind fun chs hchs => Halts.ok ?_
  obtain ⟨hlt, rfl⟩ := hchs
  have hheld := ho hdr hhdr
  have hle : headersHeld c.frameHeaderList ≤ c.frameHeaderList.len := Nat.min_le_left _ _
  dsimp only at hr
  obtain ⟨-, h2, h3⟩ := hr.resolve_left (fun h => by have := h.1; omega)
  refine ⟨⟨?_, ?_, H.sizes, by simpa using H.width⟩, ?_, fun i => ?_⟩
  · obtain ⟨info, h1, h2⟩ := H.chans
    exact ⟨info, by rw [← h1]; exact hi, h2⟩
  · dsimp only
    rw [h2]; conv_lhs => rw [H.headers]
    rfl
  · dsimp only
    rw [h2]
    show c.frameHeaderList.headerCursor + 1 = _
    omega
  · rw [bufLen_set hlt]
    split
    · simpa using h3
    · exact hb i

theorem halts_dropOne_left {c : AdhocCodec} {n : Nat} {base : FrameHeaders} (H : Cast c n base) {k : Nat} (hk : c.frameHeaderList.headerCursor = k) (hb : ∀ i, bufLen c i ≤ 65535)
    (m : Nat) : Halts (c.dropOne m) (fun c' => Cast c' n base ∧ c'.frameHeaderList.headerCursor = k ∧ ∀ i, bufLen c' i ≤ 65535) := by
  unfold AdhocCodec.dropOne
  refine Halts.foldlM (P := fun c' => Cast c' n base ∧ c'.frameHeaderList.headerCursor = k ∧ ∀ i, bufLen c' i ≤ 65535) (fun c' off ⟨H', hk', hb'⟩ => ?_) _ _ ⟨H, hk, hb⟩
  refine (halts_idx _ _).bind fun fc hfc => (halts_setIdx _ _ _).bind ?_
  rintro _ ⟨hlt, rfl⟩
  refine Halts.ok ⟨⟨H'.chans, H'.headers, H'.sizes, by simpa using H'.width⟩, hk', fun i => ?_⟩
  have h1 := bufLen_set hlt { fc with buffered := fc.buffered.tail } c'.stream c'.frameHeaderList i
  have h2 := hb' off
  have h3 : bufLen c' off = fc.buffered.length := by unfold bufLen; rw [hfc]; rfl
  rw [h1]
  split
  · simp only [List.length_tail]; omega
  · exact hb' i

theorem ens_prune {b : Build} {n : Nat} {base : FrameHeaders} {k m target : Nat} : ∀ (fuel x : Nat) (c : AdhocCodec) (_ : Cast c n base)
    (_ : c.frameHeaderList.headerCursor = k) (_ : ∀ i, bufLen c i ≤ 65535),
    Ens (AdhocCodec.prune b m target fuel x c) (fun c' => Cast c' n base ∧ c'.frameHeaderList.headerCursor = k ∧ ∀ i, bufLen c' i ≤ 65535)
  | 0, _, _, _, _, _ => by intro y hy; exact absurd hy (by simp [AdhocCodec.prune])
  | fuel + 1, x, c, H, hk, hb => by
    unfold AdhocCodec.prune
    split
    · exact (halts_dropOne_left H hk hb m).2.bind fun c' ⟨h1, h2, h3⟩ => (Ens.any _).bind fun y _ => ens_prune fuel y c' h1 h2 h3
    · exact Ens.ok ⟨H, hk, hb⟩

/-- after a seek no more than the whole file is left -/
theorem halts_seek_left {b : Build} {c : AdhocCodec} {n : Nat} {base : FrameHeaders} (hn : 0 < n) (H : Cast c n base) (dt : SeekFrom) :
    Halts (c.seek b dt) (fun c' => Cast c' n base ∧ Left c' n base (65535 * rowsHeld base n)) := by
  refine ⟨(halts_seek b c dt).1, ?_⟩
  obtain ⟨H0, L0⟩ := init_left hn H
  unfold AdhocCodec.seek
  refine (halts_expect _).2.bind fun info hinfo => ?_
  obtain ⟨info', hi', hch⟩ := H.chans
  have : info = info' := by rw [hi'] at hinfo; exact (Option.some.inj hinfo).symm
  subst this
  dsimp only
  split
  · split
    · exact Ens.ok ⟨H0, L0⟩
    · unfold AdhocCodec.seekTo
      rw [hch]
      dsimp only
      refine (Ens.any _).bind fun target _ => (Ens.any _).bind fun bl _ => (Ens.any _).bind fun r _ => ?_
      refine (halts_get _ _).2.bind fun o ho => (halts_expect _).2.bind fun hdr hhdr => ?_
      have hK := ho hdr hhdr
      have hheld : headersHeld c.init.frameHeaderList = headersHeld base := by rw [H0.headers]; rfl
      rw [hheld] at hK
      have key : ∀ j, Halts ((List.range j).foldlM (fun c off => AdhocCodec.seekChannel b c (r.2 * n) off)
          { c.init with
            stream := { c.init.stream with stream := c.init.stream.stream.setBitCursor hdr.bitCursor }
            frameHeaderList := c.init.frameHeaderList.setCursor (r.2 * n) })
          (fun c' => Cast c' n base ∧ c'.frameHeaderList.headerCursor = r.2 * n + j ∧ ∀ i, bufLen c' i ≤ 65535) := by
        intro j
        induction j with
        | zero =>
          refine Halts.ok ⟨⟨H0.chans, ?_, H0.sizes, H0.width⟩, rfl, fun i => ?_⟩
          · conv_lhs => rw [H0.headers]
            rfl
          · have : bufLen c.init i = 0 := by
              unfold bufLen AdhocCodec.init
              dsimp only
              rw [List.getElem?_map]
              cases c.channelStateList[i]? <;> simp [FrameCodec.init]
            exact le_trans (le_of_eq this) (by omega)
        | succ j ih =>
          rw [List.range_succ, List.foldlM_append]
          refine ih.bind fun c1 ⟨H1, h1, h2⟩ => ?_
          rw [List.foldlM_cons]
          exact (halts_seekChannel H1 _ _ h1 h2).bind fun c2 h => Halts.ok h
      refine (key n).2.bind fun c1 ⟨H1, h1, h2⟩ => fun c2 hc2 => ?_
      obtain ⟨H2, k1, k2⟩ := ens_prune _ _ _ H1 h1 h2 c2 hc2
      refine ⟨H2, ?_⟩
      have hr := rows_cover (h := base) hn
      obtain ⟨R, hR⟩ : ∃ R, rowsHeld base n = R + 1 := by
        cases h : rowsHeld base n with
        | zero => rw [h] at hr; omega
        | succ R => exact ⟨R, rfl⟩
      rw [hR, Nat.add_mul, Nat.one_mul] at hr
      exact ⟨65535, R, k2, by omega, by omega⟩
  · exact fun x hx => absurd hx (by simp)

end Adhoc

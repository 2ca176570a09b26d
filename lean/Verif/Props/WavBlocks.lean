import Verif.Props.WavTape
import Verif.Props.HalfTape

/-! # C43: the seeks that leave a block -/

namespace Adhoc
open Spec

/-- a seek that does not overflow goes to a block or to the last sample -/
theorem seek_lands {w w' : WavCodec} {dt : SeekFrom} (hne : 0 < w.numSamples) (h : w.seek .debug dt = .ok w') :
    ∃ k : Int, w' = { w with shortCursor := (max 0 (min (k * w.info.channels) (w.numSamples - 1))).toNat } := by
  have hhi : (0 : Int) ≤ (w.numSamples : Int) - 1 := by omega
  have hdeb : ∀ {x y : Int}, chkI .debug 64 x = .ok y → y = x := by
    intro x y h
    unfold chkI at h
    split at h
    · exact (Except.ok.inj h).symm
    · cases h
  unfold WavCodec.seek at h
  cases dt with
  | current dt =>
    obtain ⟨q, h1, h⟩ := bind_eq_ok.1 h
    obtain ⟨p, h2, h⟩ := bind_eq_ok.1 h
    obtain ⟨s, h3, h⟩ := bind_eq_ok.1 h
    obtain ⟨c, h4, h⟩ := bind_eq_ok.1 h
    have e2 := hdeb h2
    have e3 := hdeb h3
    rw [clamp_inside hhi] at h4
    refine ⟨q + WavCodec.seekOffset w.info dt, ?_⟩
    rw [← pure_eq_ok] at h
    have := Except.ok.inj h
    rw [← this, ← Except.ok.inj h4, e3, e2, Int.add_mul]
  | start dt =>
    obtain ⟨p, h2, h⟩ := bind_eq_ok.1 h
    obtain ⟨c, h4, h⟩ := bind_eq_ok.1 h
    have e2 := hdeb h2
    rw [clamp_inside hhi] at h4
    refine ⟨WavCodec.seekOffset w.info dt, ?_⟩
    have := Except.ok.inj h
    rw [← this, ← Except.ok.inj h4, e2]
  | «end» dt =>
    obtain ⟨p, h2, h⟩ := bind_eq_ok.1 h
    obtain ⟨s, h3, h⟩ := bind_eq_ok.1 h
    obtain ⟨c, h4, h⟩ := bind_eq_ok.1 h
    have e2 := hdeb h2
    have e3 := hdeb h3
    rw [clamp_inside hhi] at h4
    refine ⟨WavCodec.seekOffset w.info dt, ?_⟩
    have := Except.ok.inj h
    rw [← this, ← Except.ok.inj h4, e3, e2, Int.sub_self, Int.zero_add]

/-- C43, exactly. Take a stream of whole blocks, the cursor anywhere, and any seek that does not overflow (then both builds do the same, C40). With one channel, or if it does not go to the last sample, the
cursor is between two blocks, and C43 goes on to hold. Otherwise it is not, and every decode with room for a block reports 1 and is at the end, between two blocks again. -/
theorem C43_exact_partial (w w' : WavCodec) (dt : SeekFrom) (hbytes : w.pcm.length % 2 = 0) (hblocks : w.info.channels ∣ w.numSamples)
    (hn : 0 < w.info.channels) (hne : 0 < w.numSamples)
    (h : w.seek .debug dt = .ok w') :
    w'.info = w.info ∧ w'.pcm = w.pcm ∧ w'.shortCursor < w'.numSamples ∧
    (Aligned w' ↔ w.info.channels = 1 ∨ w'.shortCursor + 1 ≠ w.numSamples) ∧
    (¬ Aligned w' → ∀ buf, w.info.channels ≤ buf.length → ∃ w'' out, w'.decode buf = .ok (w'', out, some 1) ∧ Aligned w'' ∧ w''.shortCursor = w''.numSamples) := by
  obtain ⟨k, hk⟩ := seek_lands hne h
  obtain ⟨n, hnn⟩ : ∃ n, n = w.info.channels := ⟨_, rfl⟩
  obtain ⟨N, hN⟩ : ∃ N, N = w.numSamples := ⟨_, rfl⟩
  obtain ⟨q, hq⟩ : ∃ q, q = (max 0 (min (k * w.info.channels) (w.numSamples - 1))).toNat := ⟨_, rfl⟩
  rw [← hq] at hk
  have hb := hblocks
  have hs : w'.numSamples = w.numSamples := by rw [hk]; rfl
  have hi : w'.info = w.info := by rw [hk]
  have hc : w'.shortCursor = q := by rw [hk]
  have hlt : q < N := by omega
  rw [← hnn, ← hN] at hq hb
  have hal : n ∣ q ↔ n = 1 ∨ q + 1 ≠ N := by
    constructor
    · intro hd
      by_contra hcon
      have h1 : q + 1 = N := by omega
      have h2 : n ∣ 1 := (Nat.dvd_add_right hd).1 (by rw [h1]; exact hb)
      exact hcon (.inl (Nat.dvd_one.1 h2))
    · rintro (h1 | h1)
      · rw [h1]; exact one_dvd _
      · have : (q : Int) = 0 ∨ (q : Int) = k * n := by omega
        rcases this with h2 | h2
        · rw [show q = 0 by omega]; exact dvd_zero _
        · exact Int.natCast_dvd_natCast.1 ⟨k, by rw [h2, Int.mul_comm]⟩
  have hiff : Aligned w' ↔ n ∣ q := by
    constructor
    · intro h; have := h.cursor; rwa [hc, hi, ← hnn] at this
    · intro h
      exact ⟨by rw [hk]; exact hbytes, by rw [hs, hi]; exact hblocks, by rw [hc, hi, ← hnn]; exact h, by rw [hs, hc]; omega⟩
  refine ⟨hi, by rw [hk], by rw [hs, hc]; omega, ?_, ?_⟩
  · rw [hiff, hal, hc, ← hnn, ← hN]
  · intro hna buf hroom
    rw [hiff, hal] at hna
    have hlast : q + 1 = N := by omega
    have hone : n ≠ 1 := fun h => hna (.inl h)
    obtain ⟨t, hr⟩ := isReel_exists (w := w') (by rw [hk]; exact hbytes) (by rw [hc]; have : w.numSamples = w.pcm.length / 2 := rfl; rw [hk]; dsimp only; omega)
    obtain ⟨w2, e, i, H2⟩ := wavRun_ok [.decode buf] hr (by rw [hi]; exact hn)
    have hl := hr.samples
    have hp := hr.pos
    have hroom1 : n ≤ whole n buf.length := by
      unfold whole
      have : 1 ≤ buf.length / n := (Nat.one_le_div_iff (by omega)).2 (by omega)
      calc n = 1 * n := (Nat.one_mul n).symm
        _ ≤ _ := Nat.mul_le_mul_right n this
    have hys : (t.next (whole n buf.length)).length = 1 := by
      unfold Reel.next
      rw [List.length_take, List.length_drop]
      omega
    have hysne : t.next (whole n buf.length) ≠ [] := by
      intro h0; rw [h0] at hys; simp at hys
    simp only [reelRun, hi, ← hnn, hysne, if_false, hys] at e H2
    unfold wavRun at e
    obtain ⟨⟨w3, o3, r3⟩, e3, e⟩ := bind_eq_ok.1 e
    obtain ⟨⟨w4, o4⟩, e4, e⟩ := bind_eq_ok.1 e
    unfold wavRun at e4
    simp at e4 e
    obtain ⟨rfl, rfl⟩ := e4
    obtain ⟨rfl, ⟨rfl, rfl⟩, -⟩ := e
    refine ⟨w3, _, e3, ⟨?_, ?_, ?_, ?_⟩, ?_⟩
    · rw [H2.bytes, length_le16s]; omega
    · rw [i, hi, H2.samples, ← hnn]
      show n ∣ t.cells.length
      rw [← hl, hs, ← hN]; exact hb
    · rw [i, hi, H2.pos, ← hnn]
      show n ∣ t.pos + 1
      rw [← hp, hc, hlast]; exact hb
    · rw [H2.samples, H2.pos]
      show t.pos + 1 ≤ t.cells.length
      omega
    · rw [H2.samples, H2.pos]
      show t.pos + 1 = t.cells.length
      omega

example : six.pcm.length % 2 = 0 ∧ six.info.channels ∣ six.numSamples ∧ 0 < six.numSamples ∧
    (six.seek .debug (.start 2)).map (·.shortCursor) = .ok 4 ∧ (six.seek .debug (.start 7)).map (·.shortCursor) = .ok 5 ∧
    (WavCodec.decode { six with shortCursor := 5 } [F32.ofInt 0, F32.ofInt 0]).map (fun r => (r.1.shortCursor, r.2.2)) = .ok (6, some 1) := by
  decide +kernel

end Adhoc

import Verif.Props.Rate
import Verif.Props.WavTape
import Verif.Props.Accepts

/-! # C115: no channels -/

namespace Adhoc
open Spec F32

/-- **C115** as stated, for an `AdhocCodec` and a `WavCodec` set up for no channels -/
def C115_statement : Prop := ∀ (b : Build) (r : Nat),
  (∀ pcm, ∃ x, (fresh ⟨r, 0⟩ 0).encode b pcm = .ok x) ∧ (∀ buf, ∃ x, (fresh ⟨r, 0⟩ 0).decode b buf = .ok x) ∧
  (∀ pcm, ∃ x, (WavCodec.new ⟨r, 0⟩).encode pcm = .ok x) ∧ (∀ buf, ∃ x, (WavCodec.new ⟨r, 0⟩).decode buf = .ok x)

/-- C115 is false: even encoding nothing panics. -/
theorem C115_false : ¬ C115_statement := by
  intro h
  obtain ⟨x, hx⟩ := (h .release 44100).1 []
  have : ((fresh ⟨44100, 0⟩ 0).encode .release []).toOption.isSome = false := by decide +kernel
  rw [hx] at this
  cases this

/-- C115, exactly, for an `AdhocCodec` in whatever state with an info of no channels: encoding and decoding, also of nothing, divide by zero, as does every
seek but the one to the start, which rewinds; counting the samples panics; rewinding, setting the level and the size estimate work, as does
saving (which never panics). -/
theorem C115_adhoc_partial (b : Build) (c : AdhocCodec) (info : StreamInfo) (hi : c.stream.info = some info) (h0 : info.channels = 0) :
    (∀ pcm, c.encode b pcm = .error .divZero) ∧ (∀ buf, c.decode b buf = .error .divZero) ∧
    (∃ p, c.calculateSampleCountPerChannel = .error p) ∧
    c.seek b (.start 0) = .ok c.init ∧ (∀ ms, 0 < ms → c.seek b (.start ms) = .error .divZero) := by
  refine ⟨?_, ?_, ?_, ?_, ?_⟩
  · intro pcm
    unfold AdhocCodec.encode AdhocCodec.encodeRaw
    rw [hi]
    simp [expect, h0, udiv]
  · intro buf
    unfold AdhocCodec.decode AdhocCodec.decodeRaw
    rw [hi]
    simp [expect, h0, udiv]
  · unfold AdhocCodec.calculateSampleCountPerChannel AdhocCodec.info
    rw [hi]
    simp only [expect, bind_ok, h0]
    cases (List.range c.frameHeaderList.len).mapM fun i => c.frameHeaderList.get i with
    | error p => exact ⟨p, rfl⟩
    | ok l => exact ⟨.divZero, rfl⟩
  · unfold AdhocCodec.seek
    rw [hi]
    rfl
  · intro ms hms
    unfold AdhocCodec.seek
    rw [hi]
    simp only [expect, bind_ok]
    rw [if_neg (by omega)]
    unfold AdhocCodec.seekTo
    rw [h0]
    dsimp only
    rw [Nat.mul_zero]
    have : chkU b 64 ((0 : Nat) : Int) = .ok 0 := by cases b <;> rfl
    rw [this]
    rfl

/-- C115, exactly, for a `WavCodec` of no channels in whatever state: encoding, decoding and relative seeks divide by zero; absolute seeks
go to the start, or panic if there are no samples. -/
theorem C115_wav_partial (b : Build) (w : WavCodec) (h0 : w.info.channels = 0) :
    (∀ pcm, w.encode pcm = .error .divZero) ∧ (∀ buf, w.decode buf = .error .divZero) ∧
    (∀ ms, w.seek b (.current ms) = .error .divZero) ∧
    (∀ ms, w.seek b (.start ms) = if w.numSamples = 0 then .error .clampAssert else .ok { w with shortCursor := 0 }) ∧
    (∀ ms, w.seek b (.end ms) = if w.numSamples = 0 then .error .clampAssert else .ok { w with shortCursor := 0 }) := by
  have hz : chkI b 64 0 = .ok 0 := by cases b <;> rfl
  have hc : clampI 0 0 ((w.numSamples : Int) - 1) = if w.numSamples = 0 then .error .clampAssert else .ok 0 := by
    unfold clampI
    by_cases h : w.numSamples = 0
    · rw [if_pos h, if_pos (by omega)]
    · rw [if_neg h, if_neg (by omega)]
      show Except.ok _ = _
      congr 1
      omega
  refine ⟨?_, ?_, ?_, ?_, ?_⟩
  · intro pcm
    unfold WavCodec.encode
    rw [h0]
    rfl
  · intro buf
    unfold WavCodec.decode
    rw [h0]
    rfl
  · intro ms
    unfold WavCodec.seek
    simp only [h0]
    rfl
  · intro ms
    unfold WavCodec.seek
    simp only [h0, Nat.cast_zero, mul_zero]
    rw [hz]
    simp only [bind_ok]
    rw [hc]
    split <;> rfl
  · intro ms
    unfold WavCodec.seek
    simp only [h0, Nat.cast_zero, mul_zero]
    rw [hz]
    simp only [bind_ok, sub_self, add_zero]
    rw [hz]
    simp only [bind_ok]
    rw [hc]
    split <;> rfl

/-- such codecs are made by `with_info` and `new`, and by loading files: `load` accepts WAV files of no channels and no samples, and recordings of no channels -/
example : (fresh ⟨44100, 0⟩ 3).stream.info = some ⟨44100, 0⟩ ∧ (WavCodec.new ⟨44100, 0⟩).info.channels = 0 ∧
    (WavCodec.load (wavWith 0 0)).toOption.bind (fun w => w.toOption.map fun w => w.info.channels) = some 0 ∧
    ((AdhocCodec.load .release (file (fresh ⟨44100, 0⟩ 3))).toOption.bind id).bind (fun c => c.stream.info) = some ⟨44100, 0⟩ := by
  decide +kernel

end Adhoc

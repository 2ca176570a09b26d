import Verif.Proofs.Growth
import Verif.Props.Linear

/-! # C141: playing takes bounded memory -/

namespace Adhoc
open Spec F32

/-- what a player may do, in any order and as often as it likes: ask for samples with a buffer, or rewind -/
def Spec.playOn (b : Build) (c : AdhocCodec) (turns : List (Option (List F32))) : R AdhocCodec :=
  turns.foldlM (fun c t => match t with
    | some buf => do let (c, _) ← c.decode b buf; pure c
    | none => pure c.init) c

theorem playOn_bound {b : Build} {T n W : Nat} {base : FrameHeaders} (hT : T + toll (base.setCursor 0) ≤ W) : ∀ (turns : List (Option (List F32))) {c : AdhocCodec},
    Cast c n base → Trim c → Poised T c → max c.stream.stream.bitCursor T + toll c.frameHeaderList ≤ W → c.stream.stream.binary.length ≤ W / 128 + 2 →
    Ens (playOn b c turns) fun c' => Trim c' ∧ c'.stream.stream.binary.length ≤ W / 128 + 2
  | [], c, _, h2, _, _, h5 => .ok ⟨h2, h5⟩
  | t :: turns, c, h1, h2, h3, h4, h5 => by
    unfold playOn
    rw [List.foldlM_cons]
    refine Ens.bind (P := fun c' => Cast c' n base ∧ Trim c' ∧ Poised T c' ∧ max c'.stream.stream.bitCursor T + toll c'.frameHeaderList ≤ W ∧
      c'.stream.stream.binary.length ≤ W / 128 + 2) ?_ fun c' ⟨k1, k2, k3, k4, k5⟩ => playOn_bound hT turns k1 k2 k3 k4 k5
    cases t with
    | some buf =>
      dsimp only
      refine Ens.bind (P := fun r : AdhocCodec × List F32 × Option Nat => (Cast r.1 n base ∧ Trim r.1) ∧ Steady T c r.1) (fun r hr => ⟨trim_decode h1 h2 buf r hr, steady_decode h3 buf r hr⟩) ?_
      rintro ⟨c', out, o⟩ ⟨⟨k1, k2⟩, k3⟩
      dsimp only at k1 k2 k3
      have k3' := k3.poised
      obtain ⟨m, k4, k5⟩ := k3
      have := k4.spend
      have := k4.len
      refine .ok ⟨k1, k2, k3', by dsimp only; omega, ?_⟩
      dsimp only
      have h6 : max c'.stream.stream.bitCursor T ≤ W := by omega
      have := Nat.div_le_div_right (c := 128) h6
      omega
    | none =>
      refine .ok ⟨?_, fun i => ?_, ⟨h3.1, Nat.zero_le _⟩, ?_, h5⟩
      · refine ⟨h1.chans, ?_, h1.sizes, by simpa [AdhocCodec.init] using h1.width⟩
        show c.frameHeaderList.reset = _
        rw [h1.headers]; rfl
      · unfold bufLen AdhocCodec.init
        dsimp only
        rw [List.getElem?_map]
        cases c.channelStateList[i]? <;> simp [FrameCodec.init]
      · show max 0 T + toll c.frameHeaderList.reset ≤ W
        rw [h1.headers]
        have : toll (FrameHeaders.reset (base.setCursor c.frameHeaderList.headerCursor)) = toll (base.setCursor 0) := rfl
        omega

/-- **C141**: however long and however often a loaded file is played, of whatever encoder, no channel holds more than 65535 samples that wait to be read, and the memory for
the stream stays below a number that the file fixes: the chunks it brings, two more, and 17 bits for every declared sample and 48 for every frame. -/
theorem C141_memory (b b' : Build) (bytes : List Byte) (c : AdhocCodec) (h : AdhocCodec.load b bytes = .ok (some c)) (turns : List (Option (List F32))) (c' : AdhocCodec)
    (h' : playOn b' c turns = .ok c') :
    (∀ fc ∈ c'.channelStateList, fc.buffered.length ≤ 65535) ∧
      c'.stream.stream.binary.length ≤ c.stream.stream.binary.length + 2 + (17 * c.frameHeaderList.frameSizeList.sum + 48 * c.frameHeaderList.frameSizeList.length) / 128 := by
  obtain ⟨n, -, hl, H, hinit, hK⟩ := load_cast h
  have hc : c.frameHeaderList.headerCursor = 0 := by rw [← hinit]; rfl
  have hcur : c.stream.stream.bitCursor = 0 := by rw [← hinit]; rfl
  have ht : toll c.frameHeaderList = 17 * c.frameHeaderList.frameSizeList.sum + 48 * c.frameHeaderList.frameSizeList.length := by unfold toll restOf; rw [hc]; rfl
  have ht0 : toll (c.frameHeaderList.setCursor 0) = toll c.frameHeaderList := by unfold toll restOf; rw [hc]; rfl
  have htrim : Trim c := by
    intro i
    rw [← hinit]
    unfold bufLen AdhocCodec.init
    dsimp only
    rw [List.getElem?_map]
    cases c.channelStateList[i]? <;> simp [FrameCodec.init]
  obtain ⟨k1, k2⟩ := playOn_bound (b := b') (T := 128 * c.stream.stream.binary.length) (W := 128 * c.stream.stream.binary.length + toll c.frameHeaderList)
    (by rw [ht0]) turns H htrim ⟨fun i hi => BitStream.bitAt_beyond _ _ hi, by omega⟩ (by omega) (by omega) c' h'
  refine ⟨fun fc hfc => ?_, by rw [ht] at k2; omega⟩
  obtain ⟨i, hi⟩ := List.mem_iff_getElem?.1 hfc
  have := k1 i
  unfold bufLen at this
  rw [hi] at this
  exact this

/-- two headers of thirty samples with the widest remainders, and no payload -/
def thirsty : AdhocCodec :=
  { fresh { sampleRate := 8000, channels := 1 } 0 with
    frameHeaderList :=
      { divisorExpList := { data := [0xff#8], nibbleCount := 2 }
        isInitFrameList := { binary := [1#64], bitCursor := 2 }
        frameSizeList := [30, 30], bitCursorList := [0, 0], stackHistoryList := [(0, 0, 0), (0, 0, 0)], headerCursor := 0 } }

/-- its file brings no chunk at all; played, rewound and played again the stream has nine, where the theorem allows ten; after the first sample twenty-nine wait -/
example : (match AdhocCodec.load .debug (file thirsty) with
    | .ok (some c) => (match playOn .release c [some [F32.ofInt 0]], playOn .release c [some (List.replicate 40 (F32.ofInt 0)), none, some (List.replicate 50 (F32.ofInt 0)), some (List.replicate 50 (F32.ofInt 0))] with
      | .ok c1, .ok c2 => decide (c1.channelStateList.map (·.buffered.length) = [29] ∧ c.stream.stream.binary.length = 0 ∧ c2.stream.stream.binary.length = 9 ∧
          c2.channelStateList.map (·.buffered.length) = [0] ∧ c.frameHeaderList.frameSizeList = [30, 30])
      | _, _ => false)
    | _ => false) = true := by decide +kernel

/-- a file of the encoder -/
example : (match encodeAll .debug (fresh { sampleRate := 8000, channels := 2 } 0) demo with
    | .ok c0 => (match AdhocCodec.load .debug (file c0) with
      | .ok (some c) => (match playOn .release c [some [F32.ofInt 0, F32.ofInt 0], none, some (List.replicate 50 (F32.ofInt 0))] with
        | .ok c2 => decide (c2.stream.stream.binary.length = c.stream.stream.binary.length)
        | _ => false)
      | _ => false)
    | _ => false) = true := by decide +kernel

end Adhoc

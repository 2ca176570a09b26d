import Verif.Props.Memory
import Verif.Props.Forget

/-! # C141 with seeks -/

namespace Adhoc
open Spec F32

theorem steady_seekChannel {b : Build} {T : Nat} {c : AdhocCodec} (h : Poised T c) (start off : Nat) : Ens (c.seekChannel b start off) (Steady T c) := by
  unfold AdhocCodec.seekChannel
  refine (Ens.any _).bind fun o _ => (Ens.any _).bind fun hdr _ => (Ens.any _).bind fun fc _ => (decodeFrame_creep h.1 h.2).bind ?_
  rintro ⟨fc', st, hd, o⟩ hr
  exact (Ens.any _).bind fun chs _ => .ok hr

theorem steady_seekFold {b : Build} {T start : Nat} : ∀ (l : List Nat) {c : AdhocCodec}, Poised T c →
    Ens (l.foldlM (fun c off => AdhocCodec.seekChannel b c start off) c) (Steady T c)
  | [], _, h => .ok (Steady.refl h)
  | off :: l, c, h => by
    rw [List.foldlM_cons]
    exact (steady_seekChannel h start off).bind fun c1 h1 => (steady_seekFold l h1.poised).mono fun c2 h2 => h1.trans h2

/-- the stream and the headers are as they were -/
def Unmoved (c c' : AdhocCodec) : Prop := c'.stream = c.stream ∧ c'.frameHeaderList = c.frameHeaderList

theorem unmoved_dropOne (c : AdhocCodec) (n : Nat) : Ens (c.dropOne n) (Unmoved c) := by
  unfold AdhocCodec.dropOne
  refine Ens.foldlM (P := Unmoved c) (fun c' off h => ?_) _ _ ⟨rfl, rfl⟩
  refine (Ens.any _).bind fun fc _ => (Ens.any _).bind fun chs _ => ?_
  exact Ens.ok (show Unmoved c { c' with channelStateList := chs } from h)

theorem unmoved_prune {b : Build} {m target : Nat} : ∀ (fuel x : Nat) (c : AdhocCodec), Ens (AdhocCodec.prune b m target fuel x c) (Unmoved c)
  | 0, _, _ => .error
  | fuel + 1, x, c => by
    unfold AdhocCodec.prune
    split
    · exact (unmoved_dropOne c m).bind fun c' h => (Ens.any _).bind fun y _ => (unmoved_prune fuel y c').mono fun d k => ⟨k.1.trans h.1, k.2.trans h.2⟩
    · exact .ok ⟨rfl, rfl⟩

theorem Ens.and {α : Type} {x : R α} {P Q : α → Prop} (h : Ens x P) (k : Ens x Q) : Ens x fun a => P a ∧ Q a := fun a ha => ⟨h a ha, k a ha⟩

theorem toll_le (base : FrameHeaders) (k : Nat) : toll (base.setCursor k) ≤ toll (base.setCursor 0) := by
  unfold toll restOf
  show 17 * (base.frameSizeList.drop k).sum + 48 * (base.frameSizeList.drop k).length ≤ 17 * (base.frameSizeList.drop 0).sum + 48 * (base.frameSizeList.drop 0).length
  have h1 : (base.frameSizeList.drop k).sum ≤ base.frameSizeList.sum := by
    conv_rhs => rw [← List.take_append_drop k base.frameSizeList]
    rw [List.sum_append]
    omega
  rw [List.drop_zero, List.length_drop]
  omega

theorem trim_init (c : AdhocCodec) : ∀ i, bufLen c.init i = 0 := by
  intro i
  unfold bufLen AdhocCodec.init
  dsimp only
  rw [List.getElem?_map]
  cases c.channelStateList[i]? <;> simp [FrameCodec.init]

theorem cast_init {c : AdhocCodec} {n : Nat} {base : FrameHeaders} (H : Cast c n base) : Cast c.init n base := by
  refine ⟨H.chans, ?_, H.sizes, by simpa [AdhocCodec.init] using H.width⟩
  show c.frameHeaderList.reset = _
  rw [H.headers]; rfl

/-- what holds at every moment while a file is played -/
structure Budget (n T W : Nat) (base : FrameHeaders) (c : AdhocCodec) : Prop where
  cast : Cast c n base
  trim : Trim c
  poised : Poised T c
  spend : max c.stream.stream.bitCursor T + toll c.frameHeaderList ≤ W
  len : c.stream.stream.binary.length ≤ W / 128 + 2

theorem Budget.steady {n T W : Nat} {base : FrameHeaders} {c c' : AdhocCodec} (H : Budget n T W base c) (h1 : Cast c' n base) (h2 : Trim c') (h : Steady T c c') :
    Budget n T W base c' := by
  have h3 := h.poised
  obtain ⟨m, k4, k5⟩ := h
  have hs := k4.spend
  have hl := k4.len
  have h4 := H.spend
  have h5 := H.len
  have h6 : max c'.stream.stream.bitCursor T ≤ W := by omega
  have h7 := Nat.div_le_div_right (c := 128) h6
  exact ⟨h1, h2, h3, by omega, by omega⟩

theorem budget_decode {b : Build} {n T W : Nat} {base : FrameHeaders} {c : AdhocCodec} (H : Budget n T W base c) (buf : List F32) :
    Ens (c.decode b buf) fun r => Budget n T W base r.1 :=
  ((trim_decode H.cast H.trim buf).and (steady_decode H.poised buf)).mono fun _ h => H.steady h.1.1 h.1.2 h.2

theorem budget_init {n T W : Nat} {base : FrameHeaders} {c : AdhocCodec} (hW : T + toll (base.setCursor 0) ≤ W) (H : Budget n T W base c) : Budget n T W base c.init := by
  refine ⟨cast_init H.cast, fun i => by rw [trim_init]; omega, ⟨H.poised.1, Nat.zero_le _⟩, ?_, H.len⟩
  rw [(cast_init H.cast).headers]
  have := toll_le base c.init.frameHeaderList.headerCursor
  show max 0 T + _ ≤ W
  omega

theorem budget_seek {b : Build} {n T W : Nat} {base : FrameHeaders} {c : AdhocCodec} (hW : T + toll (base.setCursor 0) ≤ W) (hp : ∀ k ∈ base.bitCursorList, k ≤ T)
    (H : Budget n T W base c) (hd : T ≤ 128 * c.stream.stream.binary.length) (ms : Nat) : Ens (c.seek b (.start ms)) (Budget n T W base) := by
  have H0 := budget_init hW H
  obtain ⟨info', hi', hch⟩ := H.cast.chans
  unfold AdhocCodec.seek
  refine (halts_expect _).2.bind fun info hinfo => ?_
  have : info = info' := by rw [hi'] at hinfo; exact (Option.some.inj hinfo).symm
  subst this
  dsimp only
  split
  · exact Ens.ok H0
  · unfold AdhocCodec.seekTo
    rw [hch]
    dsimp only
    refine (Ens.any _).bind fun target _ => (Ens.any _).bind fun bl _ => (Ens.any _).bind fun r _ => ?_
    refine Ens.bind (P := fun o => c.init.frameHeaderList.get (r.2 * n) = .ok o) (fun o ho => ho) fun o ho => ?_
    refine (halts_expect _).2.bind fun hdr hhdr => ?_
    have hcur : hdr.bitCursor ≤ T := by
      subst hhdr
      refine hp _ ?_
      have := get_cursor ho
      rw [H0.cast.headers] at this
      exact this
    have H1 : Budget n T W base
        { c.init with
          stream := { c.init.stream with stream := c.init.stream.stream.setBitCursor hdr.bitCursor }
          frameHeaderList := c.init.frameHeaderList.setCursor (r.2 * n) } := by
      refine ⟨⟨H0.cast.chans, ?_, H0.cast.sizes, H0.cast.width⟩, H0.trim, ⟨H0.poised.1, hcur.trans hd⟩, ?_, H0.len⟩
      · conv_lhs => rw [H0.cast.headers]
        rfl
      · have e : c.init.frameHeaderList.setCursor (r.2 * n) = base.setCursor (r.2 * n) := by
          conv_lhs => rw [H0.cast.headers]
          rfl
        show max hdr.bitCursor T + toll (c.init.frameHeaderList.setCursor (r.2 * n)) ≤ W
        rw [e]
        have := toll_le base (r.2 * n)
        omega
    have key : ∀ j, Ens ((List.range j).foldlM (fun c off => AdhocCodec.seekChannel b c (r.2 * n) off)
        { c.init with
          stream := { c.init.stream with stream := c.init.stream.stream.setBitCursor hdr.bitCursor }
          frameHeaderList := c.init.frameHeaderList.setCursor (r.2 * n) })
        (fun c' => Cast c' n base ∧ c'.frameHeaderList.headerCursor = r.2 * n + j ∧ ∀ i, bufLen c' i ≤ 65535) := by
      intro j
      induction j with
      | zero => exact Ens.ok ⟨H1.cast, rfl, H1.trim⟩
      | succ j ih =>
        rw [List.range_succ, List.foldlM_append]
        refine ih.bind fun c1 ⟨k1, k2, k3⟩ => ?_
        rw [List.foldlM_cons]
        exact (halts_seekChannel k1 _ _ k2 k3).2.bind fun c2 h => Ens.ok h
    refine ((key n).and (steady_seekFold (b := b) (start := r.2 * n) (List.range n) H1.poised)).bind ?_
    rintro c1 ⟨⟨k1, k2, k3⟩, k4⟩
    have H2 := H1.steady k1 k3 k4
    refine ((ens_prune _ _ _ k1 k2 k3).and (unmoved_prune _ _ c1)).mono ?_
    rintro c2 ⟨⟨l1, -, l3⟩, l4, l5⟩
    exact ⟨l1, l3, by unfold Poised; rw [l4]; exact H2.poised, by rw [l4, l5]; exact H2.spend, by rw [l4]; exact H2.len⟩

theorem budget_after {b : Build} {n T W : Nat} {base : FrameHeaders} (hW : T + toll (base.setCursor 0) ≤ W) (hp : ∀ k ∈ base.bitCursorList, k ≤ T) :
    ∀ (acts : List Act) {c : AdhocCodec}, Budget n T W base c → T ≤ 128 * c.stream.stream.binary.length → Ens (after b c acts) (Budget n T W base)
  | [], _, H, _ => .ok H
  | .read buf :: acts, c, H, hd => by
    unfold after
    refine ((budget_decode (b := b) H buf).and (leafed_decode c buf)).bind ?_
    rintro ⟨c1, r⟩ ⟨H1, l⟩
    obtain ⟨k, hk⟩ := l.pad
    refine budget_after hW hp acts H1 ?_
    dsimp only at hk ⊢
    rw [hk, List.length_append]
    omega
  | .seek ms :: acts, c, H, hd => by
    unfold after
    refine ((budget_seek (b := b) hW hp H hd ms).and (leafed_seek c ms)).bind ?_
    rintro c1 ⟨H1, l⟩
    obtain ⟨k, hk⟩ := l.pad
    refine budget_after hW hp acts H1 ?_
    rw [hk, List.length_append]
    omega

/-- **C141, with seeks**: in a file whose stored positions are inside its data, of whatever encoder, reads and seeks to any places, in any order and as often as one likes,
keep within the same bounds. -/
theorem C141_seeks (b b' : Build) (bytes : List Byte) (c : AdhocCodec) (h : AdhocCodec.load b bytes = .ok (some c))
    (hp : ∀ k ∈ c.frameHeaderList.bitCursorList, k ≤ 128 * c.stream.stream.blocksAllocated) (acts : List Act) (c' : AdhocCodec) (h' : after b' c acts = .ok c') :
    (∀ fc ∈ c'.channelStateList, fc.buffered.length ≤ 65535) ∧
      c'.stream.stream.binary.length ≤ c.stream.stream.binary.length + 2 + (17 * c.frameHeaderList.frameSizeList.sum + 48 * c.frameHeaderList.frameSizeList.length) / 128 := by
  obtain ⟨n, -, hl, H, hinit, hK⟩ := load_cast h
  have hc : c.frameHeaderList.headerCursor = 0 := by rw [← hinit]; rfl
  have hcur : c.stream.stream.bitCursor = 0 := by rw [← hinit]; rfl
  have ht : toll c.frameHeaderList = 17 * c.frameHeaderList.frameSizeList.sum + 48 * c.frameHeaderList.frameSizeList.length := by unfold toll restOf; rw [hc]; rfl
  have ht0 : toll (c.frameHeaderList.setCursor 0) = toll c.frameHeaderList := by unfold toll restOf; rw [hc]; rfl
  have htrim : Trim c := fun i => by rw [← hinit, trim_init]; omega
  have B : Budget n (128 * c.stream.stream.binary.length) (128 * c.stream.stream.binary.length + toll c.frameHeaderList) c.frameHeaderList c :=
    ⟨H, htrim, ⟨fun i hi => BitStream.bitAt_beyond _ _ hi, by omega⟩, by omega, by omega⟩
  have K := budget_after (b := b') (T := 128 * c.stream.stream.binary.length) (by rw [ht0]) hp acts B le_rfl c' h'
  have k1 := K.trim
  have k2 := K.len
  refine ⟨fun fc hfc => ?_, by rw [ht] at k2; omega⟩
  obtain ⟨i, hi⟩ := List.mem_iff_getElem?.1 hfc
  have := k1 i
  unfold bufLen at this
  rw [hi] at this
  exact this

/-- the file of `thirsty`: a seek into its second frame and reads leave the stream at nine chunks, where ten are allowed, and 19 samples wait after the seek and one read -/
example : (match AdhocCodec.load .debug (file thirsty) with
    | .ok (some c) => (match after .release c [.seek 5, .read [F32.ofInt 0]], after .release c [.seek 5, .read (List.replicate 40 (F32.ofInt 0)), .seek 1, .read (List.replicate 60 (F32.ofInt 0))] with
      | .ok c1, .ok c2 => decide (c.frameHeaderList.bitCursorList = [0, 0] ∧ c1.channelStateList.map (·.buffered.length) = [19] ∧ c2.stream.stream.binary.length = 9)
      | _, _ => false)
    | _ => false) = true := by decide +kernel

end Adhoc

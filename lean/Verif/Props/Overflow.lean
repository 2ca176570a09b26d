import Verif.Proofs.Over
import Verif.Props.Protocol
import Verif.Props.Encoding

/-! # C26: exactly when a debug build overflows -/

namespace Adhoc
open Spec F32 BitStream

namespace Spec

/-- the differences to the prediction that call number `j` codes for channel `ch`: all but the first three of the channel -/
def coded (info : StreamInfo) (level : Nat) (calls : List (List F32)) (j ch : Nat) : List Int :=
  differences (stored (fresh info level).invScale info.channels ch 0 calls) (max 3 (signal info.channels (calls.take j)).length)
    ((signal info.channels (calls.take (j + 1))).length - max 3 (signal info.channels (calls.take j)).length)

/-- no more differences of at least 49152 than differences below 16384 -/
def Balanced (l : List Int) : Prop := l.countP (fun d => 49152 ≤ d.natAbs) ≤ l.countP (fun d => d.natAbs < 16384)

end Spec

theorem mild_balanced (l : List Int) : Mild (l.map Int.natAbs) ↔ Balanced l := by
  unfold Mild Balanced
  rw [List.countP_map, List.countP_map]
  rfl

/-! ## parameter 15 overflows -/

theorem debug_writeCompressed (s : BitStream) (e : BitVec 16) : ∀ s', s.writeCompressed .debug 15 e ≠ .ok s' := by
  intro s' h
  unfold BitStream.writeCompressed at h
  dsimp only at h
  obtain ⟨a, -, h⟩ := bind_eq_ok.1 h
  obtain ⟨m, hm, -⟩ := bind_eq_ok.1 h
  have : i16op .debug ((1#16 <<< 15).toInt - 1) = .error .overflow := by decide
  rw [this] at hm
  cases hm

theorem ens_not15 {h h' : CircularStack Int} (s : BitStream) {ys : List F32} {k : Nat} (hk : FrameCodec.computeOptimalDivisorExponent .debug h ys = .ok k)
    {r : BitStream × CircularStack Int} (hr : FrameCodec.encodeSamples .debug k s h' ys = .ok r) : k ≠ 15 := by
  rintro rfl
  cases ys with
  | nil =>
    unfold FrameCodec.computeOptimalDivisorExponent FrameCodec.costTable at hk
    revert hk
    decide
  | cons y ys =>
    unfold FrameCodec.encodeSamples at hr
    dsimp only at hr
    obtain ⟨e, -, hr⟩ := bind_eq_ok.1 hr
    obtain ⟨s', hs, -⟩ := bind_eq_ok.1 hr
    exact debug_writeCompressed _ _ _ hs

/-- no header says 15 -/
def Low (h : FrameHeaders) : Prop := ∃ log k, IsLog h log k ∧ ∀ x ∈ log, x.exponent ≠ 15

theorem low_push {h : FrameHeaders} (H : Low h) {x : FrameHeader} (hx : x.exponent < 16) (h15 : x.exponent ≠ 15) : Ens (h.push x) Low := by
  obtain ⟨log, k, H, H'⟩ := H
  rw [push_mod h]
  obtain ⟨a, e, h3⟩ := isLog_push H (x := { x with bitCursor := x.bitCursor % 2 ^ 64 }) ⟨hx, Nat.mod_lt _ (by norm_num)⟩
  rw [e]
  refine Ens.ok ⟨_, _, h3, ?_⟩
  intro y hy
  split at hy
  · rcases List.mem_or_eq_of_mem_set hy with hy | rfl
    · exact H' y hy
    · exact h15
  · rcases List.mem_append.1 hy with hy | hy
    · exact H' y hy
    · rw [List.mem_singleton.1 hy]; exact h15

theorem low_encodeFrame {fc : FrameCodec} {st : AudioStream} {hd : FrameHeaders} {pcm : List F32} (H : Low hd) :
    Ens (fc.encodeFrame .debug st hd pcm) (fun r => Low r.2.2) := by
  intro r hr
  unfold FrameCodec.encodeFrame at hr
  split at hr
  · obtain ⟨p0, -, hr⟩ := bind_eq_ok.1 hr
    obtain ⟨s0, -, hr⟩ := bind_eq_ok.1 hr
    obtain ⟨p1, -, hr⟩ := bind_eq_ok.1 hr
    obtain ⟨s1, -, hr⟩ := bind_eq_ok.1 hr
    obtain ⟨p2, -, hr⟩ := bind_eq_ok.1 hr
    obtain ⟨s2, -, hr⟩ := bind_eq_ok.1 hr
    obtain ⟨k, hk, hr⟩ := bind_eq_ok.1 hr
    obtain ⟨hd', hh, hr⟩ := bind_eq_ok.1 hr
    obtain ⟨q, hq, hr⟩ := bind_eq_ok.1 hr
    cases hr
    exact low_push H (ens_optimal _ _ _ k hk) (ens_not15 _ hk hq) _ hh
  · obtain ⟨k, hk, hr⟩ := bind_eq_ok.1 hr
    obtain ⟨hd', hh, hr⟩ := bind_eq_ok.1 hr
    obtain ⟨q, hq, hr⟩ := bind_eq_ok.1 hr
    cases hr
    exact low_push H (ens_optimal _ _ _ k hk) (ens_not15 _ hk hq) _ hh
  · cases hr

theorem low_encodeAll {c : AdhocCodec} (H : Low c.frameHeaderList) (calls : List (List F32)) :
    Ens (encodeAll .debug c calls) (fun c => Low c.frameHeaderList) := by
  unfold encodeAll
  refine Ens.foldlM (P := fun c : AdhocCodec => Low c.frameHeaderList) (fun c pcm H => ?_) _ _ H
  refine Ens.bind (P := fun r : AdhocCodec × Option Nat => Low r.1.frameHeaderList) ?_ fun r hr => Ens.ok hr
  unfold AdhocCodec.encode
  refine Ens.bind (P := fun c : AdhocCodec => Low c.frameHeaderList) ?_ fun c' h => Ens.ok h
  unfold AdhocCodec.encodeRaw
  refine (Ens.any _).bind fun i _ => (Ens.any _).bind fun q _ => ?_
  refine Ens.foldlM (P := fun c : AdhocCodec => Low c.frameHeaderList) (fun c ch H => ?_) _ _ H
  unfold AdhocCodec.encodeChannel
  refine (Ens.any _).bind fun xs _ => (Ens.any _).bind fun ys _ => (Ens.any _).bind fun fc _ => ?_
  exact (low_encodeFrame H).bind fun r hr => (Ens.any _).bind fun l _ => Ens.ok hr

/-! ## the frames of a recording -/

theorem Recorded.take {n : Nat} {inv : F32} {calls : List (List F32)} {blocks : List (Nat → Fr)} (HR : Recorded n inv calls blocks) (k : Nat) :
    Recorded n inv (calls.take k) (blocks.take k) := by
  refine ⟨by simp [HR.len], ?_⟩
  intro i h1 h2 ch hch
  have h1' : i < blocks.length ∧ i < k := by simp at h1; omega
  have h2' : i < calls.length := by rw [← HR.len]; exact h1'.1
  have := HR.made i h1'.1 h2' ch hch
  rw [List.getElem_take, List.getElem_take, List.take_take, Nat.min_eq_left (by omega)]
  exact this

/-- C26, exactly: if no call has more than 131064 blocks (and the first at least three), a debug build encodes the calls without panic if
and only if no frame has more differences of at least 49152 between a sample and its prediction than differences below 16384. Otherwise
it panics with an overflow. -/
theorem C26_exact_partial (info : StreamInfo) (hn : 0 < info.channels) (level : Nat) (calls : List (List F32))
    (h3 : ∀ first ∈ calls.head?, 3 ≤ first.length / info.channels) (hs : ∀ pcm ∈ calls, pcm.length / info.channels ≤ 131064) :
    ((∃ c, encodeAll .debug (fresh info level) calls = .ok c) ↔
      ∀ j < calls.length, ∀ ch < info.channels, Balanced (coded info level calls j ch)) ∧
    (encodeAll .debug (fresh info level) calls = .error .overflow ↔
      ∃ j < calls.length, ∃ ch < info.channels, ¬ Balanced (coded info level calls j ch)) := by
  have main : (∃ c, encodeAll .debug (fresh info level) calls = .ok c) ↔
      ∀ j < calls.length, ∀ ch < info.channels, Balanced (coded info level calls j ch) := by
    constructor
    · rintro ⟨c, h⟩ j hj ch hch
      obtain ⟨hf3, blocks, H, HR, s⟩ := recorded_of_ok hn h
      have hrec := HR.toRec hn
      have hjb : j < blocks.length := by rw [HR.len]; exact hj
      obtain ⟨f, hfd⟩ : ∃ f, f = blocks[j] ch := ⟨_, rfl⟩
      have hwf : f.WF := by rw [hfd]; exact hrec.wf j hjb ch hch
      have hpre : f.pre = codesOf (blocks.take j) ch := by rw [hfd]; exact hrec.pre j hjb ch hch
      have hsig : ∀ k, k ≤ blocks.length → (codesOf (blocks.take k) ch).length = (signal info.channels (calls.take k)).length := by
        intro k hk
        rw [(hrec.take k).length hch, (HR.take k).rows hn]
      have hprefix : (f.pre ++ f.raw ++ f.body) <+: codesOf blocks ch := by
        rw [List.append_assoc, f.raw_body, hpre, hfd, ← codesOf_take_succ hjb]
        refine ⟨codesOf (blocks.drop (j + 1)) ch, ?_⟩
        rw [← codesOf_append, List.take_append_drop]
      have hstart : (f.pre ++ f.raw).length = max 3 (signal info.channels (calls.take j)).length := by
        rw [← hsig j (by omega), ← hpre]
        by_cases hp : f.pre = []
        · have := hwf.first hp
          simp [Fr.raw, hp]; omega
        · have := hwf.later hp
          simp [Fr.raw, hp]; omega
      have hstop : (f.pre ++ f.raw).length + f.body.length = (signal info.channels (calls.take (j + 1))).length := by
        rw [← hsig (j + 1) (by omega), codesOf_take_succ hjb, ← hpre, ← hfd, ← f.raw_body]
        simp; omega
      have hblen : f.body.length ≤ 131064 := by
        have h1 : f.codes.length ≤ 131064 := by
          rw [hfd]; exact HR.size_le hs hjb hch
        have : f.body.length ≤ f.codes.length := by rw [← f.raw_body]; simp
        omega
      have h15 : f.exp ≠ 15 := by
        obtain ⟨log, k, hl, hx⟩ := low_encodeAll (c := fresh info level) ⟨[], 0, isLog_new, by simp⟩ calls c h
        have hlt : j * info.channels + ch < (flat info.channels blocks).length := by
          rw [length_flat]
          have : (j + 1) * info.channels ≤ blocks.length * info.channels := Nat.mul_le_mul_right _ hjb
          rw [Nat.add_mul] at this
          omega
        have hget := isLog_get H.log (j * info.channels + ch)
        rw [hdrs_getElem?, List.getElem?_eq_getElem hlt, flat_getElem blocks hjb hch hlt, Option.map_some, isLog_get hl] at hget
        have := hx _ (List.mem_of_getElem? (Except.ok.inj hget))
        rw [hfd]
        exact this
      have hm : Mild (gaps (f.pre ++ f.raw) f.body) := by
        by_contra hw
        have h1 := hwf.exp15
        have h2 := hwf.opt hblen 15 (by omega) le_rfl
        have h4 := sum_cost_wild (fun e he => by
          have := gaps_le f.body (f.pre ++ f.raw) (fun q hq => hwf.range q (by rw [← f.raw_body]; simp [hq])) e he
          omega) hw (j := f.exp) (by omega)
        unfold frameCost at h2
        omega
      rw [gaps_differences _ _ _ hprefix, mild_balanced, HR.exact hch] at hm
      unfold coded
      rw [← hstart, ← hstop, Nat.add_sub_cancel_left]
      exact hm
    · intro hB
      obtain ⟨inv, hinv⟩ : ∃ inv, inv = (fresh info level).invScale := ⟨_, rfl⟩
      obtain ⟨c, blocks, e, -⟩ := encodeAll_ok (b := .debug) hn (inv := inv)
        (fun blocks rest => ((blocks = [] ∧ ∀ first ∈ rest.head?, 3 ≤ first.length / info.channels) ∨ ∀ ch < info.channels, 3 ≤ (codesOf blocks ch).length) ∧
          (∃ done, calls = done ++ rest ∧ ∀ ch < info.channels, (codesOf blocks ch).length = (signal info.channels done).length) ∧
          ∀ ch < info.channels, stored inv info.channels ch 0 calls = codesOf blocks ch ++ stored inv info.channels ch (total (flat info.channels blocks)) rest)
        (by
          rintro blocks pcm rest ⟨hb, ⟨done, hdone, hdl⟩, hst⟩
          have hsig : (signal info.channels (done ++ [pcm])).length = (signal info.channels done).length + pcm.length / info.channels := by
            simp [signal]
          have hqs : ∀ ch k, ((ditherAt inv k (column info.channels ch pcm)).map truncateSample).length = pcm.length / info.channels := by
            intro ch k
            rw [List.length_map, length_ditherAt]; simp [column]
          refine ⟨?_, ?_, ?_⟩
          · intro ch hch h0
            rcases hb with ⟨-, h⟩ | hb
            · exact h pcm (by simp)
            · have := hb ch hch
              rw [h0] at this
              simp at this
          · intro ch hch
            have hl := hqs ch (total (flat info.channels blocks) + ch * (pcm.length / info.channels))
            have hst' := hst ch hch
            rw [stored, ← List.append_assoc] at hst'
            have hj : done.length < calls.length := by rw [hdone]; simp
            have hbal := hB done.length hj ch hch
            have t1 : calls.take done.length = done := by rw [hdone]; simp
            have t2 : calls.take (done.length + 1) = done ++ [pcm] := by
              rw [hdone, List.take_length_add_append]; simp
            unfold coded at hbal
            rw [t1, t2, hsig, ← hdl ch hch, ← hinv] at hbal
            have hle : ((ditherAt inv (total (flat info.channels blocks) + ch * (pcm.length / info.channels)) (column info.channels ch pcm)).map truncateSample).length ≤ 131064 := by
              rw [hl]
              exact hs pcm (by rw [hdone]; simp)
            generalize (ditherAt inv (total (flat info.channels blocks) + ch * (pcm.length / info.channels)) (column info.channels ch pcm)).map truncateSample = qs at *
            generalize stored inv info.channels ch (total (flat info.channels blocks) + info.channels * (pcm.length / info.channels)) rest = tail at *
            unfold Fr.calm Calm
            split
            · next hp =>
              have h3' : 3 ≤ pcm.length / info.channels := by
                rcases hb with ⟨-, h⟩ | hb
                · exact h pcm (by simp)
                · have := hb ch hch
                  rw [hp] at this
                  simp at this
              refine .inr ⟨by rw [List.length_drop]; omega, ?_⟩
              rw [gaps_differences _ _ (stored inv info.channels ch 0 calls) ⟨tail, by rw [hst', hp]; simp⟩, mild_balanced]
              rw [hp, List.length_nil] at hbal
              rw [List.length_take, List.length_drop, hl]
              rw [show max 3 0 = min 3 (pcm.length / info.channels) by omega, show 0 + pcm.length / info.channels - min 3 (pcm.length / info.channels) =
                pcm.length / info.channels - 3 by omega] at hbal
              exact hbal
            · next hp =>
              have h3' : 3 ≤ (codesOf blocks ch).length := by
                rcases hb with ⟨rfl, -⟩ | hb
                · simp at hp
                · exact hb ch hch
              refine .inr ⟨hle, ?_⟩
              rw [gaps_differences _ _ (stored inv info.channels ch 0 calls) ⟨tail, by rw [hst']⟩, mild_balanced]
              rw [show max 3 (codesOf blocks ch).length = (codesOf blocks ch).length by omega, Nat.add_sub_cancel_left] at hbal
              rw [hl]
              exact hbal
          · intro blk hm
            refine ⟨.inr ?_, ⟨done ++ [pcm], by rw [hdone]; simp, ?_⟩, ?_⟩
            · intro ch hch
              rw [codesOf_append, codesOf_singleton, List.length_append]
              rcases hb with ⟨rfl, h⟩ | hb
              · have := (hm ch hch).length
                have := h pcm (by simp)
                omega
              · have := hb ch hch
                omega
            · intro ch hch
              rw [codesOf_append, codesOf_singleton, List.length_append, hsig, hdl ch hch, (hm ch hch).length]
            · intro ch hch
              have := hst ch hch
              rw [stored, ← List.append_assoc] at this
              rw [codesOf_append, codesOf_singleton, (hm ch hch).exact, flat_append, total_append, flat, flat, List.flatMap_singleton,
                total_range info.channels (fun ch hch => (hm ch hch).length)]
              exact this)
        calls (c := fresh info level) (calls := []) (blocks := []) hinv.symm (encSt_new info level) (recorded_nil _ _)
        ⟨.inl ⟨rfl, h3⟩, ⟨[], rfl, by simp [signal]⟩, fun ch _ => by simp⟩
      exact ⟨c, e⟩
  refine ⟨main, ?_⟩
  constructor
  · intro he
    by_contra hne
    obtain ⟨c, e⟩ := main.2 fun j hj ch hch => by
      by_contra hb
      exact hne ⟨j, hj, ch, hch, hb⟩
    rw [he] at e
    cases e
  · rintro ⟨j, hj, ch, hch, hb⟩
    cases e : encodeAll .debug (fresh info level) calls with
    | ok c => exact absurd (main.1 ⟨c, e⟩ j hj ch hch) hb
    | error e' => rw [(C26_debug_partial info hn level calls h3).2 e' e]

/-- the full-scale alternation has one difference of 65534 and no small one; with one quiet sample more it is encoded -/
example : coded { sampleRate := 8000, channels := 1 } 0 loud 0 0 = [-65534] := by decide +kernel

example : coded { sampleRate := 8000, channels := 1 } 0 [[F32.ofInt 1, F32.ofInt (-1), F32.ofInt 1, F32.ofInt (-1), F32.ofInt (-1)]] 0 0 = [-65534, 0] ∧
    ((encodeAll .debug (fresh { sampleRate := 8000, channels := 1 } 0) [[F32.ofInt 1, F32.ofInt (-1), F32.ofInt 1, F32.ofInt (-1), F32.ofInt (-1)]]).map
      fun c => c.frameHeaderList.len) = .ok 1 := by decide +kernel

end Adhoc

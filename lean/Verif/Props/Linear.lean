import Mathlib.Data.Nat.Log
import Verif.Model.Alloc
import Verif.Proofs.Cost
import Verif.Props.Endings
import Verif.Props.AnyFile
import Verif.Props.SeekAny
import Verif.Props.Encoding

/-! # C138-C140: how many allocations and how many steps the codec takes -/

namespace Adhoc
open Spec F32

/-! ## C138 -/

/-- what is known about the block of a vector that never got longer than `M` -/
def Snug (M : Nat) (v : Block) : Prop :=
  (v.allocs = 0 ∧ v.copied = 0 ∧ v.cap = 0) ∨ (1 ≤ v.allocs ∧ 2 ^ v.allocs ≤ v.cap ∧ 2 ^ (v.allocs - 1) ≤ M ∧ v.copied ≤ v.cap ∧ v.cap ≤ 2 * M + 8)

theorem Snug.room {M len least : Nat} {v : Block} (h : Snug M v) (hl : len ≤ M) (h2 : 2 ≤ least) (h8 : least ≤ 8) : Snug M (v.room least len) := by
  unfold Block.room
  split
  · exact h
  · next hc =>
    rcases h with ⟨h1, h3, h4⟩ | ⟨h1, h3, h4, h5, h6⟩
    · refine .inr ⟨by simp, ?_, ?_, ?_, ?_⟩
      · show 2 ^ (v.allocs + 1) ≤ _
        rw [h1]; simp; omega
      · show 2 ^ (v.allocs + 1 - 1) ≤ _
        rw [h1]; simp; omega
      · simp [h3, h4]
      · simp only [h4]; omega
    · refine .inr ⟨by simp, ?_, ?_, ?_, ?_⟩
      · show 2 ^ (v.allocs + 1) ≤ max least (max (2 * v.cap) len)
        rw [Nat.pow_succ]; omega
      · show 2 ^ (v.allocs + 1 - 1) ≤ _
        rw [Nat.add_sub_cancel]; omega
      · show v.copied + v.cap ≤ max least (max (2 * v.cap) len)
        omega
      · show max least (max (2 * v.cap) len) ≤ _
        omega

theorem Snug.pushes {M len len' least : Nat} {v : Block} (h : Snug M v) (hl : len' ≤ M) (h2 : 2 ≤ least) (h8 : least ≤ 8) : Snug M (v.pushes least len len') := by
  unfold Block.pushes
  have : ∀ (l : List Nat) (v : Block), (∀ i ∈ l, len + i + 1 ≤ M) → Snug M v → Snug M (l.foldl (fun v i => v.room least (len + i + 1)) v) := by
    intro l
    induction l with
    | nil => intro v _ h; exact h
    | cons i l ih => intro v hi h; exact ih _ (fun j hj => hi j (List.mem_cons_of_mem _ hj)) (h.room (hi i List.mem_cons_self) h2 h8)
  exact this _ v (fun i hi => by have := List.mem_range.1 hi; omega) h

theorem Snug.bounds {M : Nat} {v : Block} (h : Snug M v) : v.allocs ≤ Nat.log 2 M + 1 ∧ v.copied ≤ 2 * M + 8 := by
  rcases h with ⟨h1, h3, h4⟩ | ⟨h1, h3, h4, h5, h6⟩
  · omega
  · have := Nat.le_log_of_pow_le (by norm_num) h4
    omega

/-- how much was given to a codec of `n` channels: the samples, and the frames, one for each call and channel -/
def Spec.given (n : Nat) (calls : List (List F32)) : Nat := (calls.map List.length).sum + calls.length * n

theorem signal_given (n : Nat) : ∀ calls : List (List F32), n * (signal n calls).length ≤ (calls.map List.length).sum
  | [] => by simp [signal]
  | pcm :: calls => by
    have h := signal_given n calls
    unfold signal at h ⊢
    rw [List.flatMap_cons, List.length_append, length_blocksOf, Nat.mul_add, List.map_cons, List.sum_cons]
    have := Nat.mul_div_le pcm.length n
    omega

theorem lengths_recorded {b : Build} {info : StreamInfo} {level : Nat} (hn : 0 < info.channels) {calls : List (List F32)} {c : AdhocCodec}
    (h : encodeAll b (fresh info level) calls = .ok c) :
    c.stream.stream.binary.length ≤ 129 * given info.channels calls + 2 ∧ c.frameHeaderList.divisorExpList.data.length ≤ given info.channels calls ∧
    c.frameHeaderList.isInitFrameList.binary.length ≤ given info.channels calls ∧ c.frameHeaderList.frameSizeList.length ≤ given info.channels calls ∧
    c.frameHeaderList.bitCursorList.length ≤ given info.channels calls ∧ c.frameHeaderList.stackHistoryList.length ≤ given info.channels calls := by
  have h1 := (C19_any_length_partial b info level hn calls c h).2
  have h2 := signal_given info.channels calls
  obtain ⟨-, blocks, H, HR, -⟩ := recorded_of_ok hn h
  have hl : (hdrs 0 (flat info.channels blocks)).length = calls.length * info.channels := by rw [length_hdrs, length_flat, HR.len]
  have L := H.log
  rw [L.sizes, L.cursors, L.hist, L.exps.bytes, L.inits.words]
  simp only [List.length_map, hl]
  unfold BitStream.capacityUpperbound at h1
  unfold given
  generalize calls.length * info.channels = F at *
  generalize info.channels * (signal info.channels calls).length = S at *
  generalize (calls.map List.length).sum = N at *
  refine ⟨by omega, by omega, by omega, by omega, by omega, by omega⟩

theorem encodeAllM_run {b : Build} {info : StreamInfo} {level : Nat} (hn : 0 < info.channels) (M : Nat) : ∀ (calls : List (List F32)) (c : AdhocCodec)
    (_ : encodeAll b (fresh info level) calls = .ok c) (_ : 129 * given info.channels calls + 2 ≤ M),
    ∃ m, AdhocCodec.encodeAllM b (fresh info level) calls = .ok (c, m) ∧ ∀ v ∈ m.all, Snug M v := by
  intro calls
  induction calls using List.reverseRecOn with
  | nil =>
    intro c h _
    refine ⟨{}, ?_, ?_⟩
    · have : c = fresh info level := (Except.ok.inj h).symm
      rw [this]; rfl
    · intro v hv
      have : v = {} := by
        simp [Memory.all] at hv
        exact hv
      subst this
      exact .inl ⟨rfl, rfl, rfl⟩
  | append_singleton calls pcm ih =>
    intro c h hM
    have hfull := lengths_recorded hn h
    have hg : given info.channels (calls ++ [pcm]) = given info.channels calls + pcm.length + info.channels := by
      unfold given
      rw [List.map_append, List.sum_append, List.length_append, Nat.add_mul]
      simp
      omega
    unfold encodeAll at h
    rw [List.foldlM_append] at h
    obtain ⟨c0, h0, h⟩ := bind_eq_ok.1 h
    obtain ⟨m, hm, hs⟩ := ih c0 h0 (by omega)
    rw [List.foldlM_cons] at h
    obtain ⟨c1, h1, h⟩ := bind_eq_ok.1 h
    obtain ⟨⟨c2, r⟩, h2, h1⟩ := bind_eq_ok.1 h1
    obtain rfl := Except.ok.inj h1
    obtain rfl : c2 = c := Except.ok.inj h
    obtain ⟨-, blocks, H, -, -⟩ := recorded_of_ok hn h0
    have hinfo := H.hinfo
    simp only [Memory.all, List.mem_cons, List.not_mem_nil, or_false, forall_eq_or_imp, forall_eq] at hs
    obtain ⟨s1, s2, s3, s4, s5, s6, s7⟩ := hs
    refine ⟨{ chunks := m.chunks.pushes 4 c0.stream.stream.binary.length c2.stream.stream.binary.length
              exps := m.exps.pushes 8 c0.frameHeaderList.divisorExpList.data.length c2.frameHeaderList.divisorExpList.data.length
              inits := m.inits.pushes 4 c0.frameHeaderList.isInitFrameList.binary.length c2.frameHeaderList.isInitFrameList.binary.length
              sizes := m.sizes.pushes 4 c0.frameHeaderList.frameSizeList.length c2.frameHeaderList.frameSizeList.length
              cursors := m.cursors.pushes 4 c0.frameHeaderList.bitCursorList.length c2.frameHeaderList.bitCursorList.length
              histories := m.histories.pushes 4 c0.frameHeaderList.stackHistoryList.length c2.frameHeaderList.stackHistoryList.length
              scratch := m.scratch.room 4 (pcm.length / info.channels) }, ?_, ?_⟩
    · unfold AdhocCodec.encodeAllM at hm ⊢
      rw [List.foldlM_append, hm, bind_ok, List.foldlM_cons]
      unfold AdhocCodec.encodeM
      dsimp only
      rw [hinfo]
      simp only [expect, bind_ok, udiv, if_neg (show info.channels ≠ 0 by omega), h2, List.foldlM_nil]
      rfl
    · simp only [Memory.all, List.mem_cons, List.not_mem_nil, or_false, forall_eq_or_imp, forall_eq]
      obtain ⟨f1, f2, f3, f4, f5, f6⟩ := hfull
      refine ⟨s1.pushes (by omega) (by omega) (by omega), s2.pushes (by omega) (by omega) (by omega), s3.pushes (by omega) (by omega) (by omega),
        s4.pushes (by omega) (by omega) (by omega), s5.pushes (by omega) (by omega) (by omega), s6.pushes (by omega) (by omega) (by omega),
        s7.room ?_ (by omega) (by omega)⟩
      have := Nat.div_le_self pcm.length info.channels
      omega

/-- **C138**: a recording allocates memory a number of times that grows with the logarithm of its length only, as README.md says: with `N` samples and frames given, seven
vectors are allocated at most `log₂ N + 9` times each. All the copying this takes is linear: at most 1806 times `N` and 84 elements. -/
theorem C138_allocations (b : Build) (info : StreamInfo) (level : Nat) (hn : 0 < info.channels) (calls : List (List F32)) (c : AdhocCodec)
    (h : encodeAll b (fresh info level) calls = .ok c) :
    ∃ m, AdhocCodec.encodeAllM b (fresh info level) calls = .ok (c, m) ∧ m.allocs ≤ 7 * (Nat.log 2 (given info.channels calls) + 9) ∧
      m.copied ≤ 1806 * given info.channels calls + 84 := by
  obtain ⟨m, hm, hs⟩ := encodeAllM_run hn _ calls c h le_rfl
  refine ⟨m, hm, ?_⟩
  generalize given info.channels calls = N at *
  have hlog : Nat.log 2 (129 * N + 2) ≤ Nat.log 2 N + 8 := by
    rcases Nat.eq_zero_or_pos N with rfl | hN
    · have : Nat.log 2 (129 * 0 + 2) = 1 := Nat.log_eq_of_pow_le_of_lt_pow (by norm_num) (by norm_num)
      omega
    · rw [← Nat.lt_succ_iff]
      refine Nat.log_lt_of_lt_pow (by omega) ?_
      have := Nat.lt_pow_succ_log_self (b := 2) (by norm_num) N
      rw [show (Nat.log 2 N + 8).succ = (Nat.log 2 N + 1) + 8 by omega, Nat.pow_add]
      rw [Nat.succ_eq_add_one] at this
      generalize 2 ^ (Nat.log 2 N + 1) = P at *
      omega
  simp only [Memory.all, List.mem_cons, List.not_mem_nil, or_false, forall_eq_or_imp, forall_eq] at hs
  obtain ⟨s1, s2, s3, s4, s5, s6, s7⟩ := hs
  have := s1.bounds; have := s2.bounds; have := s3.bounds; have := s4.bounds; have := s5.bounds; have := s6.bounds; have := s7.bounds
  simp only [Memory.allocs, Memory.copied, Memory.all, List.map_cons, List.map_nil, List.sum_cons, List.sum_nil]
  omega

/-- a stereo recording of seven calls: three vectors of fourteen elements needed a second and a third block -/
example : (match AdhocCodec.encodeAllM .debug (fresh { sampleRate := 8000, channels := 2 } 0) (List.replicate 7 [F32.ofRat (1 / 2), F32.ofRat (1 / 3), F32.ofInt 0, F32.ofInt 0, F32.ofInt 1, F32.ofInt 1]) with
    | .ok (c, m) => decide (c.frameHeaderList.frameSizeList.length = 14 ∧ m.allocs = 14 ∧ m.copied = 40 ∧ m.sizes = { cap := 16, allocs := 3, copied := 12 })
    | .error _ => false) = true := by decide +kernel

/-- a thousand pushes need nine blocks -/
example : ({} : Block).pushes 4 0 1000 = { cap := 1024, allocs := 9, copied := 1020 } := by decide +kernel

/-! ## C139 -/

/-- the clocked computation `x` ends as `y` does; if that is with a result, it takes at most `m` ticks -/
def Spec.Takes {α : Type} (x : Clocked α) (y : R α) (m : Nat) : Prop :=
  match y with
  | .error e => x 0 = .error e
  | .ok a => ∃ k, x 0 = .ok (a, k) ∧ k ≤ m

theorem Brief.takes {α : Type} {x : Clocked α} {y : R α} {m : Nat} (h : Brief x y m) : Takes x y m := by
  unfold Takes
  split
  · exact h.1 _ rfl 0
  · obtain ⟨k, h1, h2⟩ := h.2 _ rfl
    exact ⟨k, by rw [h1, Nat.zero_add], h2⟩

/-- successive encode calls with the clock -/
def Spec.encodeAllT (b : Build) (c : AdhocCodec) (calls : List (List F32)) : Clocked AdhocCodec :=
  calls.foldlM (fun c pcm => do let (c, _) ← c.encodeT b pcm; pure c) c

/-- successive decode calls with the clock -/
def Spec.decodeAllT (b : Build) : AdhocCodec → List (List F32) → Clocked (AdhocCodec × List (List F32 × Option Nat))
  | c, [] => pure (c, [])
  | c, buf :: bufs => do
    let (c, out, n) ← c.decodeT b buf
    let (c, outs) ← decodeAllT b c bufs
    pure (c, (out, n) :: outs)

/-- **C139**: one call of `encode`, on a codec in any state, takes a number of steps that is linear in the samples given. -/
theorem C139_encode (b : Build) (c : AdhocCodec) (info : StreamInfo) (hi : c.stream.info = some info) (pcm : List F32) :
    Takes (c.encodeT b pcm) (c.encode b pcm) (276 * pcm.length + 20 * info.channels) := (brief_encode b c pcm hi).takes

theorem encode_keeps {b : Build} {info : StreamInfo} {level : Nat} (hn : 0 < info.channels) {calls : List (List F32)} {c : AdhocCodec}
    (h : encodeAll b (fresh info level) calls = .ok c) : c.stream.info = some info := by
  obtain ⟨-, blocks, H, -, -⟩ := recorded_of_ok hn h
  exact H.hinfo

theorem costs_encodeAll (b : Build) {info : StreamInfo} {level : Nat} (hn : 0 < info.channels) : ∀ (calls : List (List F32)),
    Brief (encodeAllT b (fresh info level) calls) (encodeAll b (fresh info level) calls) (276 * given info.channels calls) := by
  intro calls
  induction calls using List.reverseRecOn with
  | nil => exact Brief.pure
  | append_singleton calls pcm ih =>
    unfold encodeAllT encodeAll
    rw [List.foldlM_append, List.foldlM_append]
    have hg : given info.channels (calls ++ [pcm]) = given info.channels calls + pcm.length + info.channels := by
      unfold given
      rw [List.map_append, List.sum_append, List.length_append, Nat.add_mul]
      simp
      omega
    refine Costs.bind ih fun c i hc hk => ?_
    simp only [List.foldlM_cons, List.foldlM_nil, bind_assoc, pure_bind]
    refine Costs.bind (brief_encode b c pcm (encode_keeps hn hc)) fun r j hr hj => ?_
    refine Costs.pure ?_
    omega

/-- **C139**: a recording takes a number of steps that is linear in what is given: at most 276 for every sample and every frame. -/
theorem C139_recording (b : Build) (info : StreamInfo) (level : Nat) (hn : 0 < info.channels) (calls : List (List F32)) :
    Takes (encodeAllT b (fresh info level) calls) (encodeAll b (fresh info level) calls) (276 * given info.channels calls) := (costs_encodeAll b hn calls).takes

/-- the thirteen samples of `demo` take 210 steps -/
example : (match encodeAllT .debug (fresh { sampleRate := 8000, channels := 2 } 0) demo 0, encodeAll .debug (fresh { sampleRate := 8000, channels := 2 } 0) demo with
    | .ok (c, k), .ok c' => decide (k = 210 ∧ c.stream = c'.stream ∧ given 2 demo = 17)
    | _, _ => false) = true := by decide +kernel

theorem costs_decodeAll (b : Build) (T n : Nat) (base : FrameHeaders) : ∀ (bufs : List (List F32)) (c : AdhocCodec) (B : Nat), Cast c n base → (0 < n → Left c n base B) →
    c.channelStateList.length = n → Dark T c.stream.stream →
    Costs (decodeAllT b c bufs) (decodeAll b c bufs) fun r k => 128 * k + workLeft T r.1 ≤ 128 * (93 * (bufs.map List.length).sum) + workLeft T c
  | [], c, _, _, _, _, _ => Costs.pure (by simp)
  | buf :: bufs, c, B, H, HB, hl, hd => by
    obtain ⟨info, hi, hch⟩ := H.chans
    unfold decodeAllT decodeAll
    refine Costs.bind (costs_decode b T c buf hi (hl.trans hch.symm) hd) ?_
    rintro ⟨c1, out, o⟩ i h1 ⟨d1, l1, k1⟩
    dsimp only at d1 l1 k1 ⊢
    have hn : 0 < n := by
      rcases Nat.eq_zero_or_pos n with h0 | h0
      · exfalso
        subst h0
        unfold AdhocCodec.decode AdhocCodec.decodeRaw at h1
        rw [hi] at h1
        simp [expect, udiv, hch, bind, Except.bind] at h1
      · exact h0
    obtain ⟨H1, -, k, -, -, -, -, HB1⟩ := (halts_decode H (HB hn) buf).post _ h1
    refine Costs.bind (costs_decodeAll b T n base bufs c1 _ H1 (fun _ => HB1) (l1.trans hch) d1) ?_
    rintro ⟨c2, outs⟩ j - k2
    refine Costs.pure ?_
    dsimp only at k2 ⊢
    rw [List.map_cons, List.sum_cons]
    omega

/-- **C139**: all the calls of `decode` on a loaded file, of whatever encoder, take together a number of steps that is linear in the samples asked for, the samples that
the file declares and its bytes. -/
theorem C139_playing (b b' : Build) (bytes : List Byte) (c : AdhocCodec) (h : AdhocCodec.load b bytes = .ok (some c)) (bufs : List (List F32)) :
    Takes (decodeAllT b' c bufs) (decodeAll b' c bufs) (93 * (bufs.map List.length).sum + 130 * c.frameHeaderList.frameSizeList.sum + bytes.length / 16) := by
  obtain ⟨n, -, hl, H, hinit, hK⟩ := load_cast h
  refine Brief.takes ((costs_decodeAll b' (128 * c.stream.stream.binary.length) n c.frameHeaderList bufs c (65535 * rowsHeld c.frameHeaderList n) H
    (fun hn => by have := (init_left hn H).2; rwa [hinit] at this) hl (fun i hi => BitStream.bitAt_beyond _ _ hi)).mono fun r k _ hk => ?_)
  have hc : c.frameHeaderList.headerCursor = 0 := by rw [← hinit]; rfl
  have hs : restOf c.frameHeaderList = c.frameHeaderList.frameSizeList.sum := by unfold restOf; rw [hc]; rfl
  rw [show workLeft (128 * c.stream.stream.binary.length) c = 128 * 130 * restOf c.frameHeaderList + (128 * c.stream.stream.binary.length - c.stream.stream.bitCursor) from rfl, hs] at hk
  generalize workLeft _ r.1 = W at hk
  omega

/-- two calls on a file that no encoder of this crate has made -/
example : (match AdhocCodec.load .debug foreignFile with
    | .ok (some c) => (match decodeAllT .release c [List.replicate 4 (F32.ofInt 0), List.replicate 3 (F32.ofInt 0)] 0 with
      | .ok (r, k) => decide (r.2.map (·.2) = [some 4, some 2] ∧ k = 83 ∧ c.frameHeaderList.frameSizeList.sum = 6 ∧ foreignFile.length = 167)
      | .error _ => false)
    | _ => false) = true := by decide +kernel

theorem sizes_total : ∀ (fs : List Fr) (p : Nat), ((hdrs p fs).map (·.size)).sum ≤ total fs
  | [], _ => by simp [hdrs]
  | f :: fs, p => by
    have := sizes_total fs (p + f.bits.length)
    simp only [hdrs, List.map_cons, List.sum_cons, total] at this ⊢
    have : (f.hdr p).size ≤ f.codes.length := by simp [Fr.hdr, Nat.mod_le]
    omega

theorem sizes_small : ∀ (fs : List Fr) (p : Nat), ∀ x ∈ (hdrs p fs).map (·.size), x < 2 ^ 16
  | [], _ => by simp [hdrs]
  | f :: fs, p => by
    have := sizes_small fs (p + f.bits.length)
    simp only [hdrs, List.map_cons, List.mem_cons, forall_eq_or_imp]
    exact ⟨by simp only [Fr.hdr]; exact Nat.mod_lt _ (by norm_num), this⟩

theorem total_given {n : Nat} {inv : F32} {calls : List (List F32)} {blocks : List (Nat → Fr)} (H : Recorded n inv calls blocks) :
    total (flat n blocks) ≤ (calls.map List.length).sum := by
  have key : ∀ j ≤ calls.length, total (flat n (blocks.take j)) ≤ ((calls.take j).map List.length).sum := by
    intro j
    induction j with
    | zero => simp [flat]
    | succ j ih =>
      intro hj
      rw [H.total j (by omega), List.take_add_one, List.map_append, List.sum_append]
      have h1 := ih (by omega)
      have h2 := Nat.mul_div_le (calls.getD j []).length n
      have h3 : calls[j]? = some (calls.getD j []) := by rw [List.getD_eq_getElem?_getD, List.getElem?_eq_getElem (by omega)]; rfl
      rw [h3]
      simp only [Option.toList_some, List.map_cons, List.map_nil, List.sum_cons, List.sum_nil]
      omega
  have := key calls.length le_rfl
  rwa [List.take_length, ← H.len, List.take_length] at this

/-- **C139**: all the calls of `decode` that play a recording take together a number of steps that is linear in the samples asked for and in what was recorded. -/
theorem C139_replaying (b b' : Build) (info : StreamInfo) (level : Nat) (hn : 0 < info.channels) (calls : List (List F32)) (c : AdhocCodec)
    (h : encodeAll b (fresh info level) calls = .ok c) (bufs : List (List F32)) :
    Takes (decodeAllT b' c.init bufs) (decodeAll b' c.init bufs) (93 * (bufs.map List.length).sum + 259 * given info.channels calls + 2) := by
  have hlen := (lengths_recorded hn h).1
  obtain ⟨-, blocks, H, HR, -⟩ := recorded_of_ok hn h
  have hcast : Cast c info.channels c.frameHeaderList := by
    refine ⟨⟨info, H.hinfo, rfl⟩, rfl, ?_, H.chans.le⟩
    intro x hx
    rw [H.log.sizes] at hx
    exact sizes_small _ _ x hx
  obtain ⟨H1, HB⟩ := init_left hn hcast
  refine Brief.takes ((costs_decodeAll b' (128 * c.stream.stream.binary.length) info.channels c.frameHeaderList bufs c.init _ H1
    (fun _ => HB) (by simpa [AdhocCodec.init] using H.chans) (fun i hi => BitStream.bitAt_beyond _ _ hi)).mono fun r k _ hk => ?_)
  have hs : restOf c.init.frameHeaderList ≤ (calls.map List.length).sum := by
    show (c.frameHeaderList.frameSizeList.drop 0).sum ≤ _
    rw [List.drop_zero, H.log.sizes]
    exact (sizes_total _ _).trans (total_given HR)
  have hw : workLeft (128 * c.stream.stream.binary.length) c.init ≤ 128 * 130 * (calls.map List.length).sum + 128 * c.stream.stream.binary.length := by
    unfold workLeft; omega
  have hg : (calls.map List.length).sum ≤ given info.channels calls := Nat.le_add_right _ _
  generalize workLeft _ r.1 = W at hk
  generalize workLeft _ c.init = V at *
  generalize given info.channels calls = N at *
  generalize (calls.map List.length).sum = S at *
  omega

/-- playing `demo` takes 146 steps -/
example : (match encodeAll .debug (fresh { sampleRate := 8000, channels := 2 } 0) demo with
    | .ok c => (match decodeAllT .release c.init [List.replicate 9 (F32.ofInt 0), List.replicate 9 (F32.ofInt 0)] 0 with
      | .ok (r, k) => decide (k = 146 ∧ r.2.map (·.2) = [some 8, some 4])
      | .error _ => false)
    | _ => false) = true := by decide +kernel

/-! ## C140 -/

/-- **C140**: a seek in a loaded file, of whatever encoder, looks at every row of frames at most once and decodes one row: apart from the rows and the bytes, its steps are
bounded by a number that depends on the channels only. -/
theorem C140_seek (b b' : Build) (bytes : List Byte) (c : AdhocCodec) (info : StreamInfo) (h : AdhocCodec.load b bytes = .ok (some c)) (hi : c.stream.info = some info) (dt : SeekFrom) :
    Takes (c.seekT b' dt) (c.seek b' dt) (c.frameHeaderList.len / info.channels + bytes.length / 16 + 8585096 * info.channels + 65535) := by
  obtain ⟨n, ⟨info', hi', hch⟩, hl, H, hinit, hK⟩ := load_cast h
  obtain rfl : info' = info := Option.some.inj (hi'.symm.trans hi)
  obtain ⟨s, rest, info2, hs, hi2, h1, h2, h3, h4, -⟩ := load_holds h
  obtain ⟨k1, k2, k3, k4⟩ := back_slim hs
  have e2 : info2 = info' := by rw [h3] at hi; exact Option.some.inj (hi2.symm.trans hi)
  have hlen : c.frameHeaderList.len < 2 ^ 32 := by rw [h2]; exact k2.count
  have hc32 : info'.channels < 2 ^ 32 := (k2.rate info' (by rw [← e2]; exact hi2)).2
  refine ((costs_seek b' c dt hi (hl.trans hch.symm) H.sizes hlen hc32).le ?_).takes
  omega

/-- a seek in a file of one channel and two frames -/
example : (match AdhocCodec.load .debug indexedFile with
    | .ok (some c) => (match c.seekT .release (.start 6) 0, c.seek .release (.start 6) with
      | .ok (c1, k), .ok c2 => decide (k = 16 ∧ c1.stream = c2.stream ∧ c.frameHeaderList.len = 2 ∧ c1.frameHeaderList.headerCursor = 2)
      | _, _ => false)
    | _ => false) = true := by decide +kernel

end Adhoc

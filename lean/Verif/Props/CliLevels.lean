import Verif.Props.Levels
import Verif.Props.Cli

/-! # C73: how much the command line conversion changes at the levels above 0 -/

namespace Adhoc
open Spec F32

theorem wide_cells {n : Nat} {cells : List ℤ} (hr : ∀ x ∈ cells, -32768 ≤ x ∧ x ≤ 32767) : ∀ pcm ∈ cliCalls n cells, ∀ x ∈ pcm, Wide x := by
  intro pcm hp x hx
  obtain ⟨l, hl, rfl⟩ := List.mem_map.1 hp
  obtain ⟨i, hi, rfl⟩ := List.mem_map.1 hx
  have hi' : i ∈ cells := by
    obtain ⟨k, -, rfl⟩ := List.mem_map.1 hl
    exact List.mem_of_mem_drop (List.mem_of_mem_take hi)
  have hb : |i| ≤ 32768 := by have := hr i hi'; rw [abs_le]; omega
  obtain ⟨v, hv, h1⟩ := normalizeSample_err hb
  refine ⟨v, hv, ?_⟩
  have hi2 : |(i : ℚ)| ≤ 32768 := by exact_mod_cast hb
  have h3 : |(i : ℚ)| / 32767 / 2 ^ 23 ≤ 32768 / 32767 / 2 ^ 23 := by gcongr
  have h4 : |(i : ℚ) / 32767| ≤ 32768 / 32767 := by
    rw [abs_div, show |(32767 : ℚ)| = 32767 by norm_num]
    gcongr
  have h5 := abs_add_le (v - (i : ℚ) / 32767) ((i : ℚ) / 32767)
  rw [sub_add_cancel] at h5
  refine h5.trans ((add_le_add (h1.trans h3) h4).trans (by norm_num))

/-- a 16-bit sample, a float near it, and its code -/
theorem restored_near {i : ℤ} (hi : -32768 ≤ i ∧ i ≤ 32767) {y : F32} {e : ℚ} (h : Near e (normalizeSample i) y) :
    |(truncateSample y : ℚ) - i| ≤ 32767 * e + 2.1 := by
  have hb : |i| ≤ 32768 := by rw [abs_le]; omega
  obtain ⟨v, iv, -, ev⟩ := normalize_value hb
  obtain ⟨p, w, ip, iw, hpw⟩ := h
  obtain rfl := Is.unique ip iv
  have ht := truncateSample_err y
  rw [Is.unit iw] at ht
  have hl := limit_near w p
  have hi' : (-32768 : ℚ) ≤ i ∧ (i : ℚ) ≤ 32767 := by exact_mod_cast hi
  have hc : |max (-1) (min 1 p) * 32767 - i| ≤ 1.01 := by
    rw [abs_le] at ev ⊢
    have e1 : |p * 32767 - i| ≤ 0.01 := by
      rw [abs_le]
      constructor <;> norm_num at ev ⊢ <;> linarith [ev.1, ev.2]
    rw [abs_le] at e1
    rcases max_cases (-1 : ℚ) (min 1 p) with ⟨c1, d1⟩ | ⟨c1, d1⟩ <;> rcases min_cases (1 : ℚ) p with ⟨c2, d2⟩ | ⟨c2, d2⟩ <;> rw [c1]
    · linarith
    · rw [c2] at d1
      constructor <;> linarith [e1.1, e1.2]
    · rw [c2]
      constructor <;> linarith [e1.1, e1.2]
    · rw [c2]
      constructor <;> linarith [e1.1, e1.2]
  have hwp : |w - p| ≤ e := by rw [abs_sub_comm]; exact hpw
  have hlim := hl.trans hwp
  rw [abs_lt] at ht
  rw [abs_le] at hlim hc ⊢
  constructor <;> linarith [ht.1, ht.2, hlim.1, hlim.2, hc.1, hc.2]

/-- what the tool records at the levels from 1 and what is decoded of it -/
theorem level_playback (b : Build) {info : StreamInfo} (hpos : 0 < info.channels) {cells : List ℤ} (hr : ∀ x ∈ cells, -32768 ≤ x ∧ x ≤ 32767)
    (hn : info.channels < 342) (h3 : 3 * info.channels ≤ cells.length)
    {L : Nat} (h1 : 1 ≤ L) (hL : L ≤ 10) (hsync : L < 4 → ∀ ch < info.channels, InSync (stored (down L) info.channels ch 0 (cliCalls info.channels cells))) :
    ∃ c sig, encodeAll b (fresh info L) (cliCalls info.channels cells) = .ok c ∧ Plays b info.channels (fresh info L).scale c.init sig ∧
      (∀ blk ∈ sig, blk.length = info.channels) ∧ sig.length = cells.length / info.channels ∧
      List.Forall₂ (fun x y : ℤ => |(y : ℚ) - x| ≤ 1.01 * 2 ^ L + 36) (cells.take (whole info.channels cells.length))
        (sig.flatten.map (restore (fresh info L).scale)) := by
  have hn' : info.channels ≤ 1024 := by omega
  have hp := cliCalls_proper hpos hn h3
  have hwide := wide_cells (n := info.channels) hr
  obtain ⟨c, sig, e, hnear, hd⟩ := level_error b b info hpos L hL (cliCalls info.channels cells) hp hwide (by omega) (by
    intro ch hch
    by_cases h4 : 4 ≤ L
    · exact inSync_high h4 hL hch hwide
    · exact hsync (by omega) ch hch)
  rw [cliCalls_signal hpos hn'] at hnear
  obtain ⟨hc, hs⟩ := fresh_up info hL
  -- `Plays` scales inside, so go through the playback of the codec
  obtain ⟨Q, -, -, hplay⟩ := playback hpos e hp.short hp.gap
  obtain ⟨sig', hsig'⟩ : ∃ sig', sig' = played info.channels (signal info.channels (cliCalls info.channels cells)).length Q := ⟨_, rfl⟩
  have hw : ∀ blk ∈ sig', blk.length = info.channels := by
    intro blk hblk
    rw [hsig'] at hblk
    obtain ⟨k, -, rfl⟩ := List.mem_map.1 hblk
    simp
  have hsl : sig'.length = cells.length / info.channels := by
    rw [hsig', cliCalls_signal hpos hn']
    simp [played, blocksOf]
  have hw2 : ∀ blk ∈ sig, blk.length = info.channels := by
    intro blk hblk
    obtain ⟨x, hx, hxy⟩ := forall₂_mem_right hnear blk hblk
    rw [← hxy.length_eq]
    exact signal_width (calls := cliCalls info.channels cells) x (by rw [cliCalls_signal hpos hn']; exact hx)
  have hsl2 : sig.length = cells.length / info.channels := by
    rw [← hnear.length_eq]
    simp [blocksOf]
  -- the two descriptions of what is decoded agree
  have hsame : sig'.flatten.map (· * up L) = sig.flatten := by
    obtain ⟨d1, f1, -⟩ := hplay b [List.replicate (cells.length) (F32.ofInt 0)]
    obtain ⟨d2, f2⟩ := hd [List.replicate (cells.length) (F32.ofInt 0)]
    rw [f1] at f2
    have f3 := congrArg (fun r => r.2) (Except.ok.inj f2)
    dsimp only at f3
    rw [← hsig', List.map_cons, List.map_nil, readBlocks_cons, readBlocks_cons, List.length_map, List.length_replicate, hsl, hsl2, Nat.min_self,
      List.take_of_length_le (by omega), List.take_of_length_le (by omega), List.map_cons, List.cons.injEq, Prod.mk.injEq, List.map_append] at f3
    have f4 := f3.1.1
    rw [hc] at f4
    have hlen : (sig'.flatten.map (· * up L)).length = sig.flatten.length := by
      rw [List.length_map, length_flatten_width hw, length_flatten_width hw2, hsl, hsl2]
    exact (List.append_inj f4 hlen).1
  have hcells : sig'.flatten.map (restore (fresh info L).scale) = sig.flatten.map truncateSample := by
    rw [← hsame, List.map_map, hc]
    rfl
  refine ⟨c, sig', e, ?_, hw, hsl, ?_⟩
  · intro bufs
    obtain ⟨c', e', -⟩ := hplay b bufs
    rw [e', hsig']; rfl
  rw [hcells]
  have hflat : List.Forall₂ (Near (levelError L)) ((cells.take (whole info.channels cells.length)).map normalizeSample) sig.flatten := by
    have : (blocksOf info.channels (cells.map normalizeSample)).flatten = (cells.take (whole info.channels cells.length)).map normalizeSample := by
      rw [flatten_blocksOf hpos, List.length_map, List.map_take]
    rw [← this]
    exact List.rel_flatten hnear
  rw [List.forall₂_map_left_iff] at hflat
  rw [List.forall₂_map_right_iff]
  have hmem : ∀ x ∈ cells.take (whole info.channels cells.length), -32768 ≤ x ∧ x ≤ 32767 := fun x hx => hr x (List.mem_of_mem_take hx)
  revert hflat hmem
  generalize cells.take (whole info.channels cells.length) = xs
  generalize sig.flatten = ys
  intro hflat
  induction hflat with
  | nil => intro _; exact .nil
  | cons hxy _ ih =>
    intro hmem
    refine .cons ?_ (ih fun x hx => hmem x (by simp [hx]))
    refine (restored_near (hmem _ (by simp)) hxy).trans ?_
    unfold levelError
    have hp : (0 : ℚ) < 1 / 2 ^ L := by positivity
    have e1 : 32767 * (2 ^ L * 1.01 / 32767 + 0.00101 * (1 - 1 / 2 ^ L)) = (1.01 * 2 ^ L : ℚ) + 32767 * 0.00101 * (1 - 1 / 2 ^ L) := by ring
    rw [e1]
    generalize (1 : ℚ) / 2 ^ L = z at hp
    linarith

/-- C73. Converting a 16-bit WAV file to .adhoc at a level `L` from 1 to 10 and back changes no sample of a whole block by more than
`1.01 * 2 ^ L + 36` (of 32768), in either build; at levels 1 to 3 if the codec is in sync, at the others always. -/
theorem C73_cli_error (b : Build) (bytes : List Byte) (info : StreamInfo) (cells : List ℤ) (hr : ∀ x ∈ cells, -32768 ≤ x ∧ x ≤ 32767)
    (hl : WavCodec.load bytes = .ok (.ok { info := info, pcm := cells.flatMap le16, shortCursor := 0 }))
    (H : Fits { info := info, pcm := cells.flatMap le16, shortCursor := 0 }) (hn : info.channels < 342) (h3 : 3 * info.channels ≤ cells.length)
    (L : Nat) (h1 : 1 ≤ L) (hL : L ≤ 10) (hsync : L < 4 → ∀ ch < info.channels, InSync (stored (down L) info.channels ch 0 (cliCalls info.channels cells)))
    (fuel : Nat) (hfuel : cells.length < fuel) :
    ∃ (adhoc wav : Writer) (out : List ℤ), Cli.convertWavToAdhoc b bytes L (some Writer.perfect) = .ok (some adhoc, some ()) ∧
      Cli.convertAdhocToWav b fuel adhoc.out (some Writer.perfect) = .ok (some wav, some ()) ∧
      WavCodec.saveTo b { info := info, pcm := out.flatMap le16, shortCursor := 0 } Writer.perfect = .ok (wav, true) ∧
      List.Forall₂ (fun x y : ℤ => |(y : ℚ) - x| ≤ 1.01 * 2 ^ L + 36) (cells.take (whole info.channels cells.length)) out := by
  have hpos : 0 < info.channels := H.pos
  have hn' : info.channels ≤ 1024 := by omega
  have hwh : whole info.channels cells.length ≤ cells.length := Nat.div_mul_le_self _ _
  obtain ⟨c, sig, e, hp, hw, hsl, hnear⟩ := level_playback b hpos hr hn h3 h1 hL hsync
  obtain ⟨hf, hb⟩ := cli_counts hpos hn' (by have := H.size; dsimp only at this; rw [length_le16] at this; norm_num at this ⊢; omega) e
  have hlen : (sig.flatten.map (restore (fresh info L).scale)).length = whole info.channels cells.length := by
    rw [List.length_map, length_flatten_width hw, hsl, whole]
  have hfit := le16_fits (cells' := sig.flatten.map (restore (fresh info L).scale)) H (by rw [hlen]; exact hwh)
  obtain ⟨h, eh, hh⟩ := header_ok (b := b) hfit
  refine ⟨(c.saveTo Writer.perfect).1, _, _, ?_, ?_, saveTo_perfect eh, hnear⟩
  · rw [wav_to_adhoc hpos hn' hr hl, e]; rfl
  · have key := adhoc_to_wav hpos hn' (lt_trans H.rate_lt (by norm_num)) e hf hb hw hp
      (fuel := fuel) (by rw [hsl]; exact lt_of_le_of_lt (Nat.div_le_self _ _) hfuel) Writer.perfect
    rw [show ((c.saveTo Writer.perfect).1).out = file c from rfl, key, saveTo_perfect eh]
    rfl

/-- the hypotheses hold for `shortWav` at the default level 5 (see C58); a sample may change by 68 -/
example : (∀ x ∈ [1000, -513, 517, 2000, -3276], (-32768 : ℤ) ≤ x ∧ x ≤ 32767) ∧ (1.01 * 2 ^ 5 + 36 : ℚ) < 69 := by
  constructor
  · decide
  · norm_num

end Adhoc

import Verif.Proofs.Table
import Verif.Props.Files
import Verif.Props.WavFiles
import Verif.Model.Cli

/-! # The loops of the command line program -/

namespace Adhoc
open Spec F32

/-! ## cutting a list into pieces -/

namespace Spec

/-- consecutive pieces of `m` items, the last one possibly shorter -/
def pieces {α : Type} (m : Nat) (l : List α) : List (List α) := (List.range ((l.length + (m - 1)) / m)).map fun k => (l.drop (k * m)).take m

end Spec

theorem pieces_nil {α : Type} {m : Nat} (hm : 0 < m) : pieces m ([] : List α) = [] := by
  unfold pieces
  rw [List.length_nil, Nat.zero_add, Nat.div_eq_of_lt (by omega)]
  rfl

theorem pieces_cons {α : Type} {m : Nat} (hm : 0 < m) {l : List α} (hl : l ≠ []) : pieces m l = l.take m :: pieces m (l.drop m) := by
  have h0 : 0 < l.length := List.length_pos_iff.2 hl
  unfold pieces
  have h1 : (l.length + (m - 1)) / m = ((l.drop m).length + (m - 1)) / m + 1 := by
    rw [List.length_drop]
    rcases Nat.lt_or_ge l.length m with h | h
    · rw [show l.length - m + (m - 1) = m - 1 by omega, Nat.div_eq_of_lt (show m - 1 < m by omega),
        show l.length + (m - 1) = (l.length - 1) + m by omega, Nat.add_div_right _ hm, Nat.div_eq_of_lt (by omega)]
    · rw [show l.length + (m - 1) = (l.length - m + (m - 1)) + m by omega, Nat.add_div_right _ hm]
  rw [h1, List.range_succ_eq_map, List.map_cons, List.map_map, Nat.zero_mul, List.drop_zero]
  congr 1
  apply List.map_congr_left
  intro k _
  simp only [Function.comp_def, List.drop_drop, Nat.succ_eq_add_one, Nat.add_mul, Nat.one_mul]
  rw [Nat.add_comm]

/-- induction over the pieces -/
theorem pieces_induction {α : Type} {m : Nat} (hm : 0 < m) {P : List α → Prop} (h0 : P []) (h1 : ∀ l, l ≠ [] → P (l.drop m) → P l) (l : List α) : P l := by
  obtain ⟨n, hn⟩ : ∃ n, l.length = n := ⟨_, rfl⟩
  induction n using Nat.strong_induction_on generalizing l with
  | _ n ih =>
    by_cases hl : l = []
    · rw [hl]; exact h0
    · have : 0 < l.length := List.length_pos_iff.2 hl
      exact h1 l hl (ih _ (by rw [List.length_drop]; omega) (l.drop m) rfl)

theorem pieces_map {α β : Type} (f : α → β) (m : Nat) (l : List α) : (pieces m l).map (·.map f) = pieces m (l.map f) := by
  unfold pieces
  simp only [List.map_map, List.length_map, Function.comp_def, List.map_take, List.map_drop]

theorem length_pieces {α : Type} (m : Nat) (l : List α) : (pieces m l).length = (l.length + (m - 1)) / m := by simp [pieces]

theorem mem_pieces {α : Type} {m : Nat} {l x : List α} (h : x ∈ pieces m l) : x.length ≤ m := by
  obtain ⟨k, -, rfl⟩ := List.mem_map.1 h
  simp

/-! ## blocks -/

theorem blocksOf_split {n : Nat} (hn : 0 < n) {xs : List F32} {q : Nat} (hq : q ≤ xs.length / n) :
    blocksOf n xs = blocksOf n (xs.take (q * n)) ++ blocksOf n (xs.drop (q * n)) := by
  have hle : q * n ≤ xs.length := (Nat.mul_le_mul_right _ hq).trans (Nat.div_mul_le_self _ _)
  have h1 : (xs.take (q * n)).length / n = q := by rw [List.length_take, Nat.min_eq_left hle, Nat.mul_div_cancel _ hn]
  have h2 : (xs.drop (q * n)).length / n = xs.length / n - q := by rw [List.length_drop, Nat.mul_comm q n, Nat.sub_mul_div]
  unfold blocksOf
  rw [h1, h2]
  conv_lhs => rw [show xs.length / n = q + (xs.length / n - q) by omega, List.range_add, List.map_append, List.map_map]
  congr 1
  · apply List.map_congr_left
    intro k hk
    have hk : k < q := by simpa using hk
    have h3 : (k + 1) * n ≤ q * n := Nat.mul_le_mul_right _ hk
    rw [Nat.add_mul, Nat.one_mul] at h3
    rw [List.drop_take, List.take_take, Nat.min_eq_left (by omega)]
  · apply List.map_congr_left
    intro k _
    simp only [Function.comp_def, List.drop_drop, Nat.add_mul]

/-- cutting at multiples of the number of channels does not change the blocks -/
theorem signal_pieces {n q : Nat} (hn : 0 < n) (hq : 0 < q) (xs : List F32) : signal n (pieces (q * n) xs) = blocksOf n xs := by
  have hm : 0 < q * n := Nat.mul_pos hq hn
  refine pieces_induction hm (P := fun xs => signal n (pieces (q * n) xs) = blocksOf n xs) ?_ ?_ xs
  · rw [pieces_nil hm]; simp [signal, blocksOf]
  · intro l hl ih
    rw [pieces_cons hm hl, signal, List.flatMap_cons]
    rw [signal] at ih
    rw [ih]
    by_cases hle : q ≤ l.length / n
    · exact (blocksOf_split hn hle).symm
    · have hlt : l.length < q * n := by
        by_contra hc
        push Not at hc
        exact hle ((Nat.le_div_iff_mul_le hn).2 hc)
      rw [List.take_of_length_le hlt.le, List.drop_eq_nil_of_le hlt.le]
      simp [blocksOf]

theorem flatten_blocksOf {n : Nat} (hn : 0 < n) (xs : List F32) : (blocksOf n xs).flatten = xs.take (whole n xs.length) := by
  unfold blocksOf whole
  generalize hq : xs.length / n = q
  have hle : q * n ≤ xs.length := by rw [← hq]; exact Nat.div_mul_le_self _ _
  clear hq
  induction q with
  | zero => simp
  | succ q ih =>
    rw [Nat.add_mul, Nat.one_mul] at hle
    rw [List.range_succ, List.map_append, List.flatten_append, ih (by omega), Nat.add_mul, Nat.one_mul, List.take_add]
    simp

/-! ## compressing -/

theorem compressLoop_ok {b : Build} {n : Nat} (hn : 0 < n) (hn' : n ≤ 1024) (cells : List ℤ) : ∀ (fuel : Nat) {w : WavCodec} {pos : Nat} (_ : IsReel w ⟨cells, pos⟩)
    (_ : w.info.channels = n) (buf : List F32) (_ : buf.length = 1024) (adhoc : AdhocCodec) (_ : cells.length - pos < fuel),
    Cli.compressLoop b fuel w adhoc buf = encodeAll b adhoc ((pieces (whole n 1024) (cells.drop pos)).map (·.map normalizeSample))
  | 0, _, _, _, _, _, _, _, hf => by omega
  | fuel + 1, w, pos, H, hi, buf, hb, adhoc, hf => by
    have hq : 0 < 1024 / n := Nat.div_pos hn' hn
    have hm : 0 < whole n 1024 := Nat.mul_pos hq hn
    obtain ⟨w', e, i', H'⟩ := wavDecode_ok H (by rw [hi]; exact hn) buf
    rw [hi, hb] at e H'
    unfold Cli.compressLoop
    rw [e, bind_ok]
    obtain ⟨nx, hnx⟩ : ∃ nx, nx = (Reel.mk cells pos).next (whole n 1024) := ⟨_, rfl⟩
    rw [← hnx] at H' ⊢
    have hnx' : nx = (cells.drop pos).take (whole n 1024) := hnx
    by_cases h0 : nx = []
    · have hd : cells.drop pos = [] := by
        rw [hnx'] at h0
        rcases List.take_eq_nil_iff.1 h0 with h | h
        · omega
        · exact h
      rw [hd, pieces_nil hm]
      simp only [h0, if_true]
      rfl
    · have hd : cells.drop pos ≠ [] := by
        intro hd
        rw [hd] at hnx'
        exact h0 (by simpa using hnx')
      rw [pieces_cons hm hd, ← hnx', List.map_cons]
      simp only [h0, if_false]
      have hlen : nx.length ≤ 1024 := by
        rw [hnx', List.length_take]
        have : whole n 1024 ≤ 1024 := Nat.div_mul_le_self _ _
        omega
      have hpos : 0 < nx.length := List.length_pos_iff.2 h0
      have htake : (nx.map normalizeSample ++ buf.drop nx.length).take nx.length = nx.map normalizeSample := by
        rw [List.take_append_of_le_length (by simp), List.take_of_length_le (by simp)]
      rw [htake]
      unfold encodeAll
      rw [List.foldlM_cons, bind_assoc]
      have hdrop : (cells.drop pos).drop (whole n 1024) = cells.drop (pos + nx.length) := by
        rw [hnx', List.length_take, List.drop_drop]
        rcases Nat.le_total (whole n 1024) (cells.drop pos).length with h | h
        · rw [Nat.min_eq_left h]
        · rw [Nat.min_eq_right h, List.drop_eq_nil_of_le, List.drop_eq_nil_of_le]
          · rw [List.length_drop]; omega
          · rw [List.length_drop] at h; omega
      congr 1
      funext r
      obtain ⟨adhoc', k⟩ := r
      show Cli.compressLoop b fuel w' adhoc' _ = _
      have hlt : pos + nx.length ≤ cells.length := H'.le
      change IsReel w' ⟨cells, pos + nx.length⟩ at H'
      rw [compressLoop_ok hn hn' cells fuel H' (by rw [i', hi]) _ (by simp [hb]; omega) adhoc' (show cells.length - (pos + nx.length) < fuel by omega), hdrop]
      rfl

/-! ## decompressing -/

/-- decode calls read the signal `sig` and multiply by `s` -/
def Plays (b : Build) (n : Nat) (s : F32) (c : AdhocCodec) (sig : List (List F32)) : Prop :=
  ∀ bufs, (decodeAll b c bufs).map (·.2) = .ok ((readBlocks n sig bufs).map fun r => (r.1.map (· * s), r.2))

theorem Plays.step {b : Build} {n : Nat} {s : F32} {c : AdhocCodec} {sig : List (List F32)} (H : Plays b n s c sig) (buf : List F32) :
    ∃ c', c.decode b buf = .ok (c', ((sig.take (min (buf.length / n) sig.length)).flatten ++ buf.drop (min (buf.length / n) sig.length * n)).map (· * s),
        if min (buf.length / n) sig.length = 0 then none else some (min (buf.length / n) sig.length * n)) ∧
      Plays b n s c' (sig.drop (min (buf.length / n) sig.length)) := by
  obtain ⟨d, hd⟩ : ∃ d, d = min (buf.length / n) sig.length := ⟨_, rfl⟩
  rw [← hd]
  have key : ∀ bufs, (decodeAll b c (buf :: bufs)).map (·.2) = .ok ((((sig.take d).flatten ++ buf.drop (d * n)).map (· * s), if d = 0 then none else some (d * n)) ::
      (readBlocks n (sig.drop d) bufs).map fun r => (r.1.map (· * s), r.2)) := by
    intro bufs
    rw [H (buf :: bufs), readBlocks, ← hd]
    rfl
  rcases e : c.decode b buf with p | ⟨c', out, k⟩
  · have := key []
    rw [decodeAll, e] at this
    cases this
  · have hk : ∀ bufs, (decodeAll b c' bufs).map (fun r => (out, k) :: r.2) = .ok ((((sig.take d).flatten ++ buf.drop (d * n)).map (· * s), if d = 0 then none else some (d * n)) ::
        (readBlocks n (sig.drop d) bufs).map fun r => (r.1.map (· * s), r.2)) := by
      intro bufs
      rw [← key bufs, decodeAll, e]
      rw [bind_ok]
      dsimp only
      rcases decodeAll b c' bufs with p | r <;> rfl
    have h0 := hk []
    rw [decodeAll] at h0
    have h0 := List.cons.inj (Except.ok.inj h0)
    refine ⟨c', by rw [h0.1], fun bufs => ?_⟩
    have h1 := hk bufs
    rcases e2 : decodeAll b c' bufs with p | r
    · rw [e2] at h1; cases h1
    · rw [e2] at h1
      exact congrArg Except.ok (List.cons.inj (Except.ok.inj h1)).2

theorem length_flatten_width {n : Nat} : ∀ {sig : List (List F32)} (_ : ∀ blk ∈ sig, blk.length = n), sig.flatten.length = sig.length * n
  | [], _ => by simp
  | blk :: sig, h => by
    rw [List.flatten_cons, List.length_append, h blk (by simp), length_flatten_width fun x hx => h x (by simp [hx]), List.length_cons, Nat.add_mul]
    omega

/-- the sample stored in the WAV for a sample that was read -/
def restore (s x : F32) : ℤ := truncateSample (x * s)

theorem decompressLoop_ok {b : Build} {n : Nat} {s : F32} (hn : 0 < n) (hn' : n ≤ 1024) : ∀ (fuel : Nat) {c : AdhocCodec} {sig : List (List F32)}
    (_ : Plays b n s c sig) (_ : ∀ blk ∈ sig, blk.length = n) {w : WavCodec} {cells : List ℤ} (_ : IsReel w ⟨cells, cells.length⟩) (_ : w.info.channels = n)
    (buf : List F32) (_ : buf.length = 1024) (_ : sig.length < fuel),
    ∃ w', Cli.decompressLoop b fuel c w buf = .ok w' ∧ w'.info = w.info ∧
      IsReel w' ⟨cells ++ sig.flatten.map (restore s), (cells ++ sig.flatten.map (restore s)).length⟩
  | 0, _, _, _, _, _, _, _, _, _, _, hf => by omega
  | fuel + 1, c, sig, H, hw, w, cells, HR, hi, buf, hb, hf => by
    have hq : 0 < 1024 / n := Nat.div_pos hn' hn
    obtain ⟨c', e, H'⟩ := H.step buf
    rw [hb] at e H'
    obtain ⟨d, hd⟩ : ∃ d, d = min (1024 / n) sig.length := ⟨_, rfl⟩
    rw [← hd] at e H'
    unfold Cli.decompressLoop
    rw [e, bind_ok]
    by_cases h0 : d = 0
    · simp only [h0, if_true]
      have : sig = [] := by
        rw [← List.length_eq_zero_iff]; omega
      subst this
      refine ⟨w, rfl, rfl, ?_⟩
      simpa using HR
    · simp only [h0, if_false]
      have hfl : (sig.take d).flatten.length = d * n := by
        rw [length_flatten_width fun x hx => hw x (List.mem_of_mem_take hx), List.length_take]
        congr 1; omega
      have hle : d * n ≤ 1024 := by
        have h1 : d * n ≤ 1024 / n * n := Nat.mul_le_mul_right _ (by omega)
        have h2 := Nat.div_mul_le_self 1024 n
        omega
      have htake : (((sig.take d).flatten ++ buf.drop (d * n)).map (· * s)).take (d * n) = (sig.take d).flatten.map (· * s) := by
        rw [List.map_append, List.take_append_of_le_length (by rw [List.length_map]; omega), List.take_of_length_le (by rw [List.length_map]; omega)]
      rw [htake]
      obtain ⟨w', e', i', HR'⟩ := wavEncode_ok HR (by rw [hi]; exact hn) ((sig.take d).flatten.map (· * s))
      rw [e', bind_ok]
      have hwh : whole w.info.channels ((sig.take d).flatten.map (· * s)).length = d * n := by
        rw [hi, List.length_map, hfl, whole, Nat.mul_div_cancel _ hn]
      rw [hwh, List.take_of_length_le (by rw [List.length_map]; omega), List.map_map] at HR'
      change IsReel w' ((Reel.mk cells cells.length).put ((sig.take d).flatten.map (restore s))) at HR'
      have hput : (Reel.mk cells cells.length).put ((sig.take d).flatten.map (restore s)) =
          ⟨cells ++ (sig.take d).flatten.map (restore s), (cells ++ (sig.take d).flatten.map (restore s)).length⟩ := by
        unfold Reel.put
        dsimp only
        rw [List.take_of_length_le le_rfl, List.drop_eq_nil_of_le (by omega), List.append_nil, List.length_append]
      rw [hput] at HR'
      obtain ⟨w'', e'', i'', HR''⟩ := decompressLoop_ok hn hn' fuel H' (fun x hx => hw x (List.mem_of_mem_drop hx)) HR' (by rw [i', hi])
        (((sig.take d).flatten ++ buf.drop (d * n)).map (· * s)) (by rw [List.length_map, List.length_append, hfl, List.length_drop, hb]; omega)
        (by rw [List.length_drop]; omega)
      refine ⟨w'', e'', by rw [i'', i'], ?_⟩
      have : cells ++ sig.flatten.map (restore s) = cells ++ (sig.take d).flatten.map (restore s) ++ (sig.drop d).flatten.map (restore s) := by
        rw [List.append_assoc, ← List.map_append, ← List.flatten_append, List.take_append_drop]
      rw [this]
      exact HR''

end Adhoc

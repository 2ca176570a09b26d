import Verif.Props.Quiet
import Verif.Props.Sync

/-! # C04: the bound is sharp -/

namespace Adhoc
open Spec F32

/-- a constant signal whose fortieth sample meets a strong noise at a bad place -/
def sharp (L : Nat) : List (List F32) := [List.replicate 40 (ofRat (1099 / 100 * 2 ^ L / 32767 + 95965 / 100000000 * (1 - 1 / 2 ^ L)))]

/-- more than `e` apart -/
def isFar (e : ℚ) : F32 → F32 → Bool
  | .fin p _, .fin q _ => decide (e < |p - q|)
  | _, _ => false

theorem not_near {e : ℚ} {x y : F32} (h : isFar e x y = true) : ¬ Near e x y := by
  rintro ⟨p, q, ⟨hp, rfl⟩, ⟨hq, rfl⟩, hle⟩
  simp [isFar] at h
  exact absurd h (by simpa using hle)

theorem sharp_facts : ∀ L < 11, ((sharp L).all (·.all isUnit)) = true ∧
    ((stored (down L) 1 0 0 (sharp L)).all fun q => |q| ≤ 4095) = true ∧
    isFar (94 / 100 * (2 ^ L * 101 / 100 / 32767 + 101 / 100000 * (1 - 1 / 2 ^ L))) (((signal 1 (sharp L)).getD 39 []).getD 0 nan) (((rescaled L 1 (sharp L)).getD 39 []).getD 0 nan) = true := by
  decide +kernel

theorem sharp_proper (L : Nat) : Proper 1 (sharp L) := by
  refine ⟨by simp [sharp], by simp [sharp], ?_⟩
  intro j
  match j with
  | 0 => exact .inl ⟨0, by simp, by simp [sharp]⟩
  | j + 1 => exact .inr fun t => by simp [sharp, Nat.add_right_comm j 1 t]

/-- C04 is sharp at every level: with an error of 94 hundredths of the bound it is false, as a constant signal of forty samples shows. -/
theorem C04_sharp (b b' : Build) (info : StreamInfo) (h1 : info.channels = 1) (L : Nat) (hL : L ≤ 10) : ¬ ∀ calls : List (List F32),
    Proper info.channels calls → (∀ pcm ∈ calls, ∀ x ∈ pcm, Unit x) → (∀ ch < info.channels, InSync (stored (down L) info.channels ch 0 calls)) →
    ∃ c sig, encodeAll b (fresh info L) calls = .ok c ∧
      List.Forall₂ (List.Forall₂ (Near (0.94 * levelError L))) (signal info.channels calls) sig ∧
      ∀ bufs, ∃ c', decodeAll b' c.init bufs = .ok (c', readBlocks info.channels sig (bufs.map (·.map (· * up L)))) := by
  intro h
  obtain ⟨f1, f2, f3⟩ := sharp_facts L (by omega)
  have hs : ∀ ch < info.channels, InSync (stored (down L) info.channels ch 0 (sharp L)) := by
    intro ch hch
    obtain rfl : ch = 0 := by omega
    rw [h1]
    intro k h3 hk
    have := (residual_small (M := 4095) (by norm_num) (by norm_num) (fun q hq => by simpa using List.all_eq_true.1 f2 q hq) k hk).1
    rw [abs_le] at this
    omega
  have hp : Proper info.channels (sharp L) := by rw [h1]; exact sharp_proper L
  obtain ⟨c, sig, e, hn, hd⟩ := h (sharp L) hp (unit_all _ f1) hs
  obtain ⟨c2, e2, hd2⟩ := decode_inSync b b' info (by omega) hL (sharp L) hp hs
  rw [e] at e2
  obtain rfl := Except.ok.inj e2
  have hl1 : (rescaled L info.channels (sharp L)).length = (signal info.channels (sharp L)).length := by simp [rescaled]
  have hl2 : sig.length = (signal info.channels (sharp L)).length := hn.length_eq.symm
  have hw : ∀ blk ∈ sig, blk.length = info.channels := by
    intro blk hb
    obtain ⟨x, hx, hxy⟩ := forall₂_mem_right hn blk hb
    rw [← hxy.length_eq, signal_width x hx]
  have h0 : 0 < info.channels := by omega
  obtain ⟨c3, e3⟩ := hd [List.replicate ((signal info.channels (sharp L)).length * info.channels) (F32.ofInt 0)]
  obtain ⟨c4, e4⟩ := hd2 [List.replicate ((signal info.channels (sharp L)).length * info.channels) (F32.ofInt 0)]
  rw [e3] at e4
  have e5 := congrArg Prod.snd (Except.ok.inj e4)
  dsimp only at e5
  simp only [List.map_cons, List.map_nil, readBlocks_cons, List.length_map, List.length_replicate, Nat.mul_div_cancel _ h0, hl1, hl2, Nat.min_self] at e5
  have e6 := congrArg Prod.fst (List.cons.inj e5).1
  dsimp only at e6
  rw [List.take_of_length_le (by omega), List.take_of_length_le (by omega)] at e6
  rw [List.drop_eq_nil_of_le (by simp), List.append_nil, List.append_nil] at e6
  have e7 := flatten_same (n := info.channels) hw (by simp [rescaled]) (by omega) e6
  rw [e7, h1, List.forall₂_iff_get] at hn
  have hlen : (signal 1 (sharp L)).length = 40 := by simp [sharp, signal, blocksOf]
  rw [h1] at hl1
  have hn2 := hn.2 39 (by omega) (by omega)
  rw [List.forall₂_iff_get] at hn2
  have hw1 := signal_width _ (List.getElem_mem (show 39 < (signal 1 (sharp L)).length by omega))
  have hw2 : ((rescaled L 1 (sharp L))[39]'(by omega)).length = 1 := by simp [rescaled]
  have hn3 := hn2.2 0 (by simp only [List.get_eq_getElem]; omega) (by simp only [List.get_eq_getElem]; omega)
  simp only [List.get_eq_getElem] at hn3
  have he : (94 / 100 * (2 ^ L * 101 / 100 / 32767 + 101 / 100000 * (1 - 1 / 2 ^ L)) : ℚ) = 0.94 * levelError L := by
    unfold levelError
    norm_num
    ring
  rw [he, List.getD_eq_getElem?_getD, List.getD_eq_getElem?_getD, List.getD_eq_getElem?_getD, List.getD_eq_getElem?_getD,
    List.getElem?_eq_getElem (show 39 < (signal 1 (sharp L)).length by omega), List.getElem?_eq_getElem (show 39 < (rescaled L 1 (sharp L)).length by omega),
    Option.getD_some, Option.getD_some, List.getElem?_eq_getElem (by omega), List.getElem?_eq_getElem (by omega), Option.getD_some, Option.getD_some] at f3
  exact not_near f3 hn3

end Adhoc

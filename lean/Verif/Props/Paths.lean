import Verif.Model.Paths
import Verif.Spec.Paths
import Verif.Props.Cli

/-! # C148, C149: where the tool writes -/

namespace Adhoc
open Spec

namespace Path

theorem splitOn_eq (p : List Char) : p.splitOn '/' = (split p).1 :: (split p).2 := by
  induction p with
  | nil => simp [split]
  | cons c cs ih =>
    unfold split
    by_cases h : c = '/'
    · subst h
      unfold List.splitOn at ih ⊢
      rw [List.splitOnP_cons_eq_if_modifyHead, ih]; simp
    · unfold List.splitOn at ih ⊢
      rw [List.splitOnP_cons_eq_if_modifyHead, ih]; simp [h]

/-- the components of pieces -/
def comps (h : List Char) (t : List (List Char)) : List Comp :=
  (if h = [] ∧ t ≠ [] then [.root] else []) ++ (if h = ['.'] then [.cur] else []) ++ (h :: t).filterMap compOf

theorem filterMap_pieces (h : List Char) (t : List (List Char)) : (h :: t).filterMap compOf = [h].filterMap compOf ++ t.filterMap compOf := by
  rw [← List.filterMap_append]; rfl

theorem components_eq (p : List Char) : components p = comps (split p).1 (split p).2 := by
  unfold components comps
  rw [splitOn_eq]
  congr 2
  · congr 1
    cases p with
    | nil => simp [split]
    | cons c cs =>
      by_cases h : c = '/' <;> simp [split, h]
  · simp

theorem split_snoc {f : List Char} (hf : '/' ∉ f) : ∀ q : List Char, split (q ++ '/' :: f) = ((split q).1, (split q).2 ++ [f])
  | [] => by
    have : ∀ f : List Char, '/' ∉ f → split f = (f, []) := by
      intro f hf
      induction f with
      | nil => rfl
      | cons c cs ih =>
        rw [List.mem_cons, not_or] at hf
        unfold split
        rw [if_neg (fun h => hf.1 h.symm), ih hf.2]
    simp [split, this f hf]
  | c :: q => by
    rw [List.cons_append]
    unfold split
    rw [split_snoc hf q]
    by_cases h : c = '/' <;> simp [h]

theorem split_free {f : List Char} (hf : '/' ∉ f) : split f = (f, []) := by
  have := split_snoc hf []
  simp [split] at this
  exact Prod.ext this.1 this.2

theorem free_split : ∀ p : List Char, '/' ∉ (split p).1 ∧ ∀ s ∈ (split p).2, '/' ∉ s
  | [] => by simp [split]
  | c :: cs => by
    obtain ⟨h1, h2⟩ := free_split cs
    unfold split
    by_cases h : c = '/'
    · simp only [h, if_true]
      exact ⟨by simp, by simpa using ⟨h1, h2⟩⟩
    · simp only [h, if_false]
      exact ⟨by rw [List.mem_cons, not_or]; exact ⟨fun g => h g.symm, h1⟩, h2⟩

theorem split_join {h : List Char} (hh : '/' ∉ h) (t : List (List Char)) (ht : ∀ s ∈ t, '/' ∉ s) : split (join h t) = (h, t) := by
  induction t using List.reverseRecOn with
  | nil => simp [join, split_free hh]
  | append_singleton t s ih =>
    have : join h (t ++ [s]) = join h t ++ '/' :: s := by simp [join]
    rw [this, split_snoc (ht s (by simp)), ih fun s hs => ht s (by simp [hs])]

theorem trim_spec (t : List (List Char)) : t.filterMap compOf = (trim t).filterMap compOf ∧ (∀ s ∈ trim t, s ∈ t) ∧
    ∀ l, (trim t).getLast? = some l → l ≠ [] ∧ l ≠ ['.'] := by
  unfold trim
  induction t using List.reverseRecOn with
  | nil => simp
  | append_singleton t s ih =>
    rw [List.reverse_append, List.reverse_singleton, List.singleton_append, List.dropWhile_cons]
    by_cases h : s = [] ∨ s = ['.']
    · rw [if_pos (by simpa using h)]
      refine ⟨?_, fun x hx => by simp [ih.2.1 x hx], ih.2.2⟩
      rw [List.filterMap_append, ih.1]
      simp [compOf, h]
    · rw [if_neg (by simpa using h)]
      refine ⟨by simp, by simp, ?_⟩
      intro l hl
      simp at hl
      subst hl
      exact not_or.1 h

/-- `file_name` is the last component -/
theorem fileName_eq (p f : List Char) : fileName p = some f ↔ (components p).getLast? = some (.normal f) := by
  rw [components_eq]
  rcases hp : split p with ⟨h, t⟩
  unfold fileName comps
  rw [hp]
  dsimp only
  obtain ⟨h1, h2, h3⟩ := trim_spec t
  rw [filterMap_pieces, h1]
  rcases ht : (trim t).getLast? with _ | l
  · rw [List.getLast?_eq_none_iff] at ht
    rw [ht]
    dsimp only
    by_cases e1 : h = []
    · subst e1
      simp [compOf]
      split <;> simp
    by_cases e2 : h = ['.']
    · subst e2; simp [compOf]
    by_cases e3 : h = ['.', '.']
    · subst e3; simp [compOf]
    · simp [compOf, e1, e2, e3]
  · obtain ⟨g1, g2⟩ := h3 l ht
    obtain ⟨t0, ht0⟩ := List.getLast?_eq_some_iff.1 ht
    rw [ht0, List.filterMap_append]
    dsimp only
    have : List.filterMap compOf [l] = [if l = ['.', '.'] then .parent else .normal l] := by
      by_cases e3 : l = ['.', '.'] <;> simp [compOf, g1, g2, e3]
    rw [this]
    rw [← List.append_assoc, ← List.append_assoc, List.getLast?_concat]
    by_cases e3 : l = ['.', '.'] <;> simp [e3]

/-- pushing a piece adds its component -/
theorem components_push {p f : List Char} (hp : p ≠ []) (hf : '/' ∉ f) : components (push p f) = components p ++ (compOf f).toList := by
  have h0 : f.head? ≠ some '/' := by
    intro h
    exact hf (List.mem_of_head? h)
  have key : ∀ (q f : List Char), '/' ∉ f → components (q ++ '/' :: f) = (if (split q).1 = [] then [.root] else []) ++ (if (split q).1 = ['.'] then [.cur] else []) ++
      ((split q).1 :: (split q).2).filterMap compOf ++ (compOf f).toList := by
    intro q f hf
    rw [components_eq, split_snoc hf]
    unfold comps
    dsimp only
    rw [← List.cons_append, List.filterMap_append]
    have : List.filterMap compOf [f] = (compOf f).toList := by
      rcases h : compOf f with _ | x <;> simp [h]
    rw [this, List.append_assoc, List.append_assoc, List.append_assoc]
    simp
  unfold push
  rw [if_neg h0]
  by_cases hl : p.getLast? = some '/'
  · rw [if_pos (.inr hl)]
    obtain ⟨q, rfl⟩ := List.getLast?_eq_some_iff.1 hl
    rw [List.append_assoc, List.singleton_append, key q f hf, key q [] (by simp)]
    simp [compOf]
  · rw [if_neg (by rintro (h | h); exacts [hp h, hl h]), key p f hf, components_eq]
    unfold comps
    congr 3
    by_cases hs : (split p).1 = []
    · have : (split p).2 ≠ [] := by
        intro h2
        cases p with
        | nil => exact hp rfl
        | cons c cs =>
          by_cases hc : c = '/'
          · simp [split, hc] at h2
          · simp [split, hc] at hs
      simp [hs, this]
    · simp [hs]

theorem stem_ne {n : List Char} (h : n ≠ []) : (Cli.splitExt n).1 ≠ [] := by
  unfold Cli.splitExt
  split
  · exact h
  · dsimp only
    split
    · exact h
    · rename_i h2
      exact fun h => h2 (.inr h)

theorem stem_prefix (n : List Char) : (Cli.splitExt n).1 <+: n := by
  unfold Cli.splitExt
  split
  · exact List.prefix_rfl
  · dsimp only
    split
    · exact List.prefix_rfl
    · exact List.take_prefix _ _

theorem compOf_ext {s ext : List Char} (hs : s ≠ []) (he : ext ≠ []) : compOf (s ++ '.' :: ext) = some (.normal (s ++ '.' :: ext)) := by
  have h1 := List.length_pos_iff.2 hs
  have h2 := List.length_pos_iff.2 he
  have hl : (s ++ '.' :: ext).length = s.length + ext.length + 1 := by simp; omega
  unfold compOf
  rw [if_neg, if_neg]
  · intro h; have := congrArg List.length h; rw [hl] at this; simp at this; omega
  · rintro (h | h) <;> (have := congrArg List.length h; rw [hl] at this; simp at this; try exact absurd this.1 hs)

/-- `set_extension` changes the last component -/
theorem components_setExtension {p f : List Char} {cs : List Comp} {ext : List Char} (h : components p = cs ++ [.normal f]) (he : ext ≠ []) (hs : '/' ∉ ext) :
    components (setExtension p ext) = cs ++ [.normal ((Cli.splitExt f).1 ++ '.' :: ext)] := by
  have hf : fileName p = some f := (fileName_eq p f).2 (by rw [h]; simp)
  obtain ⟨g1, g2⟩ := free_split p
  have hf' := hf
  rw [components_eq] at h
  unfold fileName at hf'
  unfold setExtension
  rw [hf]
  rcases hp : split p with ⟨a, t⟩
  rw [hp] at h g1 g2 hf'
  dsimp only at h g1 g2 hf' ⊢
  obtain ⟨h1, h2, h3⟩ := trim_spec t
  have hfree : ∀ n : List Char, '/' ∉ n → '/' ∉ (Cli.splitExt n).1 ++ '.' :: ext := by
    intro n hn hm
    rw [List.mem_append, List.mem_cons] at hm
    rcases hm with hm | hm | hm
    · exact hn ((stem_prefix n).subset hm)
    · cases hm
    · exact hs hm
  rcases ht : (trim t).getLast? with _ | l
  · rw [ht] at hf'
    dsimp only at hf'
    split at hf'
    · cases hf'
    rename_i hne
    obtain rfl := Option.some.inj hf'
    rw [List.getLast?_eq_none_iff] at ht
    rw [if_pos ht, components_eq, split_free (hfree a g1)]
    unfold comps at h ⊢
    rw [List.filterMap_cons, h1, ht] at h
    simp only [not_or] at hne
    have e1 : compOf a = some (.normal a) := by simp [compOf, hne]
    simp only [e1, hne.1, hne.2.1, false_and, if_false, List.nil_append, List.filterMap_nil] at h
    have hcs : cs = [] := by
      cases cs with
      | nil => rfl
      | cons x cs => simp at h
    have hk := compOf_ext (stem_ne hne.1) he
    rw [hcs, List.filterMap_cons, hk]
    have n1 : (Cli.splitExt a).1 ++ '.' :: ext ≠ ['.'] := by
      intro hh; rw [hh] at hk; simp [compOf] at hk
    simp [n1]
  · rw [ht] at hf'
    dsimp only at hf'
    split at hf'
    · cases hf'
    rename_i hne
    obtain rfl := Option.some.inj hf'
    obtain ⟨l1, l2⟩ := h3 l ht
    obtain ⟨t0, ht0⟩ := List.getLast?_eq_some_iff.1 ht
    rw [if_neg (by rw [ht0]; simp), ht0, List.dropLast_concat, components_eq, split_snoc (hfree l (g2 l (h2 l (by rw [ht0]; simp)))),
      split_join g1 t0 fun s hs => g2 s (h2 s (by rw [ht0]; simp [hs]))]
    unfold comps at h ⊢
    dsimp only
    have tne : t ≠ [] := by
      rintro rfl
      simp [trim] at ht
    rw [filterMap_pieces, h1, ht0, List.filterMap_append] at h
    rw [filterMap_pieces, List.filterMap_append]
    have e1 : List.filterMap compOf [l] = [.normal l] := by simp [compOf, l1, l2, hne]
    have e2 : List.filterMap compOf [(Cli.splitExt l).1 ++ '.' :: ext] = [.normal ((Cli.splitExt l).1 ++ '.' :: ext)] := by
      rw [List.filterMap_cons, compOf_ext (stem_ne l1) he]; rfl
    rw [e1, ← List.append_assoc, ← List.append_assoc] at h
    rw [e2, ← List.append_assoc, ← List.append_assoc, ← (List.append_inj' h rfl).1]
    simp [tne]

theorem fileName_free {p f : List Char} (h : fileName p = some f) : '/' ∉ f ∧ f ≠ [] := by
  obtain ⟨g1, g2⟩ := free_split p
  obtain ⟨-, h2, h3⟩ := trim_spec (split p).2
  unfold fileName at h
  split at h
  · split at h
    · cases h
    · rename_i hne
      obtain rfl := Option.some.inj h
      exact ⟨g1, fun e => hne (.inl e)⟩
  · rename_i l hl
    split at h
    · cases h
    · obtain rfl := Option.some.inj h
      exact ⟨g2 _ (h2 _ (List.mem_of_getLast? hl)), (h3 _ hl).1⟩

theorem setExtension_none {p ext : List Char} (h : ∀ f, (components p).getLast? ≠ some (.normal f)) : setExtension p ext = p := by
  unfold setExtension
  rcases hf : fileName p with _ | f
  · rfl
  · exact absurd ((fileName_eq p f).1 hf) (h f)

end Path

/-! ## C148 -/

/-- C148 is false: a file called `..wav`, converted into the directory `out`, is written to `out.adhoc` beside it. -/
theorem C148_false : ¬ ∀ dir input out : List Char, dir ≠ [] → Path.output dir input "adhoc".toList = some out →
    ∃ name, components out = components dir ++ [.normal name] := by
  intro h
  obtain ⟨name, hn⟩ := h "out".toList "music/..wav".toList "out.adhoc".toList (by decide) (by decide)
  have e1 : components "out.adhoc".toList = [.normal "out.adhoc".toList] := by decide
  have e2 : components "out".toList = [.normal "out".toList] := by decide
  rw [e1, e2] at hn
  simp at hn

/-- C148, exactly, for every directory and input that are not empty. The output is in the output directory, under the name that C61 speaks of, unless the stem of the input
is `.` or `..`. With `..` the path leads to the directory above, which `File::create` cannot open. With `.` the extension is put on the output directory itself: the file is beside
it, or if the path of the directory does not end in a name, the path is that of the directory. -/
theorem C148_exact_partial (dir input ext name stem : List Char) (hd : dir ≠ []) (hi : (components input).getLast? = some (.normal name))
    (hs : (Cli.splitExt name).1 = stem) (he : ext ≠ []) (hse : '/' ∉ ext) :
    ∃ out, Path.output dir input ext = some out ∧
    (stem ≠ ['.'] → stem ≠ ['.', '.'] → ∃ o, Cli.outputName name ext = some o ∧ components out = components dir ++ [.normal o]) ∧
    (stem = ['.', '.'] → components out = components dir ++ [.parent]) ∧
    (stem = ['.'] → (∀ cs d, components dir = cs ++ [.normal d] → components out = cs ++ [.normal ((Cli.splitExt d).1 ++ '.' :: ext)]) ∧
      ((∀ d, (components dir).getLast? ≠ some (.normal d)) → components out = components dir)) := by
  have hf := (Path.fileName_eq input name).2 hi
  obtain ⟨hfree, hne⟩ := Path.fileName_free hf
  have hfs : '/' ∉ stem := fun h => hfree ((Path.stem_prefix name).subset (by rw [hs]; exact h))
  have hsne : stem ≠ [] := by rw [← hs]; exact Path.stem_ne hne
  have hp := Path.components_push hd hfs
  refine ⟨Path.setExtension (Path.push dir stem) ext, by unfold Path.output Path.fileStem; rw [hf]; simp [hs], ?_, ?_, ?_⟩
  · intro h1 h2
    have hc : compOf stem = some (.normal stem) := by simp [compOf, hsne, h1, h2]
    rw [hc] at hp
    refine ⟨(Cli.splitExt stem).1 ++ '.' :: ext, ?_, Path.components_setExtension hp he hse⟩
    unfold Cli.outputName Cli.setExtension
    rw [hs, if_neg (by rintro (h | h); exacts [h1 h, h2 h])]
  · rintro rfl
    rw [show compOf ['.', '.'] = some .parent from by decide] at hp
    rw [Path.setExtension_none, hp]
    · rfl
    · intro f hl
      rw [hp] at hl
      simp at hl
  · rintro rfl
    rw [show compOf ['.'] = none from by decide] at hp
    simp only [Option.toList_none, List.append_nil] at hp
    refine ⟨fun cs d h => Path.components_setExtension (hp.trans h) he hse, fun h => ?_⟩
    rw [Path.setExtension_none (by rw [hp]; exact h), hp]

/-- files in the current directory and elsewhere; `..wav` and `...wav` -/
example : Path.output "./".toList "a/b.wav".toList "adhoc".toList = some "./b.adhoc".toList ∧
    components "./b.adhoc".toList = [.cur, .normal "b.adhoc".toList] ∧
    Path.output "/out//x/.".toList "b.adhoc".toList "wav".toList = some "/out//x/./b.wav".toList ∧
    components "/out//x/./b.wav".toList = [.root, .normal "out".toList, .normal "x".toList, .normal "b.wav".toList] ∧
    Path.output "out.d/.".toList "..wav".toList "adhoc".toList = some "out.adhoc".toList ∧
    Path.output "./".toList "..wav".toList "adhoc".toList = some "./.".toList ∧
    Path.output "out".toList "...wav".toList "adhoc".toList = some "out/..".toList := by
  decide

/-! ## C149 -/

/-- the last component of what is written -/
theorem output_last {dir input ext name out : List Char} (hd : dir ≠ []) (hi : (components input).getLast? = some (.normal name)) (he : ext ≠ []) (hse : '/' ∉ ext)
    (h : Path.output dir input ext = some out) :
    (∃ s, s ≠ [] ∧ (components out).getLast? = some (.normal (s ++ '.' :: ext))) ∨ ∀ n, (components out).getLast? ≠ some (.normal n) := by
  obtain ⟨out', e, h1, h2, h3⟩ := C148_exact_partial dir input ext name _ hd hi rfl he hse
  rw [h] at e
  obtain rfl := Option.some.inj e
  obtain ⟨-, hne⟩ := Path.fileName_free ((Path.fileName_eq input name).2 hi)
  by_cases c1 : (Cli.splitExt name).1 = ['.']
  · by_cases c2 : ∃ d, (components dir).getLast? = some (.normal d)
    · obtain ⟨d, hdl⟩ := c2
      obtain ⟨cs, hcs⟩ := List.getLast?_eq_some_iff.1 hdl
      obtain ⟨-, hdne⟩ := Path.fileName_free ((Path.fileName_eq dir d).2 hdl)
      left
      exact ⟨(Cli.splitExt d).1, Path.stem_ne hdne, by rw [(h3 c1).1 cs d hcs]; simp⟩
    · right
      rw [(h3 c1).2 fun d hd => c2 ⟨d, hd⟩]
      exact fun n hn => c2 ⟨n, hn⟩
  · by_cases c2 : (Cli.splitExt name).1 = ['.', '.']
    · right
      rw [h2 c2]
      simp
    · left
      obtain ⟨o, ho, hc⟩ := h1 c1 c2
      unfold Cli.outputName Cli.setExtension at ho
      rw [if_neg (by rintro (h | h); exacts [c1 h, c2 h])] at ho
      obtain rfl := Option.some.inj ho
      exact ⟨_, Path.stem_ne (Path.stem_ne hne), by rw [hc]; simp⟩

/-- C149. The path a conversion writes to never ends in the name of its input, whatever the names and the output directory are, so that (without links) it does not
overwrite what it reads, nor what the second conversion of the same input reads. -/
theorem C149_own_input (dir input name out : List Char) (hd : dir ≠ []) (hi : (components input).getLast? = some (.normal name)) :
    ("wav2adhoc" ∈ Cli.conversions name → Path.output dir input "adhoc".toList = some out → (components out).getLast? ≠ (components input).getLast?) ∧
    ("adhoc2wav" ∈ Cli.conversions name → Path.output dir input "wav".toList = some out → (components out).getLast? ≠ (components input).getLast?) := by
  have key : ∀ ext needle : List Char, ext ≠ [] → '/' ∉ ext → '.' ∉ ext → Cli.containsStr needle ext = false →
      (∃ e, (Cli.splitExt name).2 = some e ∧ Cli.containsStr needle e = true) → Path.output dir input ext = some out →
      (components out).getLast? ≠ (components input).getLast? := by
    intro ext needle h1 h2 h3 h4 ⟨e, he, hc⟩ ho heq
    rw [hi] at heq
    rcases output_last hd hi h1 h2 ho with ⟨s, hs, hl⟩ | hl
    · rw [hl] at heq
      simp at heq
      rw [← heq, splitExt_dot hs h3] at he
      · obtain rfl := Option.some.inj he
        rw [h4] at hc
        cases hc
      · intro hdd
        have l1 := List.length_pos_iff.2 hs
        have l2 := List.length_pos_iff.2 h1
        have := congrArg List.length hdd
        simp only [List.length_append, List.length_cons, List.length_nil] at this
        omega
    · exact hl _ heq
  have hmem : ∀ s, s ∈ Cli.conversions name → (s = "wav2adhoc" ∧ ∃ e, (Cli.splitExt name).2 = some e ∧ Cli.containsStr ['w', 'a', 'v'] e = true) ∨
      (s = "adhoc2wav" ∧ ∃ e, (Cli.splitExt name).2 = some e ∧ Cli.containsStr ['a', 'd', 'h', 'o', 'c'] e = true) := by
    intro s hs
    unfold Cli.conversions at hs
    rcases he : (Cli.splitExt name).2 with _ | e
    · rw [he] at hs; simp at hs
    · rw [he] at hs
      simp only [List.mem_append] at hs
      rcases hs with hs | hs
      · split at hs
        · exact .inl ⟨by simpa using hs, e, rfl, by assumption⟩
        · simp at hs
      · split at hs
        · exact .inr ⟨by simpa using hs, e, rfl, by assumption⟩
        · simp at hs
  refine ⟨fun hc ho => ?_, fun hc ho => ?_⟩
  · rcases hmem _ hc with ⟨-, h⟩ | ⟨h, -⟩
    · exact key _ _ (by decide) (by decide) (by decide) (by decide) h ho
    · exact absurd h (by decide)
  · rcases hmem _ hc with ⟨h, -⟩ | ⟨-, h⟩
    · exact absurd h (by decide)
    · exact key _ _ (by decide) (by decide) (by decide) (by decide) h ho

/-- a file that both conversions take, in the output directory itself -/
example : (components "out/x.wavadhoc".toList).getLast? = some (.normal "x.wavadhoc".toList) ∧ Cli.conversions "x.wavadhoc".toList = ["wav2adhoc", "adhoc2wav"] ∧
    Path.output "out".toList "out/x.wavadhoc".toList "adhoc".toList = some "out/x.adhoc".toList ∧
    Path.output "out".toList "out/x.wavadhoc".toList "wav".toList = some "out/x.wav".toList := by
  decide

end Adhoc

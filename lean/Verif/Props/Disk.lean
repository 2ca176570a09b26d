import Verif.Model.Disk
import Verif.Props.Cli

/-! # C69 (conversions at the same time) and C70 (interrupted conversions) -/

namespace Adhoc
open Disk

namespace Spec

/-- The files that the conversions `ts` of one input write, one after the other, reading from the files `fs`. -/
def written (fs : Files) : List Task → List (Path × List Byte)
  | [] => []
  | t :: ts =>
    match fs t.input with
    | none => []
    | some c =>
      match t.run c with
      | .ok (some out) => (t.output, out) :: written fs ts
      | _ => []

end Spec
open Spec

/-- no two conversions write the same file, and none writes a file that one reads -/
def Apart (ts : List Task) : Prop := (ts.map (·.output)).Nodup ∧ ∀ t ∈ ts, ∀ u ∈ ts, t.output ≠ u.input

/-- what has become of a conversion that is over: its output is a part of the result -/
def Over (faulty : Prop) (fs₀ fs : Files) (d : Task) : Prop :=
  ∃ c out k, fs₀ d.input = some c ∧ d.run c = .ok (some out) ∧ fs d.output = some (out.take k) ∧ (¬ faulty → out.length ≤ k)

/-- the conversion under way (the first of `rest`), and those that follow -/
def Under (faulty : Prop) (fs₀ fs : Files) (rest : List Task) (th : Thread) : Prop :=
  match th.phase with
  | .start => (th.todo = rest ∨ th.todo = [] ∧ (¬ faulty → written fs₀ rest = [])) ∧ ∀ t ∈ rest, fs t.output = fs₀ t.output
  | .reading acc => th.todo = rest ∧ (∀ t ∈ rest, fs t.output = fs₀ t.output) ∧
      ∃ t ts c, rest = t :: ts ∧ fs₀ t.input = some c ∧ acc = c.take acc.length
  | .writing pos r => th.todo = rest ∧ ∃ t ts c out, rest = t :: ts ∧ fs₀ t.input = some c ∧ t.run c = .ok (some out) ∧
      pos ≤ out.length ∧ r = out.drop pos ∧ fs t.output = some (out.take pos) ∧ ∀ t ∈ ts, fs t.output = fs₀ t.output

/-- what holds of a thread at any time -/
def Good (faulty : Prop) (fs₀ fs : Files) (ts : List Task) (th : Thread) : Prop :=
  ∃ dn rest, ts = dn ++ rest ∧ (∀ d ∈ dn, Over faulty fs₀ fs d) ∧ Under faulty fs₀ fs rest th

theorem Under.frame {faulty : Prop} {fs₀ fs fs' : Files} {rest : List Task} {th : Thread} (h : Under faulty fs₀ fs rest th)
    (hf : ∀ t ∈ rest, fs' t.output = fs t.output) : Under faulty fs₀ fs' rest th := by
  unfold Under at h ⊢
  split at h
  · exact ⟨h.1, fun t ht => (hf t ht).trans (h.2 t ht)⟩
  · exact ⟨h.1, fun t ht => (hf t ht).trans (h.2.1 t ht), h.2.2⟩
  · obtain ⟨h1, t, ts, c, out, rfl, h2, h3, h4, h5, h6, h7⟩ := h
    exact ⟨h1, t, ts, c, out, rfl, h2, h3, h4, h5, (hf t (by simp)).trans h6, fun u hu => (hf u (by simp [hu])).trans (h7 u hu)⟩

theorem Good.frame {faulty : Prop} {fs₀ fs fs' : Files} {ts : List Task} {th : Thread} (h : Good faulty fs₀ fs ts th)
    (hf : ∀ t ∈ ts, fs' t.output = fs t.output) : Good faulty fs₀ fs' ts th := by
  obtain ⟨dn, rest, rfl, h1, h2⟩ := h
  refine ⟨dn, rest, rfl, fun d hd => ?_, h2.frame fun t ht => hf t (by simp [ht])⟩
  obtain ⟨c, out, k, a, b, e, f⟩ := h1 d hd
  exact ⟨c, out, k, a, b, (hf d (by simp [hd])).trans e, f⟩

theorem put_same (fs : Files) (p : Path) (c : List Byte) : fs.put p c p = some c := if_pos rfl

theorem put_other {fs : Files} {p q : Path} {c : List Byte} (h : q ≠ p) : fs.put p c q = fs q := if_neg h

theorem writeAt_end {out : List Byte} {pos n : Nat} (hp : pos ≤ out.length) :
    writeAt (out.take pos) pos ((out.drop pos).take n) = out.take (pos + n) := by
  unfold writeAt
  rw [List.take_take, Nat.min_self, List.length_take, Nat.min_eq_left hp, Nat.sub_self, List.replicate_zero, List.append_nil,
    List.drop_of_length_le (l := out.take pos) (by rw [List.length_take]; omega), List.append_nil, List.take_add]

/-- a step changes no file but the output of a conversion of its own -/
theorem step_only {faulty : Prop} {fs fs' : Files} {th th' : Thread} (h : Step faulty fs th fs' th') :
    fs' = fs ∨ ∃ t ts, th.todo = t :: ts ∧ ∀ q, q ≠ t.output → fs' q = fs q := by
  cases h <;> first
    | exact Or.inl rfl
    | exact Or.inr ⟨_, _, rfl, fun q hq => put_other hq⟩

theorem todo_mem {faulty : Prop} {fs₀ fs : Files} {ts : List Task} {th : Thread} (h : Good faulty fs₀ fs ts th) : ∀ t ∈ th.todo, t ∈ ts := by
  obtain ⟨dn, rest, rfl, -, h2⟩ := h
  unfold Under at h2
  intro t ht
  split at h2
  · rcases h2.1 with e | e
    · rw [e] at ht; simp [ht]
    · rw [e.1] at ht; simp at ht
  · rw [h2.1] at ht; simp [ht]
  · rw [h2.1] at ht; simp [ht]

theorem written_cons {fs : Files} {t : Task} {ts : List Task} {c out : List Byte} (h1 : fs t.input = some c) (h2 : t.run c = .ok (some out)) :
    written fs (t :: ts) = (t.output, out) :: written fs ts := by
  rw [written, h1]
  dsimp only
  rw [h2]

/-- one step of a thread whose inputs are as at the beginning -/
theorem Good.step {faulty : Prop} {fs₀ fs fs' : Files} {ts : List Task} {th th' : Thread} (hn : (ts.map (·.output)).Nodup)
    (hin : ∀ t ∈ ts, fs t.input = fs₀ t.input) (h : Good faulty fs₀ fs ts th) (hs : Step faulty fs th fs' th') : Good faulty fs₀ fs' ts th' := by
  obtain ⟨dn, rest, rfl, h1, h2⟩ := h
  have hn2 : ∀ t us, rest = t :: us → (∀ d ∈ dn, d.output ≠ t.output) ∧ ∀ u ∈ us, u.output ≠ t.output := by
    rintro t us rfl
    rw [List.map_append, List.map_cons, List.nodup_append] at hn
    refine ⟨fun d hd => hn.2.2 _ (List.mem_map_of_mem hd) _ (by simp), fun u hu e => ?_⟩
    exact (List.nodup_cons.1 hn.2.1).1 (e ▸ List.mem_map_of_mem hu)
  have over_put : ∀ t us c, rest = t :: us → ∀ d ∈ dn, Over faulty fs₀ (fs.put t.output c) d := by
    intro t us c e d hd
    obtain ⟨c', out, k, a, b, f, g⟩ := h1 d hd
    exact ⟨c', out, k, a, b, (put_other ((hn2 t us e).1 d hd)).trans f, g⟩
  cases hs with
  | @missing t us hm =>
    obtain ⟨hr, ho⟩ := h2
    have hr : t :: us = rest := by
      rcases hr with h | h
      · exact h
      · cases h.1
    subst hr
    refine ⟨dn, t :: us, rfl, h1, Or.inr ⟨rfl, fun _ => ?_⟩, ho⟩
    rw [written, ← hin t (by simp), hm]
  | @opened t us c hc =>
    obtain ⟨hr, ho⟩ := h2
    have hr : t :: us = rest := by
      rcases hr with h | h
      · exact h
      · cases h.1
    subst hr
    exact ⟨dn, t :: us, rfl, h1, rfl, ho, t, us, c, rfl, by rw [← hin t (by simp), hc], rfl⟩
  | @read t us acc c n hc n0 hl =>
    obtain ⟨hr, ho, t', us', c', e, hc', ha⟩ := h2
    obtain rfl : t :: us = rest := hr
    obtain ⟨rfl, rfl⟩ := List.cons.inj e
    rw [hin t (by simp), hc'] at hc
    obtain rfl : c' = c := by injection hc
    refine ⟨dn, t :: us, rfl, h1, rfl, ho, t, us, c', rfl, hc', ?_⟩
    rw [List.length_append, List.length_take, List.length_drop]
    conv_lhs => rw [ha]
    rw [List.length_take, Nat.min_eq_left hl.le, ← List.take_add]
    by_cases h : n ≤ c'.length - acc.length
    · rw [Nat.min_eq_left h]
    · rw [Nat.min_eq_right (by omega), List.take_of_length_le (by omega), List.take_of_length_le (by omega)]
  | @rejected t us acc c hc hl hrun =>
    obtain ⟨hr, ho, t', us', c', e, hc', ha⟩ := h2
    obtain rfl : t :: us = rest := hr
    obtain ⟨rfl, rfl⟩ := List.cons.inj e
    rw [hin t (by simp), hc'] at hc
    obtain rfl : c' = c := by injection hc
    rw [List.take_of_length_le hl] at ha
    refine ⟨dn, t :: us, rfl, h1, Or.inr ⟨rfl, fun _ => ?_⟩, ho⟩
    rw [written, hc']
    dsimp only
    rw [← ha, hrun]
  | @created t us acc c out hc hl hrun =>
    obtain ⟨hr, ho, t', us', c', e, hc', ha⟩ := h2
    obtain rfl : t :: us = rest := hr
    obtain ⟨rfl, rfl⟩ := List.cons.inj e
    rw [hin t (by simp), hc'] at hc
    obtain rfl : c' = c := by injection hc
    rw [List.take_of_length_le hl] at ha
    subst ha
    exact ⟨dn, t :: us, rfl, over_put t us _ rfl, rfl, t, us, acc, out, rfl, hc', hrun, by omega, rfl, put_same _ _ _,
      fun u hu => (put_other ((hn2 t us rfl).2 u hu)).trans (ho u (by simp [hu]))⟩
  | @wrote t us pos r c n n0 hl hc =>
    obtain ⟨hr, t', us', c', out, e, hc', hrun, hp, er, ho, hu⟩ := h2
    obtain rfl : t :: us = rest := hr
    obtain ⟨rfl, rfl⟩ := List.cons.inj e
    rw [ho] at hc
    obtain rfl : out.take pos = c := by injection hc
    subst er
    rw [List.length_drop] at hl
    refine ⟨dn, t :: us, rfl, over_put t us _ rfl, rfl, t, us, c', out, rfl, hc', hrun, by omega, by rw [List.drop_drop], ?_,
      fun u hu' => (put_other ((hn2 t us rfl).2 u hu')).trans (hu u hu')⟩
    rw [put_same, writeAt_end hp]
  | @saved t us pos =>
    obtain ⟨hr, t', us', c', out, e, hc', hrun, hp, er, ho, hu⟩ := h2
    obtain rfl : t :: us = rest := hr
    obtain ⟨rfl, rfl⟩ := List.cons.inj e
    refine ⟨dn ++ [t], us, by simp, fun d hd => ?_, Or.inl rfl, hu⟩
    rcases List.mem_append.1 hd with hd | hd
    · exact h1 d hd
    · obtain rfl := List.mem_singleton.1 hd
      exact ⟨c', out, pos, hc', hrun, ho, fun _ => List.drop_eq_nil_iff.1 er.symm⟩
  | @unreadable t us ph hfa hw =>
    refine ⟨dn, rest, rfl, h1, Or.inr ⟨rfl, fun h => absurd hfa h⟩, ?_⟩
    unfold Under at h2
    cases ph with
    | start => exact h2.2
    | reading acc => exact h2.2.1
    | writing pos r => exact absurd rfl (hw pos r)
  | @unwritable t us pos r hfa =>
    obtain ⟨hr, t', us', c', out, e, hc', hrun, hp, er, ho, hu⟩ := h2
    obtain rfl : t :: us = rest := hr
    obtain ⟨rfl, rfl⟩ := List.cons.inj e
    refine ⟨dn ++ [t], us, by simp, fun d hd => ?_, ?_, hu⟩
    · rcases List.mem_append.1 hd with hd | hd
      · exact h1 d hd
      · obtain rfl := List.mem_singleton.1 hd
        exact ⟨c', out, pos, hc', hrun, ho, fun h => absurd hfa h⟩
    · dsimp only
      split
      · exact Or.inl rfl
      · exact Or.inr ⟨rfl, fun h => absurd hfa h⟩

theorem Apart.nodup {jobs : List (List Task)} (h : Apart jobs.flatten) {ts : List Task} (ht : ts ∈ jobs) : (ts.map (·.output)).Nodup := by
  have := h.1
  rw [List.map_flatten] at this
  exact (List.nodup_flatten.1 this).1 _ (List.mem_map_of_mem ht)

theorem Apart.disjoint {pre post : List (List Task)} {ts us : List Task} (h : Apart (pre ++ ts :: post).flatten) (hu : us ∈ pre ∨ us ∈ post)
    {t u : Task} (ht : t ∈ ts) (hu' : u ∈ us) : u.output ≠ t.output := by
  have := h.1
  rw [List.flatten_append, List.flatten_cons, List.map_append, List.map_append, List.nodup_append] at this
  obtain ⟨-, h2, h3⟩ := this
  rw [List.nodup_append] at h2
  rcases hu with hu | hu
  · exact h3 _ (List.mem_map_of_mem (List.mem_flatten.2 ⟨us, hu, hu'⟩)) _ (List.mem_append_left _ (List.mem_map_of_mem ht))
  · exact fun e => h2.2.2 _ (List.mem_map_of_mem ht) _ (List.mem_map_of_mem (List.mem_flatten.2 ⟨us, hu, hu'⟩)) e.symm

theorem forall₂_split {α β : Type} {P : α → β → Prop} : ∀ (pre : List β) {post : List β} {l : List α}, List.Forall₂ P l (pre ++ post) →
    ∃ a b, l = a ++ b ∧ List.Forall₂ P a pre ∧ List.Forall₂ P b post
  | [], _, l, h => ⟨[], l, rfl, .nil, h⟩
  | _ :: pre, _, _, .cons h t => by
    obtain ⟨a, b, rfl, h1, h2⟩ := forall₂_split pre t
    exact ⟨_ :: a, b, rfl, .cons h h1, h2⟩

theorem forall₂_left {α β : Type} {P Q : α → β → Prop} {l : List α} {m : List β} (h : List.Forall₂ P l m) (hi : ∀ a ∈ l, ∀ b, P a b → Q a b) : List.Forall₂ Q l m := by
  induction h with
  | nil => exact .nil
  | cons h t ih => exact .cons (hi _ (by simp) _ h) (ih fun a ha => hi a (by simp [ha]))

/-- the invariant of all threads -/
theorem run_good {faulty : Prop} {jobs : List (List Task)} (ha : Apart jobs.flatten) {fs₀ fs : Files} {ths : List Thread}
    (h : Run faulty fs₀ (start jobs) fs ths) : List.Forall₂ (Good faulty fs₀ fs) jobs ths ∧ ∀ q, (∀ t ∈ jobs.flatten, q ≠ t.output) → fs q = fs₀ q := by
  generalize hst : start jobs = st at h
  induction h with
  | refl =>
    subst hst
    refine ⟨?_, fun _ _ => rfl⟩
    unfold start
    rw [List.forall₂_map_right_iff]
    exact List.forall₂_same.2 fun ts _ => ⟨[], ts, rfl, by simp, Or.inl rfl, fun _ _ => rfl⟩
  | @step fs' th th' pre post fs'' hr hs ih =>
    obtain ⟨hg, ho⟩ := ih
    obtain ⟨jpre, jrest, e1, hpre, hrest⟩ := forall₂_split pre hg
    cases hrest with
    | @cons ts _ jpost _ hth hpost =>
      subst e1
      have hts : ts ∈ jpre ++ ts :: jpost := by simp
      have hg' := hth.step (ha.nodup hts) (fun t ht => ho _ fun u hu =>
        (ha.2 u hu t (List.mem_flatten.2 ⟨ts, hts, ht⟩)).symm) hs
      rcases step_only hs with rfl | ⟨t, us, e, hq⟩
      · exact ⟨List.rel_append hpre (.cons hg' hpost), ho⟩
      · have ht : t ∈ ts := todo_mem hth t (by rw [e]; simp)
        refine ⟨List.rel_append (forall₂_left hpre fun a ha' b h => h.frame fun u hu => hq _ (ha.disjoint (Or.inl ha') ht hu))
          (.cons hg' (forall₂_left hpost fun a ha' b h => h.frame fun u hu => hq _ (ha.disjoint (Or.inr ha') ht hu))), fun q hq' => ?_⟩
        rw [hq q (hq' t (List.mem_flatten.2 ⟨ts, hts, ht⟩))]
        exact ho q hq'

theorem mem_written {fs : Files} {p : Path} {out : List Byte} : ∀ {ts : List Task}, (p, out) ∈ written fs ts → ∃ t ∈ ts, t.output = p ∧ ∃ c, fs t.input = some c ∧ t.run c = .ok (some out)
  | [], h => by simp [written] at h
  | t :: ts, h => by
    rw [written] at h
    split at h
    · simp at h
    · rename_i c hc
      split at h
      · rename_i out' hr
        rcases List.mem_cons.1 h with h | h
        · injection h with h1 h2
          exact ⟨t, by simp, h1.symm, c, hc, by rw [h2]; exact hr⟩
        · obtain ⟨u, hu, h⟩ := mem_written h
          exact ⟨u, by simp [hu], h⟩
      · simp at h

theorem written_append {fs : Files} {rest : List Task} : ∀ {dn : List Task}, (∀ d ∈ dn, ∃ c out, fs d.input = some c ∧ d.run c = .ok (some out)) →
    ∀ p out, (p, out) ∈ written fs (dn ++ rest) ↔ (∃ d ∈ dn, d.output = p ∧ ∃ c, fs d.input = some c ∧ d.run c = .ok (some out)) ∨ (p, out) ∈ written fs rest
  | [], _, p, out => by simp
  | d :: dn, h, p, out => by
    obtain ⟨c, o, h1, h2⟩ := h d (by simp)
    rw [List.cons_append, written_cons h1 h2, List.mem_cons, written_append fun d hd => h d (by simp [hd])]
    constructor
    · rintro (e | ⟨u, hu, e⟩ | e)
      · injection e with e1 e2
        exact Or.inl ⟨d, by simp, e1.symm, c, h1, by rw [e2]; exact h2⟩
      · exact Or.inl ⟨u, by simp [hu], e⟩
      · exact Or.inr e
    · rintro (⟨u, hu, e, c', h3, h4⟩ | e)
      · rcases List.mem_cons.1 hu with rfl | hu
        · rw [h1] at h3
          obtain rfl : c = c' := by injection h3
          rw [h2] at h4
          left
          injection h4 with h4
          injection h4 with h4
          rw [← e, h4]
        · exact Or.inr (Or.inl ⟨u, hu, e, c', h3, h4⟩)
      · exact Or.inr (Or.inr e)

/-- **C69** for files that do not get in each other's way: whatever the order in which the threads take their steps and however the reads and writes are cut,
if no read or write fails then at the end every output file has exactly the content that its conversion gives for the original input, and
all other files are as they were. -/
theorem C69_schedule_partial (jobs : List (List Task)) (ha : Apart jobs.flatten) (fs₀ fs : Files) (ths : List Thread)
    (h : Run False fs₀ (start jobs) fs ths) (he : ended ths) :
    (∀ p out, (p, out) ∈ jobs.flatMap (written fs₀) → fs p = some out) ∧
    ∀ p, (∀ out, (p, out) ∉ jobs.flatMap (written fs₀)) → fs p = fs₀ p := by
  obtain ⟨hg, ho⟩ := run_good ha h
  -- every thread has done what it should
  have key : ∀ ts ∈ jobs, ∃ dn rest, ts = dn ++ rest ∧ (∀ d ∈ dn, Over False fs₀ fs d) ∧ written fs₀ rest = [] ∧ ∀ t ∈ rest, fs t.output = fs₀ t.output := by
    have : List.Forall₂ (fun ts _ => ∃ dn rest, ts = dn ++ rest ∧ (∀ d ∈ dn, Over False fs₀ fs d) ∧ written fs₀ rest = [] ∧ ∀ t ∈ rest, fs t.output = fs₀ t.output) jobs ths := by
      clear ho h ha
      induction hg with
      | nil => exact .nil
      | @cons ts th _ _ hh _ ih =>
        refine .cons ?_ (ih fun th hth => he th (by simp [hth]))
        obtain ⟨dn, rest, e, h1, h2⟩ := hh
        have he' := he th (by simp)
        refine ⟨dn, rest, e, h1, ?_⟩
        unfold Under at h2
        split at h2
        · refine ⟨?_, h2.2⟩
          rcases h2.1 with h | h
          · rw [← h, he']; rfl
          · exact h.2 not_false
        · obtain ⟨h3, -, t, us, c, h4, -⟩ := h2
          rw [he'] at h3
          rw [← h3] at h4
          cases h4
        · obtain ⟨h3, t, us, c, out, h4, -⟩ := h2
          rw [he'] at h3
          rw [← h3] at h4
          cases h4
    intro ts hts
    clear h he ho hg
    induction this with
    | nil => simp at hts
    | cons h _ ih =>
      rcases List.mem_cons.1 hts with rfl | hts
      · exact h
      · exact ih (by
          constructor
          · have := ha.1
            rw [List.flatten_cons, List.map_append] at this
            exact (List.nodup_append.1 this).2.1
          · exact fun t ht u hu => ha.2 t (by rw [List.flatten_cons]; simp [ht]) u (by rw [List.flatten_cons]; simp [hu])) hts
  have over_full : ∀ d c out, Over False fs₀ fs d → fs₀ d.input = some c → d.run c = .ok (some out) → fs d.output = some out := by
    rintro d c out ⟨c', out', k, h1, h2, h3, h4⟩ h5 h6
    rw [h1] at h5
    obtain rfl : c' = c := by injection h5
    rw [h2] at h6
    injection h6 with h6
    injection h6 with h6
    rw [h3, List.take_of_length_le (h4 not_false), h6]
  constructor
  · intro p out hp
    obtain ⟨ts, hts, hp⟩ := List.mem_flatMap.1 hp
    obtain ⟨dn, rest, rfl, h1, h2, h3⟩ := key ts hts
    rw [written_append (fun d hd => by
      obtain ⟨c, out, k, a, b, -⟩ := h1 d hd
      exact ⟨c, out, a, b⟩), h2] at hp
    rcases hp with ⟨d, hd, rfl, c, h5, h6⟩ | hp
    · exact over_full d c out (h1 d hd) h5 h6
    · simp at hp
  · intro p hp
    by_cases hex : ∃ t ∈ jobs.flatten, t.output = p
    · obtain ⟨t, ht, rfl⟩ := hex
      obtain ⟨ts, hts, ht⟩ := List.mem_flatten.1 ht
      obtain ⟨dn, rest, rfl, h1, h2, h3⟩ := key ts hts
      rcases List.mem_append.1 ht with ht | ht
      · obtain ⟨c, out, k, a, b, -⟩ := h1 t ht
        refine absurd (List.mem_flatMap.2 ⟨_, hts, ?_⟩) (hp out)
        rw [written_append (fun d hd => by
          obtain ⟨c, out, k, a, b, -⟩ := h1 d hd
          exact ⟨c, out, a, b⟩)]
        exact Or.inl ⟨t, ht, rfl, c, a, b⟩
      · exact h3 t ht
    · exact ho p fun t ht e => hex ⟨t, ht, e.symm⟩

/-- **C70**: at any moment, also after failed reads and writes, every file is as it was, or it is the output of a conversion and holds the first
bytes of what that conversion gives for the original input. So a crash loses nothing but the old content of output files. -/
theorem C70_interrupted (faulty : Prop) (jobs : List (List Task)) (ha : Apart jobs.flatten) (fs₀ fs : Files) (ths : List Thread)
    (h : Run faulty fs₀ (start jobs) fs ths) (p : Path) :
    fs p = fs₀ p ∨ ∃ out k, (p, out) ∈ jobs.flatMap (written fs₀) ∧ fs p = some (out.take k) := by
  obtain ⟨hg, ho⟩ := run_good ha h
  by_cases hex : ∃ t ∈ jobs.flatten, t.output = p
  · obtain ⟨t, ht, rfl⟩ := hex
    obtain ⟨ts, hts, ht'⟩ := List.mem_flatten.1 ht
    clear ht
    obtain ⟨th, hgood⟩ : ∃ th, Good faulty fs₀ fs ts th := by
      clear ho h ha ht'
      induction hg with
      | nil => simp at hts
      | cons h _ ih =>
        rcases List.mem_cons.1 hts with rfl | hts
        · exact ⟨_, h⟩
        · exact ih hts
    obtain ⟨dn, rest, rfl, h1, h2⟩ := hgood
    have hw := fun p out => written_append (fs := fs₀) (rest := rest) (dn := dn) (fun d hd => by
          obtain ⟨c, out, k, a, b, -⟩ := h1 d hd
          exact ⟨c, out, a, b⟩) p out
    rcases List.mem_append.1 ht' with ht | ht
    · obtain ⟨c, out, k, a, b, e, -⟩ := h1 t ht
      exact Or.inr ⟨out, k, List.mem_flatMap.2 ⟨_, hts, (hw _ _).2 (Or.inl ⟨t, ht, rfl, c, a, b⟩)⟩, e⟩
    · unfold Under at h2
      split at h2
      · exact Or.inl (h2.2 t ht)
      · exact Or.inl (h2.2.1 t ht)
      · obtain ⟨-, u, us, c, out, rfl, h3, h4, h5, h6, h7, h8⟩ := h2
        rcases List.mem_cons.1 ht with rfl | ht
        · exact Or.inr ⟨out, _, List.mem_flatMap.2 ⟨_, hts, (hw _ _).2 (Or.inr (by rw [written_cons h3 h4]; simp))⟩, h7⟩
        · exact Or.inl (h8 t ht)
  · exact Or.inl (ho p fun t ht e => hex ⟨t, ht, e.symm⟩)

/-- A file that a conversion of a 16-bit WAV was interrupted in is not accepted by the converter: it does not load unless it is complete. -/
theorem C70_torn_adhoc (b : Build) (bytes : List Byte) (info : StreamInfo) (cells : List ℤ) (hr : ∀ x ∈ cells, -32768 ≤ x ∧ x ≤ 32767)
    (hl : WavCodec.load bytes = .ok (.ok { info := info, pcm := cells.flatMap le16, shortCursor := 0 }))
    (H : Fits { info := info, pcm := cells.flatMap le16, shortCursor := 0 }) (hn : info.channels ≤ 1024) (level : Nat) (out : List Byte)
    (h : content (Cli.convertWavToAdhoc b bytes level (some Writer.perfect)) = .ok (some out)) (k : Nat) (hk : k < out.length) :
    AdhocCodec.load b (out.take k) = .ok none := by
  rw [wav_to_adhoc H.pos hn hr hl] at h
  rcases e : encodeAll b (fresh info level) (cliCalls info.channels cells) with p | c
  · rw [e] at h; cases h
  rw [e] at h
  obtain ⟨hf, hb⟩ := cli_counts H.pos hn (by have := H.size; dsimp only at this; rw [length_le16] at this; norm_num at this ⊢; omega) e
  have ho : out = file c := by
    have h := Except.ok.inj h
    injection h with h
    exact h.symm
  subst ho
  exact C10_recordings b info level _ c e H.pos (lt_trans H.rate_lt (by norm_num)) (lt_of_le_of_lt hn (by norm_num)) hf hb k hk

/-- One command line that keeps its files apart: WAV files whose names differ and have no dot but the one before the extension. Each is read
once, and written to its own file in the output directory. -/
theorem C69_wav_inputs_partial (b : Build) (fuel level : Nat) (outDir : List Char) (inputs : List (List Char × List Char)) (hp : ∀ x ∈ inputs, Plain x.2)
    (hn : (inputs.map (·.2)).Nodup) :
    let jobs := (inputs.map fun x => ((x.1, x.2 ++ ".wav".toList) : Path)).map (convertFile b fuel level outDir)
    Apart jobs.flatten ∧ jobs.flatten.map (fun t => (t.input, t.output)) =
      inputs.map fun x => ((x.1, x.2 ++ ".wav".toList), (outDir, x.2 ++ ".adhoc".toList)) := by
  have one : ∀ x ∈ inputs, (convertFile b fuel level outDir (x.1, x.2 ++ ".wav".toList)).map (fun t => (t.input, t.output)) =
      [((x.1, x.2 ++ ".wav".toList), (outDir, x.2 ++ ".adhoc".toList))] := by
    intro x hx
    obtain ⟨h1, h2, -⟩ := (C61_partial x.2 [] [] (by simp)).2.2 (hp x hx)
    unfold convertFile
    dsimp only
    rw [h1]
    show [((x.1, x.2 ++ ".wav".toList), (outDir, (Cli.outputName (x.2 ++ ".wav".toList) "adhoc".toList).getD []))] = _
    rw [h2]
    rfl
  intro jobs
  have h2 : jobs.flatten.map (fun t => (t.input, t.output)) = inputs.map fun x => ((x.1, x.2 ++ ".wav".toList), (outDir, x.2 ++ ".adhoc".toList)) := by
    show (List.map _ (List.map _ _)).flatten.map _ = _
    rw [List.map_map, List.map_flatten, List.map_map]
    clear jobs hn hp
    induction inputs with
    | nil => rfl
    | cons x xs ih =>
      rw [List.map_cons, List.flatten_cons, ih fun y hy => one y (by simp [hy]), List.map_cons]
      show (convertFile b fuel level outDir (x.1, x.2 ++ ".wav".toList)).map _ ++ _ = _
      rw [one x (by simp)]
      rfl
  refine ⟨⟨?_, ?_⟩, h2⟩
  · have : jobs.flatten.map (·.output) = (inputs.map (·.2)).map fun n => ((outDir, n ++ ".adhoc".toList) : Path) := by
      have := congrArg (List.map Prod.snd) h2
      rw [List.map_map, List.map_map] at this
      rw [List.map_map]
      exact this
    rw [this]
    refine hn.map fun a c h => ?_
    injection h with _ h
    exact List.append_cancel_right h
  · intro t ht u hu e
    have h3 : (t.input, t.output) ∈ jobs.flatten.map (fun t => (t.input, t.output)) := List.mem_map_of_mem ht
    have h4 : (u.input, u.output) ∈ jobs.flatten.map (fun t => (t.input, t.output)) := List.mem_map_of_mem hu
    rw [h2] at h3 h4
    obtain ⟨x, -, hx⟩ := List.mem_map.1 h3
    obtain ⟨y, -, hy⟩ := List.mem_map.1 h4
    have e2 : x.2 ++ ".adhoc".toList = y.2 ++ ".wav".toList := by
      have h5 := congrArg Prod.snd hx
      have h6 := congrArg Prod.fst hy
      dsimp only at h5 h6
      rw [← h5, ← h6] at e
      exact congrArg Prod.snd e
    have := congrArg List.getLast? e2
    simp at this

/-! ## runs there are -/

theorem Disk.Run.trans {faulty : Prop} {fs fs' fs'' : Files} {a b c : List Thread} (h1 : Run faulty fs a fs' b) (h2 : Run faulty fs' b fs'' c) : Run faulty fs a fs'' c := by
  induction h2 with
  | refl => exact h1
  | step _ hs ih => exact .step ih hs

theorem Disk.Run.one {faulty : Prop} {fs fs' : Files} {pre post : List Thread} {th th' : Thread} (h : Step faulty fs th fs' th') :
    Run faulty fs (pre ++ th :: post) fs' (pre ++ th' :: post) := .step .refl h

/-- one conversion alone -/
theorem run_task {faulty : Prop} {fs : Files} {pre post : List Thread} {t : Task} {ts : List Task} {c out : List Byte} (hc : fs t.input = some c)
    (hr : t.run c = .ok (some out)) :
    ∃ fs', fs' = fs.put t.output out ∧ Run faulty fs (pre ++ ⟨t :: ts, .start⟩ :: post) fs' (pre ++ ⟨ts, .start⟩ :: post) := by
  have r1 : Run faulty fs (pre ++ ⟨t :: ts, .start⟩ :: post) fs (pre ++ ⟨t :: ts, .reading c⟩ :: post) := by
    refine (Run.one (.opened hc)).trans ?_
    rcases c with _ | ⟨x, c⟩
    · exact .refl
    · have := Step.read (faulty := faulty) (ts := ts) (acc := []) (x :: c).length hc (by simp) (by simp)
      rw [List.nil_append, List.length_nil, List.drop_zero, List.take_length] at this
      exact Run.one this
  have r2 := r1.trans (Run.one (.created hc le_rfl hr))
  refine ⟨_, rfl, ?_⟩
  rcases out with _ | ⟨x, o⟩
  · exact r2.trans (Run.one .saved)
  · have := Step.wrote (faulty := faulty) (ts := ts) (t := t) (pos := 0) (rest := x :: o) (x :: o).length (by simp) le_rfl (put_same fs t.output [])
    rw [List.take_length, List.drop_length] at this
    have e : (fs.put t.output []).put t.output (writeAt [] 0 (x :: o)) = fs.put t.output (x :: o) := by
      funext q
      unfold Files.put
      split
      · simp [writeAt]
      · rfl
    rw [e] at this
    exact (r2.trans (Run.one this)).trans (Run.one .saved)

/-- another input without samples, at another rate -/
def emptyWav2 : List Byte := emptyWav.take 24 ++ Bincode.leBytes 4 16000 ++ emptyWav.drop 28

/-- two inputs of one name in two directories -/
def twoDirs : List Path := [(['x'], ['a', '.', 'w', 'a', 'v']), (['y'], ['a', '.', 'w', 'a', 'v'])]

/-- the files there are -/
def twoFiles : Files := fun p => if p = (['x'], ['a', '.', 'w', 'a', 'v']) then some emptyWav else if p = (['y'], ['a', '.', 'w', 'a', 'v']) then some emptyWav2 else none

/-- the task for a WAV input named `a.wav` -/
def taskFor (d : Char) : Task :=
  { input := ([d], ['a', '.', 'w', 'a', 'v'])
    output := (['.'], ['a', '.', 'a', 'd', 'h', 'o', 'c'])
    run := fun bytes => content (Cli.convertWavToAdhoc .debug bytes 5 (some .perfect))
    lenient := true }

theorem jobs_twoDirs : twoDirs.map (convertFile .debug 1 5 ['.']) = [[taskFor 'x'], [taskFor 'y']] := by rfl

theorem content_byte {x : R (Option Writer × Option PUnit)} {v : Option Byte} (h : x.map (fun r => (r.1.map (·.out[69]?), r.2)) = .ok (some v, some ())) :
    ∃ l, content x = .ok (some l) ∧ l[69]? = v := by
  rcases x with p | ⟨_ | d, r⟩
  · cases h
  · cases h
  · have h := Except.ok.inj h
    simp only [Option.map_some, Prod.mk.injEq, Option.some.injEq] at h
    exact ⟨d.out, by rw [h.2]; rfl, h.1⟩

theorem taskFor_run (d : Char) (bytes : List Byte) : (taskFor d).run bytes = content (Cli.convertWavToAdhoc .debug bytes 5 (some .perfect)) := rfl

theorem run_x : ∃ o, (taskFor 'x').run emptyWav = .ok (some o) ∧ o[69]? = some 0x40#8 := by
  have h : (Cli.convertWavToAdhoc .debug emptyWav 5 (some Writer.perfect)).map (fun r => (r.1.map (·.out[69]?), r.2)) = .ok (some (some 0x40#8), some ()) := by
    decide +kernel
  rw [taskFor_run]
  exact content_byte h

theorem run_y : ∃ o, (taskFor 'y').run emptyWav2 = .ok (some o) ∧ o[69]? = some 0x80#8 := by
  have h : (Cli.convertWavToAdhoc .debug emptyWav2 5 (some Writer.perfect)).map (fun r => (r.1.map (·.out[69]?), r.2)) = .ok (some (some 0x80#8), some ()) := by
    decide +kernel
  rw [taskFor_run]
  exact content_byte h

theorem twoFiles_x : twoFiles (taskFor 'x').input = some emptyWav := if_pos rfl

theorem twoFiles_y : twoFiles (taskFor 'y').input = some emptyWav2 := (if_neg (by decide)).trans (if_pos rfl)

/-- C69 is false in general: two inputs of the same name in different directories are written to the same output file, and what it holds
at the end depends on the order. -/
theorem C69_false : ¬ ∀ (b : Build) (fuel level : Nat) (outDir : List Char) (inputs : List Path) (fs₀ fs fs' : Files) (ths ths' : List Thread),
    Run False fs₀ (start (inputs.map (convertFile b fuel level outDir))) fs ths → ended ths →
    Run False fs₀ (start (inputs.map (convertFile b fuel level outDir))) fs' ths' → ended ths' → fs = fs' := by
  intro h
  have h := h .debug 1 5 ['.'] twoDirs twoFiles
  rw [jobs_twoDirs] at h
  obtain ⟨o1, h1, b1⟩ := run_x
  obtain ⟨o2, h2, b2⟩ := run_y
  have ends : ended ([⟨[], .start⟩, ⟨[], .start⟩] : List Thread) := by
    intro th hth
    simp only [List.mem_cons, List.not_mem_nil, or_false, or_self] at hth
    rw [hth]
  -- x first
  obtain ⟨_, rfl, ra⟩ := run_task (faulty := False) (fs := twoFiles) (pre := []) (post := [⟨[taskFor 'y'], .start⟩]) (t := taskFor 'x') (ts := []) (c := emptyWav) twoFiles_x h1
  obtain ⟨_, rfl, rb⟩ := run_task (faulty := False) (fs := twoFiles.put (taskFor 'x').output o1) (pre := [⟨[], .start⟩]) (post := []) (t := taskFor 'y') (ts := [])
    (c := emptyWav2) ((put_other (by decide)).trans twoFiles_y) h2
  -- y first
  obtain ⟨_, rfl, rc⟩ := run_task (faulty := False) (fs := twoFiles) (pre := [⟨[taskFor 'x'], .start⟩]) (post := []) (t := taskFor 'y') (ts := []) (c := emptyWav2) twoFiles_y h2
  obtain ⟨_, rfl, rd⟩ := run_task (faulty := False) (fs := twoFiles.put (taskFor 'y').output o2) (pre := []) (post := [⟨[], .start⟩]) (t := taskFor 'x') (ts := [])
    (c := emptyWav) ((put_other (by decide)).trans twoFiles_x) h1
  have := congrFun (h _ _ _ _ (ra.trans rb) ends (rc.trans rd) ends) (taskFor 'x').output
  rw [show (taskFor 'y').output = (taskFor 'x').output from rfl, put_same, put_same] at this
  injection this with this
  rw [this, b1] at b2
  simp at b2

/-- the same input, written elsewhere -/
def moved : Task := { taskFor 'y' with output := (['.'], ['b', '.', 'a', 'd', 'h', 'o', 'c']) }

theorem moved_run (bytes : List Byte) : moved.run bytes = content (Cli.convertWavToAdhoc .debug bytes 5 (some .perfect)) := rfl

/-- the hypotheses of C69 and C70 hold for two inputs in one directory, and there is a run to the end -/
example : ∃ o1 o2 : List Byte,
    let jobs := [[taskFor 'x'], [moved]]
    Apart jobs.flatten ∧ Run False twoFiles (start jobs) ((twoFiles.put (['.'], ['a', '.', 'a', 'd', 'h', 'o', 'c']) o1).put (['.'], ['b', '.', 'a', 'd', 'h', 'o', 'c']) o2)
      [⟨[], .start⟩, ⟨[], .start⟩] := by
  obtain ⟨o1, h1, b1⟩ := run_x
  obtain ⟨o2, h2, b2⟩ := run_y
  refine ⟨o1, o2, ⟨by decide, ?_⟩, ?_⟩
  · intro t ht u hu
    simp only [List.flatten_cons, List.flatten_nil, List.append_nil, List.cons_append, List.nil_append, List.mem_cons, List.not_mem_nil, or_false] at ht hu
    rcases ht with rfl | rfl <;> rcases hu with rfl | rfl <;> decide
  · obtain ⟨_, rfl, ra⟩ := run_task (faulty := False) (fs := twoFiles) (pre := []) (post := [⟨[moved], .start⟩])
      (t := taskFor 'x') (ts := []) (c := emptyWav) twoFiles_x h1
    obtain ⟨_, rfl, rb⟩ := run_task (faulty := False) (fs := twoFiles.put (taskFor 'x').output o1) (pre := [⟨[], .start⟩]) (post := [])
      (t := moved) (ts := []) (c := emptyWav2) (by
        show (twoFiles.put _ _) (taskFor 'y').input = _
        rw [put_other (by decide)]
        exact twoFiles_y) (by
        rw [moved_run, ← taskFor_run 'y']
        exact h2)
    exact ra.trans rb

end Adhoc

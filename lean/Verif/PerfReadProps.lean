import Verif.PerfRead

/-! # C78: theorems about `PerfDataSampleReader` -/
namespace Verif.PerfRead
open Verif Verif.Sample Verif.Lbr

theorem focus_aux (o : Opts) (l : List (Name × Name)) (s : List Name × Bool) :
    (∀ n, n ∈ (l.foldl (fun s p =>
      if p.2 = o.buildId then
        if isKernelName p.1 then (s.1 ++ kernelNames, true) else (s.1 ++ [p.1], s.2)
      else s) s).1 ↔ n ∈ s.1 ∨ ∃ p ∈ l, p.2 = o.buildId ∧ if isKernelName p.1 = true then n ∈ kernelNames else n = p.1) ∧
    (l.foldl (fun s p =>
      if p.2 = o.buildId then
        if isKernelName p.1 then (s.1 ++ kernelNames, true) else (s.1 ++ [p.1], s.2)
      else s) s).2 = (s.2 || l.any fun p => decide (p.2 = o.buildId) && isKernelName p.1) := by
  induction l generalizing s with
  | nil => simp
  | cons p l ih =>
    simp only [List.foldl_cons]
    obtain ⟨h1, h2⟩ := ih (if p.2 = o.buildId then if isKernelName p.1 then (s.1 ++ kernelNames, true) else (s.1 ++ [p.1], s.2) else s)
    refine ⟨fun n => ?_, ?_⟩
    · rw [h1]
      by_cases hp : p.2 = o.buildId
      · by_cases hk : isKernelName p.1 = true
        · simp [hp, hk, or_assoc]
        · simp [hp, hk, or_assoc]
      · simp [hp]
    · rw [h2]
      by_cases hp : p.2 = o.buildId
      · by_cases hk : isKernelName p.1 = true
        · simp [hp, hk]
        · simp [hp, hk]
      · simp [hp]

/-- The files of the build id, and the kernel flag. -/
theorem mem_focusBins (o : Opts) (k : Bool) (f : PerfFile) :
    (∀ n, n ∈ (focusBins o k f).1 ↔ ∃ p ∈ f.buildIds, p.2 = o.buildId ∧ if isKernelName p.1 = true then n ∈ kernelNames else n = p.1) ∧
    (focusBins o k f).2 = (k || f.buildIds.any fun p => decide (p.2 = o.buildId) && isKernelName p.1) := by
  obtain ⟨h1, h2⟩ := focus_aux o f.buildIds ([], k)
  refine ⟨fun n => ?_, h2⟩
  rw [show (n ∈ (focusBins o k f).1 ↔ _) from h1 n]
  simp

/-- No file of the list has the build id. -/
theorem focusBins_empty (o : Opts) (k : Bool) (f : PerfFile) :
    (focusBins o k f).1 = [] ↔ ∀ p ∈ f.buildIds, p.2 ≠ o.buildId := by
  constructor
  · intro h p hp he
    by_cases hk : isKernelName p.1 = true
    · have := ((mem_focusBins o k f).1 (str "[kernel.kallsyms]")).2 ⟨p, hp, he, by rw [if_pos hk]; simp [kernelNames]⟩
      rw [h] at this; cases this
    · have := ((mem_focusBins o k f).1 p.1).2 ⟨p, hp, he, by rw [if_neg hk]⟩
      rw [h] at this; cases this
  · intro h
    rw [List.eq_nil_iff_forall_not_mem]
    intro n hn
    obtain ⟨p, hp, he, _⟩ := ((mem_focusBins o k f).1 n).1 hn
    exact h p hp he

theorem decideName_empty (o : Opts) (f : PerfFile) (n : Name) (h : o.buildId = []) :
    decideName o [] n = decide (Selected o f n) := by
  simp [decideName, Selected, h]

theorem decideName_focus (o : Opts) (k : Bool) (f : PerfFile) (n : Name) (h : o.buildId ≠ []) (hf : (focusBins o k f).1 ≠ []) :
    decideName o (focusBins o k f).1 n = decide (Selected o f n) := by
  have hm := (mem_focusBins o k f).1 n
  unfold decideName
  rw [if_neg (by simpa using hf)]
  by_cases hn : n = []
  · simp [hn, Selected, h]
  · rw [if_neg (by simpa using hn)]
    rw [Bool.eq_iff_iff, decide_eq_true_iff]
    simp only [List.any_eq_true, decide_eq_true_iff]
    constructor
    · rintro ⟨x, hx, rfl⟩
      exact Or.inr ⟨h, hn, hm.1 hx⟩
    · rintro (⟨h', _⟩ | ⟨_, _, hp⟩)
      · exact absurd h' h
      · exact ⟨n, hm.2 hp, rfl⟩

/-- What is known when the events of `f` are processed: the answers are right, those of the cache too. -/
structure Ctx (o : Opts) (focus : List Name) (f : PerfFile) (Src : Nat → Bool → Prop) : Prop where
  right : ∀ n, decideName o focus n = decide (Selected o f n)
  old : ∀ l ∈ f.locs, ∀ b, Src l.dso b → b = decide (Selected o f l.name)
  new : ∀ l ∈ f.locs, Src l.dso (decide (Selected o f l.name))

/-- The cache has only answers given before. -/
def CacheSrc (Src : Nat → Bool → Prop) (c : List (Nat × Bool)) : Prop := ∀ p b, c.lookup p = some b → Src p b

variable {o : Opts} {focus : List Name} {f : PerfFile} {Src : Nat → Bool → Prop}

theorem match_ok (h : Ctx o focus f Src) {c : List (Nat × Bool)} (hc : CacheSrc Src c) {l : Loc} (hl : l ∈ f.locs) :
    ∃ c', matchBinary o focus c l = (decide (Selected o f l.name), c') ∧ CacheSrc Src c' := by
  unfold matchBinary
  cases he : c.lookup l.dso with
  | some b => exact ⟨c, by rw [h.old l hl b (hc _ _ he)], hc⟩
  | none =>
    refine ⟨_, by rw [h.right], ?_⟩
    intro p b hb
    rw [List.lookup_cons] at hb
    by_cases hp : p = l.dso
    · subst hp
      simp at hb
      rw [← hb]
      exact h.new l hl
    · rw [show (p == l.dso) = false by simpa using hp] at hb
      exact hc _ _ hb

theorem startIndex_mark (st : List BranchEntry) : startIndex (st.map (markEntry o f)) = startIndexP st := by
  induction st with
  | nil => rfl
  | cons a t ih =>
    simp only [List.map_cons, startIndex, startIndexP, ih]
    rfl

theorem dupTop_mark (limit : Nat) (st : List BranchEntry) (i : Nat) :
    dupTop limit (st.map (markEntry o f)) i = dupTopP limit st i := by
  unfold dupTop dupTopP
  rw [List.getElem?_map, List.getElem?_map]
  cases st[0]? <;> cases st[1]? <;> rfl

theorem firstBranch_ok (h : Ctx o focus f Src) {c : List (Nat × Bool)} (hc : CacheSrc Src c) {st : List BranchEntry}
    (hst : ∀ b ∈ st, b.src ∈ f.locs ∧ b.dst ∈ f.locs) :
    ∃ c', firstBranchP o focus c st = (firstBranch (st.map (markEntry o f)), c') ∧ CacheSrc Src c' := by
  unfold firstBranchP firstBranch
  rw [startIndex_mark, List.getElem?_map]
  cases he : st[startIndexP st]? with
  | none => exact ⟨c, rfl, hc⟩
  | some e =>
    obtain ⟨hs, hd⟩ := hst e (List.mem_of_getElem? he)
    obtain ⟨c1, h1, hc1⟩ := match_ok h hc hd
    obtain ⟨c2, h2, hc2⟩ := match_ok h hc1 hs
    simp only [h1, Option.map_some]
    by_cases hx : Selected o f e.dst.name
    · simp only [hx, decide_true, h2]
      by_cases hy : Selected o f e.src.name
      · exact ⟨c2, by simp [hy, hx, markEntry], hc2⟩
      · exact ⟨c2, by simp [hy, hx, markEntry], hc2⟩
    · simp only [hx, decide_false]
      exact ⟨c1, by simp [hx, markEntry], hc1⟩

theorem step_ok (h : Ctx o focus f Src) {c : List (Nat × Bool)} (hc : CacheSrc Src c) {st : List BranchEntry}
    (hst : ∀ b ∈ st, b.src ∈ f.locs ∧ b.dst ∈ f.locs) (i : Nat) :
    ∃ c', stepP o focus c st i = (step o.limit (st.map (markEntry o f)) i, c') ∧ CacheSrc Src c' := by
  unfold stepP step
  rw [List.getElem?_map, List.getElem?_map, dupTop_mark]
  cases he : st[i]? with
  | none => exact ⟨c, by simp, hc⟩
  | some e =>
    cases hp : st[i - 1]? with
    | none => exact ⟨c, by simp, hc⟩
    | some prev =>
      obtain ⟨hs, hd⟩ := hst e (List.mem_of_getElem? he)
      obtain ⟨c1, h1, hc1⟩ := match_ok h hc hd
      obtain ⟨c2, h2, hc2⟩ := match_ok h hc1 hs
      simp only [Option.map_some, h1, markEntry]
      by_cases hw : e.wrong = true
      · exact ⟨c, by simp [hw], hc⟩
      by_cases hx : Selected o f e.dst.name
      · simp only [hx, decide_true, h2]
        by_cases hdup : dupTopP o.limit st i = true
        · exact ⟨c1, by simp [hw, hdup], hc1⟩
        by_cases hr : prev.src.offset < e.dst.offset ∨ prev.src.offset - e.dst.offset > 2 ^ 20
        · exact ⟨c1, by simp only [if_neg hw, if_neg hdup, if_pos hr, Bool.not_true, Bool.false_eq_true, if_false], hc1⟩
        by_cases hy : Selected o f e.src.name
        · exact ⟨c2, by simp only [if_neg hw, if_neg hdup, if_neg hr, Bool.not_true, Bool.false_eq_true, if_false, hy, decide_true, if_true], hc2⟩
        · exact ⟨c2, by simp only [if_neg hw, if_neg hdup, if_neg hr, Bool.not_true, Bool.false_eq_true, if_false, hy, decide_false], hc2⟩
      · simp only [hx, decide_false]
        exact ⟨c1, by simp [hw], hc1⟩

theorem loop_ok (h : Ctx o focus f Src) {st : List BranchEntry}
    (hst : ∀ b ∈ st, b.src ∈ f.locs ∧ b.dst ∈ f.locs) (is : List Nat) {c : List (Nat × Bool)} (hc : CacheSrc Src c) :
    ∃ c', loopP o focus st c is = (is.filterMap (step o.limit (st.map (markEntry o f))), c') ∧ CacheSrc Src c' := by
  induction is generalizing c with
  | nil => exact ⟨c, rfl, hc⟩
  | cons i is ih =>
    obtain ⟨c1, h1, hc1⟩ := step_ok h hc hst i
    obtain ⟨c2, h2, hc2⟩ := ih hc1
    refine ⟨c2, ?_, hc2⟩
    simp only [loopP, h1, h2, List.filterMap_cons]
    cases step o.limit (st.map (markEntry o f)) i <;> simp

/-- The timestamps: the first one of each address is kept. -/
def addTimes (o : Opts) (f : PerfFile) (t : OMap Nat Nat) (e : PEvent) : OMap Nat Nat :=
  if Selected o f e.loc.name then OMap.emplace e.loc.offset e.time t else t

theorem event_ok (h : Ctx o focus f Src) {r : Reader} (hf : r.focus = focus) (hc : CacheSrc Src r.cache) {e : PEvent}
    (hs : e.isSample = true) (he : ∀ l ∈ e.locs, l ∈ f.locs) :
    ∃ c', eventP o r e = ⟨appendEvent o.limit r.maps (markEvent o f e), addTimes o f r.times e, r.kernel, focus, c'⟩ ∧ CacheSrc Src c' := by
  have hst : ∀ b ∈ e.stack, b.src ∈ f.locs ∧ b.dst ∈ f.locs := by
    intro b hb
    have : ∀ l ∈ [b.src, b.dst], l ∈ f.locs := fun l hl =>
      he l (by unfold PEvent.locs; exact List.mem_cons_of_mem _ (List.mem_flatMap.2 ⟨b, hb, hl⟩))
    exact ⟨this _ (by simp), this _ (by simp)⟩
  obtain ⟨c1, h1, hc1⟩ := match_ok h hc (he e.loc (by simp [PEvent.locs]))
  obtain ⟨c2, h2, hc2⟩ := firstBranch_ok h hc1 hst
  obtain ⟨c3, h3, hc3⟩ := loop_ok h hst (List.range' (startIndexP e.stack + 1) (e.stack.length - (startIndexP e.stack + 1))) hc2
  refine ⟨c3, ?_, hc3⟩
  unfold eventP
  subst hf
  simp only [hs, Bool.not_true, Bool.false_eq_true, if_false, h1, h2, h3]
  have hincs : incs o.limit (markEvent o f e).stack =
      List.filterMap (step o.limit (List.map (markEntry o f) e.stack))
        (List.range' (startIndexP e.stack + 1) (e.stack.length - (startIndexP e.stack + 1))) := by
    simp [incs, markEvent, startIndex_mark]
  simp only [appendEvent, eventRanges, eventBranches, hincs, addTimes, List.map_map]
  by_cases hsel : Selected o f e.loc.name
  · simp [markEvent, hsel]; rfl
  · simp [markEvent, hsel]; rfl

theorem events_ok (h : Ctx o focus f Src) (es : List PEvent) (hes : ∀ e ∈ es, e.isSample = true → ∀ l ∈ e.locs, l ∈ f.locs)
    {r : Reader} (hf : r.focus = focus) (hc : CacheSrc Src r.cache) :
    ∃ c', es.foldl (eventP o) r = ⟨Lbr.append o.limit r.maps ((es.filter PEvent.isSample).map (markEvent o f)),
      (es.filter PEvent.isSample).foldl (addTimes o f) r.times, r.kernel, focus, c'⟩ ∧ CacheSrc Src c' := by
  induction es generalizing r with
  | nil => subst hf; exact ⟨r.cache, rfl, hc⟩
  | cons e es ih =>
    rw [List.foldl_cons]
    by_cases hs : e.isSample = true
    · obtain ⟨c1, h1, hc1⟩ := event_ok h hf hc hs (hes e (by simp) hs)
      rw [h1]
      obtain ⟨c2, h2, hc2⟩ := ih (fun x hx => hes x (by simp [hx])) (r := ⟨appendEvent o.limit r.maps (markEvent o f e), addTimes o f r.times e, r.kernel, focus, c1⟩) rfl hc1
      refine ⟨c2, ?_, hc2⟩
      rw [h2]
      simp [List.filter_cons, hs, Lbr.append]
    · have : eventP o r e = r := by unfold eventP; simp [hs]
      rw [this, List.filter_cons, if_neg hs]
      exact ih (fun x hx => hes x (by simp [hx])) hf hc

/-! ## Files that do not have the build id record nothing -/

/-- Nothing of the event is in the profiled binary. -/
theorem mark_none (o : Opts) (f : PerfFile) (hn : ∀ n, ¬ Selected o f n) (m : Maps) (e : PEvent) :
    appendEvent o.limit m (markEvent o f e) = m ∧ ∀ t, addTimes o f t e = t := by
  have hinc : incs o.limit (markEvent o f e).stack = [] := by
    unfold incs
    rw [List.filterMap_eq_nil_iff]
    intro i _
    unfold step
    simp only [markEvent, List.getElem?_map]
    cases e.stack[i]? <;> cases e.stack[i - 1]? <;> simp [markEntry, hn]
  have hfb : firstBranch (markEvent o f e).stack = [] := by
    unfold firstBranch
    simp only [markEvent, List.getElem?_map]
    cases e.stack[startIndex (List.map (markEntry o f) e.stack)]? <;> simp [markEntry, hn]
  refine ⟨?_, fun t => by simp [addTimes, hn]⟩
  unfold appendEvent eventRanges eventBranches
  rw [hinc, hfb]
  simp [markEvent, hn, OMap.addAll]

theorem marks_none (o : Opts) (f : PerfFile) (hn : ∀ n, ¬ Selected o f n) (es : List PEvent) (m : Maps) (t : OMap Nat Nat) :
    Lbr.append o.limit m (es.map (markEvent o f)) = m ∧ es.foldl (addTimes o f) t = t := by
  induction es generalizing m t with
  | nil => exact ⟨rfl, rfl⟩
  | cons e es ih =>
    obtain ⟨h1, h2⟩ := mark_none o f hn m e
    simp only [Lbr.append, List.map_cons, List.foldl_cons] at *
    rw [h1, h2]
    exact ih m t

/-! ## Appending files -/

/-- The kernel was profiled in the file. -/
def IsKernel (o : Opts) (f : PerfFile) : Prop := o.buildId ≠ [] ∧ ∃ p ∈ f.buildIds, p.2 = o.buildId ∧ isKernelName p.1 = true

instance (o : Opts) (f : PerfFile) : Decidable (IsKernel o f) := by unfold IsKernel; infer_instance

theorem appendFile_ok (h1 : ∀ l ∈ f.locs, ∀ b, Src l.dso b → b = decide (Selected o f l.name))
    (h2 : ∀ l ∈ f.locs, Src l.dso (decide (Selected o f l.name)))
    {r : Reader} (hf : o.buildId = [] → r.focus = []) (hc : CacheSrc Src r.cache) :
    (appendFile o r f).maps = Lbr.append o.limit r.maps ((samples f).map (markEvent o f)) ∧
    (appendFile o r f).times = (samples f).foldl (addTimes o f) r.times ∧
    (appendFile o r f).kernel = (r.kernel || decide (IsKernel o f)) ∧
    (o.buildId = [] → (appendFile o r f).focus = []) ∧ CacheSrc Src (appendFile o r f).cache := by
  have hes : ∀ e ∈ f.events, e.isSample = true → ∀ l ∈ e.locs, l ∈ f.locs := fun e he hs l hl =>
    List.mem_flatMap.2 ⟨e, List.mem_filter.2 ⟨he, hs⟩, hl⟩
  unfold appendFile
  by_cases hb : o.buildId = []
  · have hk : decide (IsKernel o f) = false := by simp [IsKernel, hb]
    obtain ⟨c, hr, hc'⟩ := events_ok (focus := []) ⟨fun n => decideName_empty o f n hb, h1, h2⟩ f.events hes (hf hb) hc
    simp only [hb, List.isEmpty_nil, if_true, hr, hk, Bool.or_false]
    exact ⟨rfl, rfl, trivial, fun _ => trivial, hc'⟩
  · have hb' : o.buildId.isEmpty = false := by simpa using hb
    simp only [hb', Bool.false_eq_true, if_false]
    have hk : (focusBins o r.kernel f).2 = (r.kernel || decide (IsKernel o f)) := by
      rw [(mem_focusBins o r.kernel f).2]
      congr 1
      rw [Bool.eq_iff_iff, decide_eq_true_iff, List.any_eq_true]
      unfold IsKernel
      constructor
      · rintro ⟨p, hp, hq⟩
        rw [Bool.and_eq_true, decide_eq_true_iff] at hq
        exact ⟨hb, p, hp, hq⟩
      · rintro ⟨_, p, hp, hq⟩
        exact ⟨p, hp, by rw [Bool.and_eq_true, decide_eq_true_iff]; exact hq⟩
    by_cases he : (focusBins o r.kernel f).1 = []
    · have hn : ∀ n, ¬ Selected o f n := by
        rintro n (⟨h, _⟩ | ⟨_, _, p, hp, hq, _⟩)
        · exact hb h
        · exact (focusBins_empty o r.kernel f).1 he p hp hq
      obtain ⟨g1, g2⟩ := marks_none o f hn (samples f) r.maps r.times
      rw [if_pos (by simpa using he), g1, g2]
      exact ⟨rfl, rfl, hk, fun h => absurd h hb, hc⟩
    · rw [if_neg (by simpa using he)]
      obtain ⟨c, hr, hc'⟩ := events_ok (focus := (focusBins o r.kernel f).1)
        ⟨fun n => decideName_focus o r.kernel f n hb he, h1, h2⟩ f.events hes
        (r := { r with focus := (focusBins o r.kernel f).1, kernel := (focusBins o r.kernel f).2 }) rfl hc
      rw [hr]
      exact ⟨rfl, rfl, hk, fun h => absurd h hb, hc'⟩

/-- A pointer stands for the same answer in all files. -/
def Compatible (o : Opts) (fs : List PerfFile) : Prop :=
  ∀ f ∈ fs, ∀ g ∈ fs, ∀ a ∈ f.locs, ∀ b ∈ g.locs, a.dso = b.dso → (Selected o f a.name ↔ Selected o g b.name)

/-- The samples of all files, in order. -/
def allSamples (fs : List PerfFile) : List (PerfFile × PEvent) := fs.flatMap fun f => (samples f).map (f, ·)

theorem history_aux (o : Opts) (all : List PerfFile) (hcomp : Compatible o all) (fs : List PerfFile) (hsub : ∀ f ∈ fs, f ∈ all) (r : Reader)
    (hf : o.buildId = [] → r.focus = [])
    (hc : CacheSrc (fun p b => ∃ f ∈ all, ∃ l ∈ f.locs, l.dso = p ∧ b = decide (Selected o f l.name)) r.cache) :
    (fs.foldl (appendFile o) r).maps = Lbr.append o.limit r.maps ((allSamples fs).map fun x => markEvent o x.1 x.2) ∧
    (fs.foldl (appendFile o) r).times = (allSamples fs).foldl (fun t x => addTimes o x.1 t x.2) r.times ∧
    (fs.foldl (appendFile o) r).kernel = (r.kernel || decide (∃ f ∈ fs, IsKernel o f)) := by
  induction fs generalizing r with
  | nil => simp [allSamples, Lbr.append]
  | cons f fs ih =>
    have hfa := hsub f (by simp)
    obtain ⟨g1, g2, g3, g4, g5⟩ := appendFile_ok (o := o) (f := f)
      (Src := fun p b => ∃ f ∈ all, ∃ l ∈ f.locs, l.dso = p ∧ b = decide (Selected o f l.name))
      (by
        rintro l hl b ⟨g, hg, l', hl', hd, rfl⟩
        rw [decide_eq_decide]
        exact hcomp g hg f hfa l' hl' l hl hd)
      (fun l hl => ⟨f, hfa, l, hl, rfl, rfl⟩) hf hc
    obtain ⟨k1, k2, k3⟩ := ih (fun x hx => hsub x (by simp [hx])) (appendFile o r f) g4 g5
    rw [List.foldl_cons, k1, k2, k3, g1, g2, g3]
    refine ⟨?_, ?_, ?_⟩
    · simp [allSamples, Lbr.append, List.foldl_append, List.map_append, Function.comp_def]
    · simp [allSamples, List.foldl_append, List.foldl_map]
    · simp [Bool.or_assoc]

theorem times_fold (o : Opts) (xs : List (PerfFile × PEvent)) (t : OMap Nat Nat) (ht : OMap.Sorted t) (a : Nat) :
    OMap.find? (xs.foldl (fun t x => addTimes o x.1 t x.2) t) a =
      (OMap.find? t a).or (((xs.find? fun x => decide (Selected o x.1 x.2.loc.name ∧ x.2.loc.offset = a))).map fun x => x.2.time) := by
  induction xs generalizing t with
  | nil => simp
  | cons x xs ih =>
    rw [List.foldl_cons]
    by_cases hs : Selected o x.1 x.2.loc.name
    · have hx : addTimes o x.1 t x.2 = OMap.emplace x.2.loc.offset x.2.time t := if_pos hs
      rw [hx, ih _ (by unfold OMap.emplace; exact OMap.Sorted.upsert ht _ _)]
      by_cases ha : x.2.loc.offset = a
      · rw [List.find?_cons_of_pos (by simp [hs, ha])]
        subst ha
        unfold OMap.emplace
        rw [OMap.find?_upsert ht, if_pos rfl]
        cases OMap.find? t x.2.loc.offset <;> simp
      · rw [List.find?_cons_of_neg (by simp [ha])]
        unfold OMap.emplace
        rw [OMap.find?_upsert ht, if_neg (fun h => ha h.symm)]
    · have hx : addTimes o x.1 t x.2 = t := if_neg hs
      rw [hx, ih t ht, List.find?_cons_of_neg (by simp [hs])]

/-- What the reader holds after the files `fs`. -/
structure Holds (o : Opts) (fs : List PerfFile) (r : Reader) : Prop where
  /-- an address was sampled as often as there are samples at this offset of the profiled binary -/
  addr : ∀ a, OMap.get0 r.maps.addr a =
    (allSamples fs).countP fun x => decide (Selected o x.1 x.2.loc.name ∧ x.2.loc.offset = a)
  /-- the ranges and branches are those of the stacks (C04) -/
  range : ∀ p, OMap.get0 r.maps.range p = ((allSamples fs).map fun x => (eventRanges o.limit (markEvent o x.1 x.2)).count p).sum
  branch : ∀ p, OMap.get0 r.maps.branch p = ((allSamples fs).map fun x => (eventBranches o.limit (markEvent o x.1 x.2)).count p).sum
  /-- the time of an address is the one of its first sample -/
  time : ∀ a, OMap.find? r.times a =
    ((allSamples fs).find? fun x => decide (Selected o x.1 x.2.loc.name ∧ x.2.loc.offset = a)).map fun x => x.2.time
  /-- the kernel was profiled -/
  kernel : r.kernel = true ↔ ∃ f ∈ fs, IsKernel o f
  /-- the maps are sorted -/
  ok : r.maps.Ok

theorem count_addr (o : Opts) (xs : List (PerfFile × PEvent)) (a : Nat) :
    ((xs.map fun x => markEvent o x.1 x.2).filterMap Event.addr).count a =
      xs.countP fun x => decide (Selected o x.1 x.2.loc.name ∧ x.2.loc.offset = a) := by
  induction xs with
  | nil => rfl
  | cons x xs ih =>
    rw [List.map_cons, List.filterMap_cons, List.countP_cons, ← ih]
    by_cases hs : Selected o x.1 x.2.loc.name
    · have : (markEvent o x.1 x.2).addr = some x.2.loc.offset := by simp [markEvent, hs]
      simp only [this, List.count_cons]
      simp [hs]
    · have : (markEvent o x.1 x.2).addr = none := by simp [markEvent, hs]
      simp [this, hs]

theorem count_flatMap' {A B : Type} [BEq B] (l : List A) (g : A → List B) (b : B) :
    (l.flatMap g).count b = (l.map fun x => (g x).count b).sum := by
  induction l with
  | nil => rfl
  | cons x l ih => simp [List.flatMap_cons, List.count_append, ih]

/-- **C78, any number of files.** A reader to which the files `fs` are appended holds exactly the samples whose binary is the profiled one,
if no address of a discarded `DSOInfo` is used again for another binary. -/
theorem append_files_partial (o : Opts) (fs : List PerfFile) (h : Compatible o fs) : Holds o fs (fs.foldl (appendFile o) Reader.new) := by
  obtain ⟨h1, h2, h3⟩ := history_aux o fs h fs (fun _ hf => hf) Reader.new (fun _ => rfl) (fun p b hb => by simp [Reader.new] at hb)
  have hok : Maps.empty.Ok := by simp [Maps.empty, Maps.Ok, OMap.Sorted]
  obtain ⟨c1, c2, c3⟩ := append_counts o.limit Maps.empty hok ((allSamples fs).map fun x => markEvent o x.1 x.2)
  have e0 : ∀ {K : Type} [LinearOrder K] (k : K), OMap.get0 ([] : OMap K Nat) k = 0 := fun _ => rfl
  refine ⟨fun a => ?_, fun p => ?_, fun p => ?_, fun a => ?_, ?_, ?_⟩
  · rw [h1, show Reader.new.maps = Maps.empty from rfl, c2, count_addr]
    simp [Maps.empty, e0]
  · rw [h1, show Reader.new.maps = Maps.empty from rfl, c1, count_flatMap']
    simp [Maps.empty, e0, Function.comp_def]
  · rw [h1, show Reader.new.maps = Maps.empty from rfl, c3, count_flatMap']
    simp [Maps.empty, e0, Function.comp_def]
  · rw [h2, times_fold o _ _ (by simp [Reader.new, OMap.Sorted])]
    simp [Reader.new, OMap.find?]
  · rw [h3]; simp [Reader.new]
  · rw [h1, append_maps]
    exact ⟨OMap.Sorted.addAll hok.1 _, OMap.Sorted.addAll hok.2.1 _, OMap.Sorted.addAll hok.2.2 _⟩

/-- **C78, one file.** A fresh reader holds, after one file, exactly the samples whose binary is the profiled one. -/
theorem read_file (o : Opts) (f : PerfFile) (h : f.Consistent) : Holds o [f] (appendFile o Reader.new f) := by
  have := append_files_partial o [f] (by
    intro a ha b hb x hx y hy hd
    rw [List.mem_singleton] at ha hb
    subst ha; subst hb
    rw [h x hx y hy hd])
  exact this

/-- `ReadSample` and `Merge` for each file, with a reader of its own (profile_creator.cc:287-297 with 190-206). -/
def mergePerf (o : Opts) (existing : Option Maps) (fs : List PerfFile) : Maps :=
  mergeSample existing (fs.map fun f => some (appendFile o Reader.new f).maps)

/-- **C78, merging perf files into a text profile.** Here every file has its own reader, and pointers may be used again. -/
theorem merge_perf_files (o : Opts) (existing : Option Maps) (fs : List PerfFile) (he : (existing.getD Maps.empty).Ok)
    (h : ∀ f ∈ fs, f.Consistent) :
    (mergePerf o existing fs).Ok ∧
    (∀ a, OMap.get0 (mergePerf o existing fs).addr a = OMap.get0 (existing.getD Maps.empty).addr a +
      (allSamples fs).countP fun x => decide (Selected o x.1 x.2.loc.name ∧ x.2.loc.offset = a)) ∧
    (∀ p, OMap.get0 (mergePerf o existing fs).range p = OMap.get0 (existing.getD Maps.empty).range p +
      ((allSamples fs).map fun x => (eventRanges o.limit (markEvent o x.1 x.2)).count p).sum) ∧
    (∀ p, OMap.get0 (mergePerf o existing fs).branch p = OMap.get0 (existing.getD Maps.empty).branch p +
      ((allSamples fs).map fun x => (eventBranches o.limit (markEvent o x.1 x.2)).count p).sum) := by
  obtain ⟨h0, h1, h2, h3⟩ := merge_sample_sums existing (fs.map fun f => some (appendFile o Reader.new f).maps) he (by
    intro m hm
    simp only [List.mem_map, Option.some.injEq] at hm
    obtain ⟨f, hf, rfl⟩ := hm
    exact (read_file o f (h f hf)).ok)
  have hsum : ∀ (g : PerfFile × PEvent → Nat) (k : PerfFile → Nat), (∀ f ∈ fs, k f = ((allSamples [f]).map g).sum) →
      (fs.map k).sum = ((allSamples fs).map g).sum := by
    intro g k hk
    clear h h0 h1 h2 h3
    induction fs with
    | nil => rfl
    | cons f fs ih =>
      have := ih (fun x hx => hk x (by simp [hx]))
      have hf := hk f (by simp)
      simp only [allSamples, List.flatMap_cons, List.flatMap_nil, List.append_nil, List.map_append, List.sum_append, List.map_cons, List.sum_cons] at *
      omega
  refine ⟨h0, fun a => ?_, fun p => ?_, fun p => ?_⟩
  · rw [mergePerf, h2, List.map_map, List.countP_eq_length_filter]
    congr 1
    have hc : ∀ l : List (PerfFile × PEvent), (l.map fun x => if decide (Selected o x.1 x.2.loc.name ∧ x.2.loc.offset = a) = true then 1 else 0).sum =
        (l.filter fun x => decide (Selected o x.1 x.2.loc.name ∧ x.2.loc.offset = a)).length := by
      intro l
      induction l with
      | nil => rfl
      | cons x l ih =>
        rw [List.map_cons, List.sum_cons, ih, List.filter_cons]
        split <;> (simp; try omega)
    rw [← hc]
    apply hsum
    intro f hf
    simp only [Function.comp_apply, Option.getD_some]
    rw [(read_file o f (h f hf)).addr a, List.countP_eq_length_filter, hc]
  · rw [mergePerf, h1, List.map_map]
    congr 1
    apply hsum
    intro f hf
    simp only [Function.comp_apply, Option.getD_some]
    rw [(read_file o f (h f hf)).range p]
  · rw [mergePerf, h3, List.map_map]
    congr 1
    apply hsum
    intro f hf
    simp only [Function.comp_apply, Option.getD_some]
    rw [(read_file o f (h f hf)).branch p]

/-- A file that cannot be read changes nothing and is reported. -/
theorem append_bad (o : Opts) (r : Reader) : append o r none = (r, false) := rfl

/-- **C78, nothing foreign.** Every recorded range begins at a branch target in the profiled binary, and every recorded branch has both ends in it. -/
theorem recorded_sound (o : Opts) (fs : List PerfFile) (h : Compatible o fs) :
    (∀ p, 0 < OMap.get0 (fs.foldl (appendFile o) Reader.new).maps.range p → ∃ f ∈ fs, ∃ e ∈ samples f, ∃ i a b, 0 < i ∧
      e.stack[i]? = some a ∧ e.stack[i - 1]? = some b ∧ a.wrong = false ∧ Selected o f a.dst.name ∧
      p = toLex (a.dst.offset, b.src.offset) ∧ a.dst.offset ≤ b.src.offset ∧ b.src.offset - a.dst.offset ≤ 2 ^ 20) ∧
    (∀ p, 0 < OMap.get0 (fs.foldl (appendFile o) Reader.new).maps.branch p → ∃ f ∈ fs, ∃ e ∈ samples f, ∃ b ∈ e.stack,
      b.wrong = false ∧ Selected o f b.src.name ∧ Selected o f b.dst.name ∧ p = toLex (b.src.offset, b.dst.offset)) := by
  have H := append_files_partial o fs h
  have pos : ∀ (l : List (PerfFile × PEvent)) (g : PerfFile × PEvent → Nat), 0 < (l.map g).sum → ∃ x ∈ l, 0 < g x := by
    intro l g
    induction l with
    | nil => simp
    | cons x l ih =>
      intro hp
      rw [List.map_cons, List.sum_cons] at hp
      by_cases hx : 0 < g x
      · exact ⟨x, by simp, hx⟩
      · obtain ⟨y, hy, hg⟩ := ih (by omega)
        exact ⟨y, by simp [hy], hg⟩
  have mem : ∀ x ∈ allSamples fs, x.1 ∈ fs ∧ x.2 ∈ samples x.1 := by
    intro x hx
    obtain ⟨f, hf, hx⟩ := List.mem_flatMap.1 hx
    obtain ⟨e, he, rfl⟩ := List.mem_map.1 hx
    exact ⟨hf, he⟩
  constructor
  · intro p hp
    rw [H.range p] at hp
    obtain ⟨x, hx, hc⟩ := pos _ _ hp
    obtain ⟨i, a, b, hi, ha, hb, hw, hd, rfl, h1, h2⟩ := ranges_sound o.limit _ p (List.count_pos_iff.1 hc)
    simp only [markEvent, List.getElem?_map, Option.map_eq_some_iff] at ha hb
    obtain ⟨a', ha', rfl⟩ := ha
    obtain ⟨b', hb', rfl⟩ := hb
    exact ⟨x.1, (mem x hx).1, x.2, (mem x hx).2, i, a', b', hi, ha', hb', hw, by simpa [markEntry] using hd, rfl, h1, h2⟩
  · intro p hp
    rw [H.branch p] at hp
    obtain ⟨x, hx, hc⟩ := pos _ _ hp
    have hm := (branches_sound o.limit _).subset (List.count_pos_iff.1 hc)
    simp only [countable, List.mem_map, List.mem_filter, Bool.and_eq_true, Bool.not_eq_true'] at hm
    obtain ⟨a, ⟨ha, ⟨hw, hd⟩, hs⟩, rfl⟩ := hm
    obtain ⟨b, hb, rfl⟩ := List.mem_map.1 ha
    exact ⟨x.1, (mem x hx).1, x.2, (mem x hx).2, b, hb, hw, by simpa [markEntry] using hs, by simpa [markEntry] using hd, rfl⟩

/-! ## Examples and the violation -/

/-- The build id "7f" in the names of the files /bin/a (the profiled one) and /bin/b. -/
def exOpts : Opts := ⟨padBuildId (str "7f"), fun _ => false, 0x1000⟩

/-- A perf file with one sample and one branch stack. -/
def exFile : PerfFile where
  buildIds := [(str "/bin/a", padBuildId (str "7f")), (str "/bin/b", padBuildId (str "80"))]
  events := [⟨true, ⟨1, str "/bin/a", 0x110⟩, 50, [⟨⟨1, str "/bin/a", 0x120⟩, ⟨2, str "/bin/b", 0x40⟩, false⟩,
      ⟨⟨1, str "/bin/a", 0x108⟩, ⟨1, str "/bin/a", 0x110⟩, false⟩]⟩,
    ⟨true, ⟨2, str "/bin/b", 0x44⟩, 60, []⟩, ⟨false, ⟨1, str "/bin/a", 0⟩, 70, []⟩, ⟨true, ⟨1, str "/bin/a", 0x110⟩, 80, []⟩]

/-- The result for the example. -/
theorem exFile_read : exFile.Consistent ∧ (padBuildId (str "7f")).length = 40 ∧
    (appendFile exOpts Reader.new exFile).maps = ⟨[(toLex (0x110, 0x120), 1)], [(0x110, 2)], [(toLex (0x108, 0x110), 1)]⟩ ∧
    (appendFile exOpts Reader.new exFile).times = [(0x110, 50)] ∧ (appendFile exOpts Reader.new exFile).kernel = false := by
  refine ⟨?_, ?_, ?_, ?_, ?_⟩
  · unfold PerfFile.Consistent; decide +kernel
  all_goals decide +kernel

/-- The kernel is recognised by its build id and found under its other names. -/
theorem exKernel : (appendFile ⟨str "k", fun _ => false, 0⟩ Reader.new
      ⟨[(str "/usr/lib/vmlinux", str "k")], [⟨true, ⟨1, str "[kernel.kallsyms]_stext", 5⟩, 1, []⟩]⟩).kernel = true ∧
    (appendFile ⟨str "k", fun _ => false, 0⟩ Reader.new
      ⟨[(str "/usr/lib/vmlinux", str "k")], [⟨true, ⟨1, str "[kernel.kallsyms]_stext", 5⟩, 1, []⟩]⟩).maps.addr = [(5, 1)] := by decide +kernel

/-- A second file of the same machine, in which the pointer of /bin/a is the one of /bin/b. -/
def exSecond : PerfFile where
  buildIds := [(str "/bin/a", padBuildId (str "7f"))]
  events := [⟨true, ⟨1, str "/bin/b", 0x999⟩, 90, []⟩]

/-- The full claim for several files: what one reader holds after several files does not depend on where the `DSOInfo`s of earlier,
already destroyed parsers were in memory. -/
def AppendClaim : Prop := ∀ (o : Opts) (fs : List PerfFile), (∀ f ∈ fs, f.Consistent) → Holds o fs (fs.foldl (appendFile o) Reader.new)

/-- **C78, violated.** The cache is kept when a second file is appended, but it is indexed by pointers into the parser of the first file,
which is gone: a binary that is not profiled is taken for the profiled one. -/
theorem append_stale_cache_violated : ¬ AppendClaim := by
  intro h
  have := (h exOpts [exFile, exSecond] (by
    intro f hf
    simp only [List.mem_cons, List.not_mem_nil, or_false] at hf
    rcases hf with rfl | rfl
    · exact exFile_read.1
    · unfold PerfFile.Consistent; decide +kernel)).addr 0x999
  revert this
  decide +kernel

/-- The hypothesis of `append_files_partial` is met by two files whose pointers differ. -/
theorem exFiles_compatible : Compatible exOpts [exFile, { exSecond with events := [⟨true, ⟨9, str "/bin/b", 0x999⟩, 90, []⟩] }] := by
  unfold Compatible; decide +kernel

end Verif.PerfRead

import Verif.Lbr
import Verif.SampleProps

/-!
# Property C04: branch stacks to ranges and branches
-/
namespace Verif.Lbr
open Verif.Sample

theorem append_maps (limit : Nat) (es : List Event) (m : Maps) :
    append limit m es =
      ⟨OMap.addAll m.range ((es.flatMap (eventRanges limit)).map (·, 1)),
       OMap.addAll m.addr ((es.filterMap Event.addr).map (·, 1)),
       OMap.addAll m.branch ((es.flatMap (eventBranches limit)).map (·, 1))⟩ := by
  unfold append
  induction es generalizing m with
  | nil => rfl
  | cons e t ih =>
    rw [List.foldl_cons, ih]
    simp only [appendEvent, addAll_append, ← List.map_append, List.flatMap_cons]
    cases h : e.addr <;> simp [h, OMap.addAll]

theorem sumAt_ones {K : Type} [LinearOrder K] [BEq K] [LawfulBEq K] (l : List K) (k : K) :
    OMap.sumAt (l.map (·, 1)) k = l.count k := by
  induction l with
  | nil => rfl
  | cons a t ih =>
    unfold OMap.sumAt at *
    by_cases h : a = k
    · subst h; simp [ih]; omega
    · simp [ih, h, List.count_cons]

/-- C04 (counts): the final count of a range/address/branch is its previous count plus the number
of times the events record it. -/
theorem append_counts (limit : Nat) (m : Maps) (hm : m.Ok) (es : List Event) :
    (∀ r, OMap.get0 (append limit m es).range r =
      OMap.get0 m.range r + (es.flatMap (eventRanges limit)).count r) ∧
    (∀ a, OMap.get0 (append limit m es).addr a =
      OMap.get0 m.addr a + (es.filterMap Event.addr).count a) ∧
    (∀ b, OMap.get0 (append limit m es).branch b =
      OMap.get0 m.branch b + (es.flatMap (eventBranches limit)).count b) := by
  rw [append_maps]
  refine ⟨fun r => ?_, fun r => ?_, fun r => ?_⟩
  · rw [OMap.get0_addAll hm.1, sumAt_ones]
  · rw [OMap.get0_addAll hm.2.1, sumAt_ones]
  · rw [OMap.get0_addAll hm.2.2, sumAt_ones]

/-- C04 (soundness of ranges): each recorded range starts at the matched target of a
non-speculative branch `st[i]`, ends at the source of the next newer stack entry `st[i-1]`, does
not run backwards and is at most 1 MiB long. -/
theorem ranges_sound (limit : Nat) (e : Event) (r : Pair) (hr : r ∈ eventRanges limit e) :
    ∃ i a b, 0 < i ∧ e.stack[i]? = some a ∧ e.stack[i - 1]? = some b ∧
      a.wrong = false ∧ a.dstOk = true ∧ r = toLex (a.dst, b.src) ∧
      a.dst ≤ b.src ∧ b.src - a.dst ≤ 2 ^ 20 := by
  simp only [eventRanges, incs, List.mem_map, List.mem_filterMap] at hr
  obtain ⟨inc, ⟨i, hi, hs⟩, rfl⟩ := hr
  have hpos : 0 < i := by
    have := (List.mem_range'_1.1 hi).1; omega
  unfold step at hs
  split at hs
  · rename_i a b ha hb
    split at hs; · cases hs
    split at hs; · cases hs
    split at hs; · cases hs
    dsimp only at hs
    split at hs; · cases hs
    rename_i h1 h2 h3 h4
    cases hs
    exact ⟨i, a, b, hpos, ha, hb, by simpa using h1, by simpa using h2, rfl, by omega, by omega⟩
  · cases hs

theorem startIndex_le (st : List Entry) : startIndex st ≤ st.length := by
  induction st with
  | nil => simp [startIndex]
  | cons a t ih => simp only [startIndex]; split <;> simp <;> omega

theorem startIndex_not_wrong (st : List Entry) (e : Entry) (h : st[startIndex st]? = some e) :
    e.wrong = false := by
  induction st with
  | nil => simp [startIndex] at h
  | cons a t ih =>
    simp only [startIndex] at h
    split at h
    · rename_i hw; simp at h; exact ih h
    · rename_i hw; simp at h; subst h; simpa using hw

/-- The branches that may legitimately be counted for a stack: entries not on a speculative wrong
path with both ends in the profiled binary. -/
def countable (st : List Entry) : List Pair :=
  (st.filter (fun e => !e.wrong && e.dstOk && e.srcOk)).map (fun e => toLex (e.src, e.dst))

theorem filterMap_range' {β : Type} (f : Entry → Option β) (g : Nat → Option β) (st : List Entry)
    (k : Nat)
    (h : ∀ i e, k ≤ i → st[i]? = some e → g i = none ∨ g i = f e) (hk : k ≤ st.length) :
    ((List.range' k (st.length - k)).filterMap g).Sublist ((st.drop k).filterMap f) := by
  generalize hn : st.length - k = n at *
  induction n generalizing k with
  | zero => simp
  | succ n ih =>
    have hlt : k < st.length := by omega
    rw [List.range'_succ, List.drop_eq_getElem_cons hlt, List.filterMap_cons, List.filterMap_cons]
    have := ih (k + 1) (fun i e hi he => h i e (by omega) he) (by omega) (by omega)
    rcases h k st[k] (le_refl _) (by simp [hlt]) with hg | hg
    · rw [hg]
      cases f st[k] with
      | none => exact this
      | some b => exact List.Sublist.cons _ this
    · rw [hg]
      cases f st[k] with
      | none => exact this
      | some b => exact this.cons_cons b

/-- C04 (soundness of branches): the branches recorded for an event are a subsequence of the
countable stack entries: no speculative or foreign branch is counted and none is counted twice. -/
theorem branches_sound (limit : Nat) (e : Event) :
    (eventBranches limit e).Sublist (countable e.stack) := by
  obtain ⟨ad, st⟩ := e
  let f : Entry → Option Pair := fun e =>
    if !e.wrong && e.dstOk && e.srcOk then some (toLex (e.src, e.dst)) else none
  have hc : countable st = st.filterMap f := by
    unfold countable
    rw [← List.filterMap_eq_map, List.filterMap_filter]
    congr 1
  rw [hc]
  have hmain : (eventBranches limit ⟨ad, st⟩).Sublist ((st.drop (startIndex st)).filterMap f) := by
    unfold eventBranches firstBranch incs
    rw [List.filterMap_filterMap]
    rcases Nat.lt_or_ge (startIndex st) st.length with hlt | hge
    · rw [List.drop_eq_getElem_cons hlt, List.filterMap_cons]
      have hrest := filterMap_range' f (fun i => (step limit st i).bind Inc.branch) st
        (startIndex st + 1) (by
          intro i e hi he
          simp only [step, he]
          split
          · rename_i a b ha hb
            have : a = e := (Option.some.inj ha).symm
            subst this
            split; · left; rfl
            split; · left; rfl
            split; · left; rfl
            split; · left; rfl
            rename_i h1 h2 h3 h4
            right
            simp at h1 h2
            simp [f, h1, h2]
          · left; rfl) hlt
      rw [List.getElem?_eq_getElem hlt]
      have hw := startIndex_not_wrong st st[startIndex st] (by simp [hlt])
      by_cases hok : (st[startIndex st].dstOk && st[startIndex st].srcOk) = true
      · have : f st[startIndex st] = some (toLex (st[startIndex st].src, st[startIndex st].dst)) := by
          simp only [f, hw]
          simp only [Bool.not_false, Bool.true_and]
          rw [if_pos hok]
        rw [this]
        dsimp only
        rw [if_pos hok]
        exact hrest.cons_cons _
      · have : f st[startIndex st] = none := by
          simp only [f, hw, Bool.not_false, Bool.true_and]
          rw [if_neg hok]
        rw [this]
        dsimp only
        rw [if_neg hok]
        exact hrest
    · have : st.length - (startIndex st + 1) = 0 := by omega
      rw [this, List.getElem?_eq_none hge]
      simp
  exact hmain.trans ((List.drop_sublist _ _).filterMap f)

/-- A stack without speculative entries whose straight-line stretches are all plausible and whose
top entry is not duplicated over a long back edge. -/
def Clean (limit : Nat) (st : List Entry) : Prop :=
  (∀ e ∈ st, e.wrong = false ∧ e.dstOk = true ∧ e.srcOk = true) ∧
  (∀ i a b, st[i + 1]? = some a → st[i]? = some b → a.dst ≤ b.src ∧ b.src - a.dst ≤ 2 ^ 20) ∧
  dupTop limit st 1 = false

theorem startIndex_clean (st : List Entry) (h : ∀ e ∈ st, e.wrong = false) : startIndex st = 0 := by
  cases st with
  | nil => rfl
  | cons a t => simp [startIndex, h a List.mem_cons_self]

theorem incs_clean_aux (f : Nat → Option Inc) (st : List Entry) (k : Nat) (hk : k + 1 ≤ st.length)
    (hf : ∀ i a b, st[i + 1]? = some a → st[i]? = some b →
      f (i + 1) = some ⟨toLex (a.dst, b.src), some (toLex (a.src, a.dst))⟩) :
    (List.range' (k + 1) (st.length - (k + 1))).filterMap f =
      (List.zip (st.drop (k + 1)) (st.drop k)).map
        (fun p => (⟨toLex (p.1.dst, p.2.src), some (toLex (p.1.src, p.1.dst))⟩ : Inc)) := by
  generalize hn : st.length - (k + 1) = n
  induction n generalizing k with
  | zero =>
    have : st.drop (k + 1) = [] := List.drop_eq_nil_of_le (by omega)
    simp [this]
  | succ n ih =>
    have h1 : k + 1 < st.length := by omega
    have h0 : k < st.length := by omega
    rw [List.range'_succ, List.filterMap_cons,
      hf k st[k + 1] st[k] (by simp [h1]) (by simp [h0])]
    have := ih (k + 1) (by omega) (by omega)
    rw [List.drop_eq_getElem_cons h1] at *
    rw [List.drop_eq_getElem_cons h0, List.zip_cons_cons, List.map_cons]
    simp only [this]
    rw [List.drop_eq_getElem_cons h1]

/-- C04 (completeness): for a clean stack every entry is counted exactly once as a branch and
every consecutive pair of entries exactly once as the range from the older branch's target to the
newer branch's source. -/
theorem clean_stack_exact_partial (limit : Nat) (e : Event) (h : Clean limit e.stack) :
    eventBranches limit e = e.stack.map (fun x => toLex (x.src, x.dst)) ∧
    eventRanges limit e =
      (List.zip (e.stack.drop 1) e.stack).map (fun p => toLex (p.1.dst, p.2.src)) := by
  obtain ⟨ad, st⟩ := e
  obtain ⟨h1, h2, h3⟩ := h
  dsimp only at h1 h2 h3
  have hs : startIndex st = 0 := startIndex_clean st (fun e he => (h1 e he).1)
  cases hst : st with
  | nil => simp [eventBranches, eventRanges, incs, firstBranch, startIndex]
  | cons x t =>
    rw [← hst]
    have hlen : 0 + 1 ≤ st.length := by rw [hst]; simp
    have hincs : incs limit st = (List.zip (st.drop 1) st).map
        (fun p => (⟨toLex (p.1.dst, p.2.src), some (toLex (p.1.src, p.1.dst))⟩ : Inc)) := by
      unfold incs
      rw [hs]
      have := incs_clean_aux (step limit st) st 0 hlen (by
        intro i a b ha hb
        have hma := h1 a (List.mem_of_getElem? ha)
        have hd : dupTop limit st (i + 1) = false := by
          by_cases hi : i = 0
          · subst hi; exact h3
          · unfold dupTop
            split
            · simp [hi]
            · rfl
        have hp := h2 i a b ha hb
        simp only [step, ha, Nat.add_sub_cancel, hb, hma.1, hma.2.1, hma.2.2, hd]
        simp
        omega)
      simpa using this
    refine ⟨?_, ?_⟩
    · unfold eventBranches firstBranch
      rw [hincs, hs, hst]
      have := h1 x (by rw [hst]; exact List.mem_cons_self)
      simp only [List.getElem?_cons_zero, this.2.1, this.2.2, Bool.and_self, if_true,
        List.drop_one, List.tail_cons, List.filterMap_map, List.map_cons, List.singleton_append]
      congr 1
      have : (Inc.branch ∘ fun p : Entry × Entry =>
          (⟨toLex (p.1.dst, p.2.src), some (toLex (p.1.src, p.1.dst))⟩ : Inc)) =
          (some ∘ ((fun e : Entry => (toLex (e.src, e.dst) : Pair)) ∘ Prod.fst)) := rfl
      rw [this, List.filterMap_eq_map, ← List.map_map, List.map_fst_zip]
      simp
    · unfold eventRanges
      rw [hincs, List.map_map]
      rfl

/-- Non-vacuity: a three-entry stack is clean; it yields three branches and two ranges. -/
def exampleStack : List Entry :=
  [⟨0x50, 0x10, true, true, false⟩, ⟨0x30, 0x40, true, true, false⟩, ⟨0x15, 0x20, true, true, false⟩]

example : Clean 0x1000 exampleStack ∧
    eventRanges 0x1000 ⟨some 0x10, exampleStack⟩ = [toLex (0x40, 0x50), toLex (0x20, 0x30)] := by
  refine ⟨⟨by decide, ?_, by decide⟩, by decide⟩
  intro i a b ha hb
  match i with
  | 0 => simp [exampleStack] at ha hb; subst ha hb; decide
  | 1 => simp [exampleStack] at ha hb; subst ha hb; decide
  | i + 2 => simp [exampleStack] at ha

/-- The full C04 claim about branches: every countable stack entry is counted. -/
def BranchesExactClaim : Prop :=
  ∀ limit e, eventBranches limit e = countable e.stack

/-- C04 violated (branches): a countable entry is *not* counted when the stretch after it looks
bogus (the `continue` at sample_reader.cc:350 also skips the branch count of line 353). -/
theorem branches_exact_violated : ¬ BranchesExactClaim := by
  intro h
  have := h 0x1000 ⟨none, [⟨0x10, 0x50, true, true, false⟩, ⟨0x30, 0x40, true, true, false⟩]⟩
  revert this
  decide

/-- The full C04 claim about ranges: a range ends at the source of the next branch that was really
executed, i.e. the newer end of the range is not on a speculative wrong path. -/
def RangeEndsRealClaim : Prop :=
  ∀ limit e r, r ∈ eventRanges limit e →
    ∃ b ∈ e.stack, b.wrong = false ∧ (ofLex r).2 = b.src

/-- C04 violated (ranges): `branch_stack[i - 1].from` (sample_reader.cc:343) is used even when entry
`i-1` was on the wrong path, so a range may end at a branch that never executed. -/
theorem range_ends_real_violated : ¬ RangeEndsRealClaim := by
  intro h
  have := h 0x1000 ⟨none, [⟨0x90, 0x10, true, true, false⟩, ⟨0x50, 0x80, true, true, true⟩,
    ⟨0x30, 0x40, true, true, false⟩]⟩ (toLex (0x40, 0x50)) (by decide)
  revert this
  decide

end Verif.Lbr

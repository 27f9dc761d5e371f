import Verif.OMap
import Mathlib.Data.List.Basic

/-! # C60: choosing among contradictory subprograms (util/symbolize/addr2line_inlinestack.cc)

`FindBadSubprograms`.  Subprograms are identified by their position in `subprogram_insert_order_`
(pointers in the code); sets of subprograms are lists used through membership only. -/
namespace Verif.Inline
open Verif

/-- An address range: low end, high end (exclusive). -/
abbrev Range := Nat × Nat

/-- `SubprogramInfo` (addr2line_inlinestack.h:43-145).  `parent` is a position in the insert order. -/
structure Sub where
  inlined : Bool
  parent : Option Nat
  ranges : List Range
  offset : Nat := 0
  fileIndex : Nat := 0
  name : List Nat := []
  compDir : Option (List Nat) := none
  callDir : Option (List Nat) := none
  callFile : Option (List Nat) := none
  callLine : Nat := 0
  callDiscr : Nat := 0
  origin : Nat := 0
  spec : Nat := 0
deriving DecidableEq, Repr

/-- `SubprogramContains` (addr2line_inlinestack.cc:26-44). -/
def contains (a b : List Range) : Bool :=
  b.all fun r => a.any fun q => decide (q.1 ≤ r.1) && decide (r.2 ≤ q.2)

/-- Ranges of the subprogram at a position. -/
def rangesAt (o : List Sub) (i : Nat) : List Range := (o[i]?.map Sub.ranges).getD []

/-- Rule (1) (addr2line_inlinestack.cc:530-538). -/
def rule1 (vaddr : Nat) (o : List Sub) : List Nat :=
  (o.zipIdx.filter fun x => x.1.ranges.any fun r => decide (r.1 < vaddr)).map Prod.snd

/-- Non-inlined and not bad so far. -/
def candidate (bad : List Nat) (x : Sub × Nat) : Bool := !x.1.inlined && !bad.contains x.2

/-- `start_addresses` (addr2line_inlinestack.cc:540-554), a `std::set`. -/
def startSet (o : List Sub) (bad : List Nat) : OMap Nat Unit :=
  (o.zipIdx.filter (candidate bad)).foldl
    (fun s x => x.1.ranges.foldl (fun s r => OMap.set r.1 () s) s) []

/-- Whether a start address lies strictly inside a range (addr2line_inlinestack.cc:569-586). -/
def startInside (starts : OMap Nat Unit) (r : Range) : Bool :=
  let it := starts.dropWhile fun e => decide (e.1 < r.1)
  let it := match it with
    | [] => []
    | x :: xs => if x.1 = r.1 then xs else x :: xs
  match it with
  | [] => false
  | x :: _ => decide (x.1 < r.2)

/-- Rule (2) (addr2line_inlinestack.cc:556-587). -/
def rule2 (o : List Sub) (bad : List Nat) : List Nat :=
  bad ++ (o.zipIdx.filter fun x =>
    candidate bad x && x.1.ranges.any fun r => startInside (startSet o bad) r).map Prod.snd

/-- State of the loop of rule (3): the bad subprograms and `subprogram_index`, as its pairs of a start address
and a subprogram. -/
structure R3 where
  bad : List Nat
  index : List (Nat × Nat)

/-- The subprograms in the index at the start addresses of a subprogram. -/
def R3.others (st : R3) (s : Sub) : List Nat :=
  s.ranges.flatMap fun r => (st.index.filter fun p => decide (p.1 = r.1)).map Prod.snd

/-- One turn of the loop of rule (3) (addr2line_inlinestack.cc:591-633).  The inner loops of the code stop early
when they find a subprogram that contains this one, which makes no difference. -/
def rule3Step (o : List Sub) (st : R3) (x : Sub × Nat) : R3 :=
  if x.1.inlined || x.1.ranges.isEmpty || st.bad.contains x.2 then st
  else
    let others := st.others x.1
    if others.any fun j => contains (rangesAt o j) x.1.ranges then { st with bad := st.bad ++ [x.2] }
    else
      { bad := st.bad ++ others
        index := (st.index.filter fun p =>
            !(others.any fun j => decide (j = p.2) && (rangesAt o j).any fun r => decide (r.1 = p.1))) ++
          x.1.ranges.map fun r => (r.1, x.2) }

/-- Rule (3) (addr2line_inlinestack.cc:589-633). -/
def rule3 (o : List Sub) (bad : List Nat) : List Nat :=
  (o.zipIdx.foldl (rule3Step o) { bad := bad, index := [] }).bad

/-- The last scan, backwards (addr2line_inlinestack.cc:637-654). -/
def expand (o : List Sub) (bad : List Nat) : List Nat :=
  o.zipIdx.reverse.foldl (fun bad x =>
    match x.1.parent with
    | none => bad
    | some p => if bad.contains p || !contains (rangesAt o p) x.1.ranges then x.2 :: bad else bad) bad

/-- `FindBadSubprograms` (addr2line_inlinestack.cc:502-655). -/
def findBad (vaddr : Nat) (o : List Sub) : List Nat := expand o (rule3 o (rule2 o (rule1 vaddr o)))

/-! ## Specification -/

/-- The subprogram covers the address. -/
def Sub.Has (s : Sub) (a : Nat) : Prop := ∃ r ∈ s.ranges, r.1 ≤ a ∧ a < r.2

/-- The subprogram at position `i` is `s` and it is used for lookups. -/
def Kept (vaddr : Nat) (o : List Sub) (i : Nat) (s : Sub) : Prop := o[i]? = some s ∧ i ∉ findBad vaddr o

/-- Every range of `b` lies within a range of `a`. -/
def Within (b a : List Range) : Prop := ∀ r ∈ b, ∃ q ∈ a, q.1 ≤ r.1 ∧ r.2 ≤ q.2

/-! ## Proof -/

theorem contains_iff (a b : List Range) : contains a b = true ↔ Within b a := by
  simp [contains, Within]

theorem mem_zipIdx {o : List Sub} {x : Sub × Nat} : x ∈ o.zipIdx ↔ o[x.2]? = some x.1 := by
  rw [List.mem_zipIdx_iff_getElem?]

theorem mem_rule1 {vaddr : Nat} {o : List Sub} {i : Nat} :
    i ∈ rule1 vaddr o ↔ ∃ s, o[i]? = some s ∧ ∃ r ∈ s.ranges, r.1 < vaddr := by
  unfold rule1
  simp only [List.mem_map, List.mem_filter, mem_zipIdx, List.any_eq_true, decide_eq_true_eq]
  constructor
  · rintro ⟨⟨s, j⟩, ⟨h1, h2⟩, rfl⟩
    exact ⟨s, h1, h2⟩
  · rintro ⟨s, h1, h2⟩
    exact ⟨(s, i), ⟨h1, h2⟩, rfl⟩

theorem candidate_iff {bad : List Nat} {x : Sub × Nat} :
    candidate bad x = true ↔ x.1.inlined = false ∧ x.2 ∉ bad := by
  simp [candidate]

/-- The start addresses of candidates. -/
theorem mem_startSet {o : List Sub} {bad : List Nat} : OMap.Sorted (startSet o bad) ∧ ∀ k,
    (OMap.find? (startSet o bad) k).isSome = true ↔
      ∃ i s, o[i]? = some s ∧ s.inlined = false ∧ i ∉ bad ∧ ∃ r ∈ s.ranges, r.1 = k := by
  have inner : ∀ (l : List Range) (s : OMap Nat Unit), OMap.Sorted s →
      OMap.Sorted (l.foldl (fun s r => OMap.set r.1 () s) s) ∧ ∀ k,
        (OMap.find? (l.foldl (fun s r => OMap.set r.1 () s) s) k).isSome = true ↔
          (OMap.find? s k).isSome = true ∨ ∃ r ∈ l, r.1 = k := by
    intro l
    induction l with
    | nil => intro s hs; exact ⟨hs, fun k => by simp⟩
    | cons r l ih =>
      intro s hs
      have h := ih (OMap.set r.1 () s) (OMap.Sorted.upsert hs _ _)
      refine ⟨h.1, fun k => ?_⟩
      rw [List.foldl_cons, h.2 k, OMap.set, OMap.find?_upsert hs]
      by_cases hk : k = r.1
      · simp [hk]
      · have : ¬ r.1 = k := fun e => hk e.symm
        simp [hk, this]
  have outer : ∀ (l : List (Sub × Nat)) (s : OMap Nat Unit), OMap.Sorted s →
      OMap.Sorted (l.foldl (fun s x => x.1.ranges.foldl (fun s r => OMap.set r.1 () s) s) s) ∧ ∀ k,
        (OMap.find? (l.foldl (fun s x => x.1.ranges.foldl (fun s r => OMap.set r.1 () s) s) s) k).isSome = true ↔
          (OMap.find? s k).isSome = true ∨ ∃ x ∈ l, ∃ r ∈ x.1.ranges, r.1 = k := by
    intro l
    induction l with
    | nil => intro s hs; exact ⟨hs, fun k => by simp⟩
    | cons x l ih =>
      intro s hs
      have h0 := inner x.1.ranges s hs
      have h := ih _ h0.1
      refine ⟨h.1, fun k => ?_⟩
      rw [List.foldl_cons, h.2 k, h0.2 k]
      simp only [List.mem_cons, exists_eq_or_imp]
      exact or_assoc
  have h := outer (o.zipIdx.filter (candidate bad)) [] OMap.sorted_nil
  refine ⟨h.1, fun k => ?_⟩
  unfold startSet
  rw [h.2 k]
  simp only [List.mem_filter, mem_zipIdx, candidate_iff]
  constructor
  · rintro (h | ⟨⟨s, i⟩, ⟨h1, h2, h3⟩, h4⟩)
    · simp [OMap.find?] at h
    · exact ⟨i, s, h1, h2, h3, h4⟩
  · rintro ⟨i, s, h1, h2, h3, h4⟩
    exact Or.inr ⟨(s, i), ⟨h1, h2, h3⟩, h4⟩

/-- The search finds a start address strictly inside the range if there is one. -/
theorem startInside_iff {m : OMap Nat Unit} (hm : OMap.Sorted m) (r : Range) :
    startInside m r = true ↔ ∃ k, (OMap.find? m k).isSome = true ∧ r.1 < k ∧ k < r.2 := by
  have key : ∀ k, (OMap.find? m k).isSome = true ↔ ∃ e ∈ m, e.1 = k := by
    intro k
    constructor
    · intro h
      obtain ⟨v, hv⟩ := Option.isSome_iff_exists.1 h
      exact ⟨_, OMap.mem_of_find?_some hv, rfl⟩
    · rintro ⟨e, he, rfl⟩
      rw [OMap.find?_some_of_mem hm (k := e.1) (v := e.2) he]
      rfl
  simp only [key]
  have general : ∀ (l : OMap Nat Unit), OMap.Sorted l →
      (startInside l r = true ↔ ∃ k, (∃ e ∈ l, e.1 = k) ∧ r.1 < k ∧ k < r.2) := by
    intro l
    induction l with
    | nil => intro _; simp [startInside]
    | cons x l ih =>
      intro hl
      obtain ⟨hx, hl'⟩ := List.pairwise_cons.1 hl
      by_cases h1 : x.1 < r.1
      · have e1 : startInside (x :: l) r = startInside l r := by
          unfold startInside
          rw [List.dropWhile_cons_of_pos (by simpa using h1)]
        rw [e1, ih hl']
        constructor
        · rintro ⟨k, ⟨e, he, hk⟩, h2, h3⟩
          exact ⟨k, ⟨e, List.mem_cons_of_mem _ he, hk⟩, h2, h3⟩
        · rintro ⟨k, ⟨e, he, hk⟩, h2, h3⟩
          rcases List.mem_cons.1 he with rfl | he
          · omega
          · exact ⟨k, ⟨e, he, hk⟩, h2, h3⟩
      · by_cases h2 : x.1 = r.1
        · cases l with
          | nil =>
            have e1 : startInside [x] r = false := by
              unfold startInside
              rw [List.dropWhile_cons_of_neg (by simpa using h1)]
              simp only [h2, if_true]
            rw [e1]
            simp only [Bool.false_eq_true, List.mem_singleton, false_iff, not_exists]
            rintro k ⟨⟨e, rfl, hk⟩, h3, _⟩
            omega
          | cons y l =>
            have e1 : startInside (x :: y :: l) r = decide (y.1 < r.2) := by
              unfold startInside
              rw [List.dropWhile_cons_of_neg (by simpa using h1)]
              simp only [h2, if_true]
            rw [e1]
            have hy := hx y List.mem_cons_self
            simp only [decide_eq_true_eq]
            constructor
            · intro h; exact ⟨y.1, ⟨y, by simp, rfl⟩, by omega, h⟩
            · rintro ⟨k, ⟨e, he, hk⟩, h3, h4⟩
              rcases List.mem_cons.1 he with rfl | he
              · omega
              · rcases List.mem_cons.1 he with rfl | he
                · omega
                · have := (List.pairwise_cons.1 hl').1 e he
                  omega
        · have e1 : startInside (x :: l) r = decide (x.1 < r.2) := by
            unfold startInside
            rw [List.dropWhile_cons_of_neg (by simpa using h1)]
            simp only [h2, if_false]
          rw [e1, decide_eq_true_eq]
          constructor
          · intro h; exact ⟨x.1, ⟨x, by simp, rfl⟩, by omega, h⟩
          · rintro ⟨k, ⟨e, he, hk⟩, h3, h4⟩
            rcases List.mem_cons.1 he with rfl | he
            · omega
            · have := hx e he
              omega
  exact general m hm

/-- Rule (2), exactly. -/
theorem mem_rule2 {o : List Sub} {bad : List Nat} {i : Nat} :
    i ∈ rule2 o bad ↔ i ∈ bad ∨ ∃ s, o[i]? = some s ∧ s.inlined = false ∧ ∃ r ∈ s.ranges, ∃ j t, o[j]? = some t ∧
      t.inlined = false ∧ j ∉ bad ∧ ∃ q ∈ t.ranges, r.1 < q.1 ∧ q.1 < r.2 := by
  unfold rule2
  have hs := mem_startSet (o := o) (bad := bad)
  simp only [List.mem_append, List.mem_map, List.mem_filter, mem_zipIdx, Bool.and_eq_true, candidate_iff,
    List.any_eq_true, startInside_iff hs.1, hs.2]
  constructor
  · rintro (h | ⟨⟨s, i'⟩, ⟨h1, ⟨h2, h3⟩, r, hr, k, ⟨j, t, h4, h5, h6, q, hq, rfl⟩, h7, h8⟩, rfl⟩)
    · exact Or.inl h
    · exact Or.inr ⟨s, h1, h2, r, hr, j, t, h4, h5, h6, q, hq, h7, h8⟩
  · rintro (h | ⟨s, h1, h2, r, hr, j, t, h4, h5, h6, q, hq, h7, h8⟩)
    · exact Or.inl h
    · by_cases h3 : i ∈ bad
      · exact Or.inl h3
      · exact Or.inr ⟨(s, i), ⟨h1, ⟨h2, h3⟩, r, hr, q.1, ⟨j, t, h4, h5, h6, q, hq, rfl⟩, h7, h8⟩, rfl⟩

/-- What holds during the loop of rule (3), after the positions below `n`: the index has exactly the start
addresses of the non-inlined subprograms not bad so far, and no two of them share a start address. -/
structure Inv3 (o : List Sub) (n : Nat) (bad0 : List Nat) (st : R3) : Prop where
  mono : ∀ i ∈ bad0, i ∈ st.bad
  index : ∀ k i, (k, i) ∈ st.index ↔ i < n ∧ i ∉ st.bad ∧ ∃ s, o[i]? = some s ∧ s.inlined = false ∧
    ∃ r ∈ s.ranges, r.1 = k
  uniq : ∀ k i j, (k, i) ∈ st.index → (k, j) ∈ st.index → i = j
  later : ∀ i, n ≤ i → (i ∈ st.bad ↔ i ∈ bad0)

theorem mem_others {st : R3} {s : Sub} {j : Nat} : j ∈ st.others s ↔ ∃ r ∈ s.ranges, (r.1, j) ∈ st.index := by
  unfold R3.others
  simp only [List.mem_flatMap, List.mem_map, List.mem_filter, decide_eq_true_eq]
  constructor
  · rintro ⟨r, hr, ⟨k, j'⟩, ⟨h1, h2⟩, rfl⟩
    simp only at h2
    subst h2
    exact ⟨r, hr, h1⟩
  · rintro ⟨r, hr, h⟩
    exact ⟨r, hr, (r.1, j), ⟨h, rfl⟩, rfl⟩

theorem inv3_step {o : List Sub} {bad0 : List Nat} {n : Nat} {s : Sub} (hs : o[n]? = some s) {st : R3}
    (h : Inv3 o n bad0 st) : Inv3 o (n + 1) bad0 (rule3Step o st (s, n)) := by
  have hlt : ∀ k i, (k, i) ∈ st.index → i < n := fun k i hi => ((h.index k i).1 hi).1
  unfold rule3Step
  by_cases hc : (s.inlined || s.ranges.isEmpty || st.bad.contains n) = true
  · simp only [if_pos hc]
    refine { h with index := ?_, later := fun i hi => h.later i (by omega) }
    intro k i
    rw [h.index k i]
    constructor
    · rintro ⟨h1, h2⟩; exact ⟨by omega, h2⟩
    · rintro ⟨h1, h2, t, h3, h4, r, hr, hk⟩
      refine ⟨?_, h2, t, h3, h4, r, hr, hk⟩
      by_contra hcon
      have : i = n := by omega
      subst this
      rw [hs] at h3
      cases h3
      simp only [h4, Bool.false_or, Bool.or_eq_true, List.isEmpty_iff, List.contains_iff_mem] at hc
      rcases hc with hc | hc
      · rw [hc] at hr; cases hr
      · exact h2 hc
  · simp only [if_neg hc]
    simp only [Bool.or_eq_true, not_or, Bool.not_eq_true, List.contains_eq_mem, decide_eq_false_iff_not] at hc
    obtain ⟨⟨hinl, hne⟩, hnb⟩ := hc
    split
    · -- dropped
      refine { mono := fun i hi => List.mem_append_left _ (h.mono i hi), index := ?_, uniq := h.uniq, later := ?_ }
      · intro k i
        rw [h.index k i]
        simp only [List.mem_append, List.mem_singleton, not_or]
        constructor
        · rintro ⟨h1, h2, h3⟩; exact ⟨by omega, ⟨h2, by omega⟩, h3⟩
        · rintro ⟨h1, ⟨h2, h2'⟩, h3⟩; exact ⟨by omega, h2, h3⟩
      · intro i hi
        simp only [List.mem_append, List.mem_singleton]
        rw [h.later i (by omega)]
        constructor
        · rintro (h | h)
          · exact h
          · omega
        · exact Or.inl
    · -- kept
      have hidx : ∀ k i, (k, i) ∈ ((st.index.filter fun p => !((st.others s).any fun j => decide (j = p.2) &&
            (rangesAt o j).any fun r => decide (r.1 = p.1))) ++ s.ranges.map fun r => (r.1, n)) ↔
          ((k, i) ∈ st.index ∧ i ∉ st.others s) ∨ (i = n ∧ ∃ r ∈ s.ranges, r.1 = k) := by
        intro k i
        simp only [List.mem_append, List.mem_filter, List.mem_map, Prod.mk.injEq, Bool.not_eq_true',
          List.any_eq_false, Bool.and_eq_true, decide_eq_true_eq, List.any_eq_true, not_and, not_exists]
        constructor
        · rintro (⟨h1, h2⟩ | ⟨r, hr, hk, hn⟩)
          · refine Or.inl ⟨h1, fun hi => ?_⟩
            obtain ⟨_, _, t, ht, _, r, hr, hk⟩ := (h.index k i).1 h1
            exact h2 i hi rfl r (by simpa [rangesAt, ht] using hr) hk
          · exact Or.inr ⟨hn.symm, r, hr, hk⟩
        · rintro (⟨h1, h2⟩ | ⟨rfl, r, hr, hk⟩)
          · refine Or.inl ⟨h1, ?_⟩
            intro j hj hji
            subst hji
            exact absurd hj h2
          · exact Or.inr ⟨r, hr, hk, rfl⟩
      refine { mono := fun i hi => List.mem_append_left _ (h.mono i hi), index := ?_, uniq := ?_, later := ?_ }
      · intro k i
        rw [hidx, h.index k i]
        simp only [List.mem_append, not_or]
        constructor
        · rintro (⟨⟨h1, h2, h3⟩, h4⟩ | ⟨rfl, r, hr, hk⟩)
          · exact ⟨by omega, ⟨h2, h4⟩, h3⟩
          · refine ⟨by omega, ⟨hnb, ?_⟩, s, hs, hinl, r, hr, hk⟩
            intro hi
            obtain ⟨r', _, hr'⟩ := mem_others.1 hi
            have := hlt _ _ hr'
            omega
        · rintro ⟨h1, ⟨h2, h4⟩, t, h5, h6, r, hr, hk⟩
          by_cases hin : i = n
          · subst hin
            rw [hs] at h5
            cases h5
            exact Or.inr ⟨rfl, r, hr, hk⟩
          · exact Or.inl ⟨⟨by omega, h2, t, h5, h6, r, hr, hk⟩, h4⟩
      · intro k i j hi hj
        rw [hidx] at hi hj
        rcases hi with ⟨hi, hio⟩ | ⟨rfl, r, hr, hk⟩ <;> rcases hj with ⟨hj, hjo⟩ | ⟨rfl, r', hr', hk'⟩
        · exact h.uniq k i j hi hj
        · subst hk'
          exact absurd (mem_others.2 ⟨r', hr', hi⟩) hio
        · subst hk
          exact absurd (mem_others.2 ⟨r, hr, hj⟩) hjo
        · rfl
      · intro i hi
        simp only [List.mem_append]
        rw [h.later i (by omega)]
        constructor
        · rintro (h1 | h1)
          · exact h1
          · obtain ⟨r', _, hr'⟩ := mem_others.1 h1
            have := hlt _ _ hr'
            omega
        · exact Or.inl

theorem inv3_fold (o : List Sub) (bad0 : List Nat) : ∀ (l : List Sub) (n : Nat) (st : R3), o.drop n = l →
    Inv3 o n bad0 st → Inv3 o (n + l.length) bad0 ((l.zipIdx n).foldl (rule3Step o) st) := by
  intro l
  induction l with
  | nil => intro n st _ h; simpa using h
  | cons s l ih =>
    intro n st hd h
    have hs : o[n]? = some s := by
      have := List.getElem?_drop (xs := o) (i := n) (j := 0)
      rw [hd] at this
      simpa using this.symm
    have hd' : o.drop (n + 1) = l := by
      have := List.drop_drop (i := 1) (j := n) (l := o)
      rw [hd] at this
      simpa using this.symm
    rw [List.zipIdx_cons, List.foldl_cons, List.length_cons]
    have := ih (n + 1) _ hd' (inv3_step hs h)
    rw [show n + (l.length + 1) = n + 1 + l.length by omega]
    exact this

theorem rule3_inv (o : List Sub) (bad : List Nat) :
    Inv3 o o.length bad (o.zipIdx.foldl (rule3Step o) { bad := bad, index := [] }) := by
  have := inv3_fold o bad o 0 { bad := bad, index := [] } (by simp)
    { mono := fun i hi => hi, index := by simp, uniq := by simp, later := fun i _ => Iff.rfl }
  simpa using this

theorem expand_mono (o : List Sub) (bad : List Nat) : ∀ i ∈ bad, i ∈ expand o bad := by
  unfold expand
  generalize o.zipIdx.reverse = l
  induction l generalizing bad with
  | nil => intro i hi; exact hi
  | cons x l ih =>
    intro i hi
    rw [List.foldl_cons]
    apply ih
    split
    · exact hi
    · split
      · exact List.mem_cons_of_mem _ hi
      · exact hi

theorem kept_not_bad {vaddr : Nat} {o : List Sub} {i : Nat} (h : i ∉ findBad vaddr o) :
    i ∉ rule1 vaddr o ∧ i ∉ rule2 o (rule1 vaddr o) ∧ i ∉ rule3 o (rule2 o (rule1 vaddr o)) := by
  have h3 : i ∉ rule3 o (rule2 o (rule1 vaddr o)) := fun hi => h (expand_mono _ _ i hi)
  have h2 : i ∉ rule2 o (rule1 vaddr o) := fun hi => h3 ((rule3_inv o _).mono i hi)
  exact ⟨fun hi => h2 (mem_rule2.2 (Or.inl hi)), h2, h3⟩

/-- **C60, disjointness** (any debug information): no address belongs to two different non-inlined subprograms
that are kept. -/
theorem kept_disjoint (vaddr : Nat) (o : List Sub) (i j : Nat) (s t : Sub) (hi : Kept vaddr o i s)
    (hj : Kept vaddr o j t) (hs : s.inlined = false) (ht : t.inlined = false) (a : Nat) (ha : s.Has a)
    (hb : t.Has a) : i = j := by
  obtain ⟨r, hr, h1, h2⟩ := ha
  obtain ⟨q, hq, h3, h4⟩ := hb
  obtain ⟨i1, i2, i3⟩ := kept_not_bad hi.2
  obtain ⟨j1, j2, j3⟩ := kept_not_bad hj.2
  have hrq : r.1 = q.1 := by
    rcases Nat.lt_trichotomy r.1 q.1 with h | h | h
    · exact absurd (mem_rule2.2 (Or.inr ⟨s, hi.1, hs, r, hr, j, t, hj.1, ht, j1, q, hq, h, by omega⟩)) i2
    · exact h
    · exact absurd (mem_rule2.2 (Or.inr ⟨t, hj.1, ht, q, hq, i, s, hi.1, hs, i1, r, hr, h, by omega⟩)) j2
  have hinv := rule3_inv o (rule2 o (rule1 vaddr o))
  have b1 : i < o.length := (List.getElem?_eq_some_iff.1 hi.1).1
  have b2 : j < o.length := (List.getElem?_eq_some_iff.1 hj.1).1
  exact hinv.uniq r.1 i j ((hinv.index r.1 i).2 ⟨b1, i3, s, hi.1, hs, r, hr, rfl⟩)
    ((hinv.index r.1 j).2 ⟨b2, j3, t, hj.1, ht, q, hq, hrq.symm⟩)

/-- Parents come after their children in the insert order. -/
def ParentsLater (o : List Sub) : Prop := ∀ i s p, o[i]? = some s → s.parent = some p → i < p ∧ p < o.length

/-- The backward scan, exactly: what is bad afterwards. -/
theorem expand_spec (o : List Sub) (hp : ParentsLater o) (bad : List Nat) (i : Nat) :
    i ∈ expand o bad ↔ i ∈ bad ∨ ∃ s p, o[i]? = some s ∧ s.parent = some p ∧
      (p ∈ expand o bad ∨ ¬ Within s.ranges (rangesAt o p)) := by
  -- the state after scanning the positions from `n` on
  let step : List Nat → Sub × Nat → List Nat := fun bad x =>
    match x.1.parent with
    | none => bad
    | some p => if bad.contains p || !contains (rangesAt o p) x.1.ranges then x.2 :: bad else bad
  have gen : ∀ (l : List Sub) (n : Nat), o.drop n = l →
      ∀ r, (l.zipIdx n).reverse.foldl step bad = r → ∀ i, i ∈ r ↔ i ∈ bad ∨ (n ≤ i ∧ ∃ s p, o[i]? = some s ∧ s.parent = some p ∧
        (p ∈ r ∨ ¬ Within s.ranges (rangesAt o p))) := by
    intro l
    induction l with
    | nil =>
      intro n hd r hr i
      subst hr
      have hlen : o.length ≤ n := by
        have := congrArg List.length hd
        simp at this
        omega
      simp only [List.zipIdx_nil, List.reverse_nil, List.foldl_nil]
      constructor
      · exact Or.inl
      · rintro (h | ⟨h1, s, p, h2, _⟩)
        · exact h
        · have := (List.getElem?_eq_some_iff.1 h2).1
          omega
    | cons s l ih =>
      intro n hd r' hr'
      have hs : o[n]? = some s := by
        have := List.getElem?_drop (xs := o) (i := n) (j := 0)
        rw [hd] at this
        simpa using this.symm
      have hd' : o.drop (n + 1) = l := by
        have := List.drop_drop (i := 1) (j := n) (l := o)
        rw [hd] at this
        simpa using this.symm
      have ih' := ih (n + 1) hd' _ rfl
      rw [List.zipIdx_cons, List.reverse_cons, List.foldl_append, List.foldl_cons, List.foldl_nil] at hr'
      generalize hr : (l.zipIdx (n + 1)).reverse.foldl step bad = r at ih' hr'
      subst hr'
      -- positions above `n` are not touched any more
      have habove : ∀ p, n < p → (p ∈ step r (s, n) ↔ p ∈ r) := by
        intro p hnp
        simp only [step]
        split
        · rfl
        · split
          · simp only [List.mem_cons]
            constructor
            · rintro (h | h)
              · omega
              · exact h
            · exact Or.inr
          · rfl
      intro i
      by_cases hin : i = n
      · subst hin
        -- the position itself
        have hri : i ∈ r ↔ i ∈ bad := by
          rw [ih' i]
          constructor
          · rintro (h | ⟨h, _⟩)
            · exact h
            · omega
          · exact Or.inl
        cases hpar : s.parent with
        | none =>
          simp only [step, hpar]
          rw [hri]
          constructor
          · exact Or.inl
          · rintro (h | ⟨_, s', p, h1, h2, _⟩)
            · exact h
            · rw [hs] at h1
              cases h1
              rw [hpar] at h2
              cases h2
        | some p =>
          have hlt := (hp i s p hs hpar).1
          have hap := habove p hlt
          have : i ∈ step r (s, i) ↔ i ∈ r ∨ (p ∈ r ∨ ¬ Within s.ranges (rangesAt o p)) := by
            simp only [step, hpar]
            split
            · rename_i hc
              simp only [Bool.or_eq_true, List.contains_iff_mem, Bool.not_eq_true', ← Bool.not_eq_true,
                contains_iff] at hc
              simp only [List.mem_cons, true_or, true_iff]
              exact Or.inr hc
            · rename_i hc
              simp only [Bool.or_eq_true, List.contains_iff_mem, Bool.not_eq_true', ← Bool.not_eq_true,
                contains_iff] at hc
              constructor
              · exact Or.inl
              · rintro (h | h)
                · exact h
                · exact absurd h hc
          rw [this, hri]
          constructor
          · rintro (h | h)
            · exact Or.inl h
            · exact Or.inr ⟨Nat.le_refl _, s, p, hs, hpar, by rw [hap]; exact h⟩
          · rintro (h | ⟨_, s', p', h1, h2, h3⟩)
            · exact Or.inl h
            · rw [hs] at h1
              cases h1
              rw [hpar] at h2
              cases h2
              rw [hap] at h3
              exact Or.inr h3
      · have hne : i ∈ step r (s, n) ↔ i ∈ r := by
          simp only [step]
          split
          · rfl
          · split
            · simp only [List.mem_cons, hin, false_or]
            · rfl
        rw [hne, ih' i]
        constructor
        · rintro (h | ⟨h0, s', p, h1, h2, h3⟩)
          · exact Or.inl h
          · refine Or.inr ⟨by omega, s', p, h1, h2, ?_⟩
            have := (hp i s' p h1 h2).1
            rw [habove p (by omega)]
            exact h3
        · rintro (h | ⟨h0, s', p, h1, h2, h3⟩)
          · exact Or.inl h
          · refine Or.inr ⟨by omega, s', p, h1, h2, ?_⟩
            have := (hp i s' p h1 h2).1
            rw [habove p (by omega)] at h3
            exact h3
  have h := gen o 0 (by simp) (expand o bad) rfl i
  simp only [Nat.zero_le, true_and] at h
  exact h

/-- **C60, nesting** (any debug information in which parents follow their children): if a subprogram is kept, so
is the one it is nested in, and it lies within it. -/
theorem kept_parent (vaddr : Nat) (o : List Sub) (hp : ParentsLater o) (i p : Nat) (s : Sub)
    (hi : Kept vaddr o i s) (hs : s.parent = some p) :
    ∃ t, Kept vaddr o p t ∧ Within s.ranges t.ranges := by
  have hn := hi.2
  unfold findBad at hn
  rw [expand_spec o hp] at hn
  simp only [not_or, not_exists, not_and, not_not] at hn
  have h := hn.2 s p hi.1 hs
  have hlt := (hp i s p hi.1 hs).2
  refine ⟨o[p], ⟨List.getElem?_eq_getElem hlt, h.1⟩, ?_⟩
  have := h.2
  simpa [rangesAt, List.getElem?_eq_getElem hlt] using this

end Verif.Inline

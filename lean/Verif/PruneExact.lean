import Verif.Prune

/-! # C60: what is dropped, exactly -/
namespace Verif.Inline
open Verif

/-! ## Nothing to drop -/

/-- Rule (3) drops nothing if no two candidates share a start address. -/
theorem rule3_none {o : List Sub} {bad : List Nat}
    (h : ∀ i j s t, o[i]? = some s → o[j]? = some t → s.inlined = false → t.inlined = false → i ∉ bad → j ∉ bad →
      ∀ r ∈ s.ranges, ∀ q ∈ t.ranges, r.1 = q.1 → i = j) (i : Nat) :
    i ∈ rule3 o bad ↔ i ∈ bad := by
  have gen : ∀ (l : List Sub) (n : Nat) (st : R3), o.drop n = l → Inv3 o n bad st →
      (∀ i, i ∈ st.bad ↔ i ∈ bad) → ∀ i, i ∈ ((l.zipIdx n).foldl (rule3Step o) st).bad ↔ i ∈ bad := by
    intro l
    induction l with
    | nil => intro n st _ _ hb; exact hb
    | cons s l ih =>
      intro n st hd hinv hb
      have hs : o[n]? = some s := by
        have := List.getElem?_drop (xs := o) (i := n) (j := 0)
        rw [hd] at this
        simpa using this.symm
      have hd' : o.drop (n + 1) = l := by
        have := List.drop_drop (i := 1) (j := n) (l := o)
        rw [hd] at this
        simpa using this.symm
      rw [List.zipIdx_cons, List.foldl_cons]
      refine ih (n + 1) _ hd' (inv3_step hs hinv) ?_
      intro i
      unfold rule3Step
      by_cases hc : (s.inlined || s.ranges.isEmpty || st.bad.contains n) = true
      · simp only [if_pos hc]
        exact hb i
      · simp only [if_neg hc]
        simp only [Bool.or_eq_true, not_or, Bool.not_eq_true, List.contains_eq_mem, decide_eq_false_iff_not] at hc
        obtain ⟨⟨hinl, _⟩, hnb⟩ := hc
        have hno : st.others s = [] := by
          rw [List.eq_nil_iff_forall_not_mem]
          intro j hj
          obtain ⟨r, hr, hrj⟩ := mem_others.1 hj
          obtain ⟨h1, h2, t, ht, hti, q, hq, hqr⟩ := (hinv.index _ _).1 hrj
          have := h n j s t hs ht hinl hti (by rwa [← hb]) (by rwa [← hb]) r hr q hq hqr.symm
          omega
        simp only [hno, List.any_nil, Bool.false_eq_true, if_false, List.append_nil]
        exact hb i
  have := gen o 0 { bad := bad, index := [] } (by simp)
    { mono := fun i hi => hi, index := by simp, uniq := by simp, later := fun i _ => Iff.rfl } (fun i => Iff.rfl) i
  exact this

/-- Debug information without contradictions: all ranges are in the program; the ranges of the non-inlined
subprograms are not empty and do not overlap; nested subprograms are within their parents. -/
structure Clean (vaddr : Nat) (o : List Sub) : Prop where
  parents : ParentsLater o
  loaded : ∀ (i : Nat) (s : Sub), o[i]? = some s → ∀ r ∈ s.ranges, vaddr ≤ r.1
  nonempty : ∀ (i : Nat) (s : Sub), o[i]? = some s → s.inlined = false → ∀ r ∈ s.ranges, r.1 < r.2
  disjoint : ∀ (i j : Nat) (s t : Sub), o[i]? = some s → o[j]? = some t → s.inlined = false → t.inlined = false →
    ∀ r ∈ s.ranges, ∀ q ∈ t.ranges, (i = j ∧ r = q) ∨ r.2 ≤ q.1 ∨ q.2 ≤ r.1
  within : ∀ (i : Nat) (s : Sub) (p : Nat) (t : Sub), o[i]? = some s → s.parent = some p → o[p]? = some t → Within s.ranges t.ranges

/-- **C60, nothing is lost**: without contradictions, every subprogram is kept. -/
theorem clean_kept (vaddr : Nat) (o : List Sub) (h : Clean vaddr o) (i : Nat) (s : Sub) (hi : o[i]? = some s) :
    Kept vaddr o i s := by
  refine ⟨hi, ?_⟩
  have h1 : ∀ i, i ∉ rule1 vaddr o := by
    intro i hb
    obtain ⟨s, hs, r, hr, hlt⟩ := mem_rule1.1 hb
    have := h.loaded i s hs r hr
    omega
  have h2 : ∀ i, i ∉ rule2 o (rule1 vaddr o) := by
    intro i hb
    rcases mem_rule2.1 hb with hb | ⟨s, hs, hsi, r, hr, j, t, ht, hti, _, q, hq, a1, a2⟩
    · exact h1 i hb
    · have n1 := h.nonempty j t ht hti q hq
      rcases h.disjoint i j s t hs ht hsi hti r hr q hq with ⟨_, rfl⟩ | d | d <;> omega
  have h3 : ∀ i, i ∉ rule3 o (rule2 o (rule1 vaddr o)) := by
    intro i hb
    rw [rule3_none] at hb
    · exact h2 i hb
    · intro i j s t hs ht hsi hti _ _ r hr q hq hrq
      have n1 := h.nonempty i s hs hsi r hr
      have n2 := h.nonempty j t ht hti q hq
      rcases h.disjoint i j s t hs ht hsi hti r hr q hq with ⟨e, _⟩ | d | d
      · exact e
      · omega
      · omega
  have h4 : ∀ n i, o.length - i ≤ n → i ∉ findBad vaddr o := by
    intro n
    induction n with
    | zero =>
      intro i hle hb
      unfold findBad at hb
      rw [expand_spec o h.parents] at hb
      rcases hb with hb | ⟨s, p, hs, _⟩
      · exact h3 i hb
      · have := (List.getElem?_eq_some_iff.1 hs).1
        omega
    | succ n ih =>
      intro i hle hb
      have hb' := hb
      unfold findBad at hb'
      rw [expand_spec o h.parents] at hb'
      rcases hb' with hb' | ⟨s, p, hs, hp, hb'⟩
      · exact h3 i hb'
      · have hlt := h.parents i s p hs hp
        rcases hb' with hb' | hb'
        · exact ih p (by omega) hb'
        · apply hb'
          have := h.within i s p o[p] hs hp (List.getElem?_eq_getElem hlt.2)
          simpa [rangesAt, List.getElem?_eq_getElem hlt.2] using this
  exact h4 _ i (Nat.le_refl _)

/-! ## Functions of one range each -/

/-- `j` is a better description than `i` of the function at their common start address: it is longer, or as long
and came first. -/
def Better (o : List Sub) (bad : List Nat) (i j : Nat) : Prop :=
  ∃ s t r q, o[i]? = some s ∧ s.inlined = false ∧ r ∈ s.ranges ∧ o[j]? = some t ∧ t.inlined = false ∧ j ∉ bad ∧
    q ∈ t.ranges ∧ q.1 = r.1 ∧ (r.2 < q.2 ∨ (r.2 = q.2 ∧ j < i))

/-- Candidates have at most one range. -/
def Single (o : List Sub) (bad : List Nat) : Prop :=
  ∀ i s, o[i]? = some s → s.inlined = false → i ∉ bad → s.ranges.length ≤ 1

theorem single_mem {o : List Sub} {bad : List Nat} (hsg : Single o bad) {i : Nat} {s : Sub} (hs : o[i]? = some s)
    (hi : s.inlined = false) (hb : i ∉ bad) {r : Range} (hr : r ∈ s.ranges) : s.ranges = [r] := by
  have := hsg i s hs hi hb
  cases h : s.ranges with
  | nil => rw [h] at hr; cases hr
  | cons x xs =>
    rw [h] at this hr
    simp only [List.length_cons] at this
    have : xs = [] := List.length_eq_zero_iff.1 (by omega)
    subst this
    simp only [List.mem_singleton] at hr
    rw [hr]

/-- Rule (3) for functions of one range each. -/
theorem rule3_single {o : List Sub} {bad : List Nat} (hsg : Single o bad) (i : Nat) :
    i ∈ rule3 o bad ↔ i ∈ bad ∨ ∃ j, Better o bad i j := by
  have gen : ∀ (l : List Sub) (n : Nat) (st : R3), o.drop n = l → Inv3 o n bad st →
      (∀ i, i < n → (i ∈ st.bad ↔ i ∈ bad ∨ ∃ j, j < n ∧ Better o bad i j)) →
      (∀ i s, i < n → o[i]? = some s → s.inlined = false → i ∉ bad → ∀ r ∈ s.ranges, ∃ j, (r.1, j) ∈ st.index) →
      ∀ i, i < n + l.length → (i ∈ ((l.zipIdx n).foldl (rule3Step o) st).bad ↔
        i ∈ bad ∨ ∃ j, j < n + l.length ∧ Better o bad i j) := by
    intro l
    induction l with
    | nil => intro n st _ _ hb _; simpa using hb
    | cons s l ih =>
      intro n st hd hinv hb hcov
      have hs : o[n]? = some s := by
        have := List.getElem?_drop (xs := o) (i := n) (j := 0)
        rw [hd] at this
        simpa using this.symm
      have hd' : o.drop (n + 1) = l := by
        have := List.drop_drop (i := 1) (j := n) (l := o)
        rw [hd] at this
        simpa using this.symm
      rw [List.zipIdx_cons, List.foldl_cons, List.length_cons,
        show n + (l.length + 1) = n + 1 + l.length by omega]
      have hlater := hinv.later n (Nat.le_refl _)
      -- the step
      suffices hstep : (∀ i, i < n + 1 → (i ∈ (rule3Step o st (s, n)).bad ↔ i ∈ bad ∨ ∃ j, j < n + 1 ∧ Better o bad i j)) ∧
          (∀ i s', i < n + 1 → o[i]? = some s' → s'.inlined = false → i ∉ bad → ∀ r ∈ s'.ranges, ∃ j,
            (r.1, j) ∈ (rule3Step o st (s, n)).index) from
        ih (n + 1) _ hd' (inv3_step hs hinv) hstep.1 hstep.2
      by_cases hcand : s.inlined = false ∧ n ∉ bad ∧ s.ranges ≠ []
      · obtain ⟨hinl, hnb, hne⟩ := hcand
        obtain ⟨r, hr⟩ : ∃ r, r ∈ s.ranges := List.exists_mem_of_ne_nil _ hne
        have hrs := single_mem hsg hs hinl hnb hr
        have hc : ¬ (s.inlined || s.ranges.isEmpty || st.bad.contains n) = true := by
          have hnb' : n ∉ st.bad := by rwa [hlater]
          simp [hinl, hrs, hnb']
        -- what the index says about the start address of `s`
        have hidx : ∀ j, (r.1, j) ∈ st.index → j < n ∧ j ∉ st.bad ∧ j ∉ bad ∧ ∃ t q, o[j]? = some t ∧
            t.inlined = false ∧ t.ranges = [q] ∧ q.1 = r.1 := by
          intro j hj
          obtain ⟨h1, h2, t, ht, hti, q, hq, hqr⟩ := (hinv.index _ _).1 hj
          have hjb : j ∉ bad := fun hx => h2 (hinv.mono j hx)
          exact ⟨h1, h2, hjb, t, q, ht, hti, single_mem hsg ht hti hjb hq, hqr⟩
        have hoth : ∀ j, j ∈ st.others s ↔ (r.1, j) ∈ st.index := by
          intro j
          rw [mem_others, hrs]
          simp
        -- a comparison with position `n`
        have hbn : ∀ i, i < n → (Better o bad i n ↔ ∃ s' q, o[i]? = some s' ∧ s'.inlined = false ∧ q ∈ s'.ranges ∧
            q.1 = r.1 ∧ q.2 < r.2) := by
          intro i hin
          constructor
          · rintro ⟨s', t, q, r', h1, h2, h3, h4, h5, h6, h7, h8, h9⟩
            rw [hs] at h4
            cases h4
            rw [hrs] at h7
            simp only [List.mem_singleton] at h7
            subst h7
            refine ⟨s', q, h1, h2, h3, h8.symm, ?_⟩
            omega
          · rintro ⟨s', q, h1, h2, h3, h4, h5⟩
            exact ⟨s', s, q, r, h1, h2, h3, hs, hinl, hnb, hr, h4.symm, Or.inl h5⟩
        by_cases hex : ∃ j, (r.1, j) ∈ st.index
        · obtain ⟨j, hj⟩ := hex
          obtain ⟨hjn, hjb, hjb0, t, q, ht, hti, htq, hqr⟩ := hidx j hj
          have honly : ∀ j', j' ∈ st.others s → j' = j := fun j' h' =>
            hinv.uniq _ _ _ ((hoth j').1 h') hj
          have hrj : rangesAt o j = [q] := by simp [rangesAt, ht, htq]
          have hdec : (st.others s).any (fun j => contains (rangesAt o j) s.ranges) = true ↔ r.2 ≤ q.2 := by
            rw [List.any_eq_true]
            constructor
            · rintro ⟨j', h1, h2⟩
              rw [honly j' h1, contains_iff, hrj, hrs] at h2
              obtain ⟨q', hq', _, h4⟩ := h2 r (by simp)
              simp only [List.mem_singleton] at hq'
              rw [← hq']
              exact h4
            · intro h
              refine ⟨j, (hoth j).2 hj, ?_⟩
              rw [contains_iff, hrj, hrs]
              intro r' hr'
              simp only [List.mem_singleton] at hr'
              subst hr'
              exact ⟨q, by simp, by omega, h⟩
          by_cases hle : r.2 ≤ q.2
          · -- dropped
            have e1 : rule3Step o st (s, n) = { st with bad := st.bad ++ [n] } := by
              unfold rule3Step
              simp only [if_neg hc, if_pos (hdec.2 hle)]
            rw [e1]
            constructor
            · intro i hi
              simp only [List.mem_append, List.mem_singleton]
              by_cases hin : i = n
              · subst hin
                simp only [or_true, true_iff]
                exact Or.inr ⟨j, by omega, s, t, r, q, hs, hinl, hr, ht, hti, hjb0, by rw [htq]; simp, hqr, by omega⟩
              · simp only [hin, or_false]
                rw [hb i (by omega)]
                constructor
                · rintro (h | ⟨j', h1, h2⟩)
                  · exact Or.inl h
                  · exact Or.inr ⟨j', by omega, h2⟩
                · rintro (h | ⟨j', h1, h2⟩)
                  · exact Or.inl h
                  · by_cases hjn' : j' = n
                    · subst hjn'
                      obtain ⟨s', q', h3, h4, h5, h6, h7⟩ := (hbn i (by omega)).1 h2
                      exact Or.inr ⟨j, hjn, s', t, q', q, h3, h4, h5, ht, hti, hjb0, by rw [htq]; simp, by omega,
                        Or.inl (by omega)⟩
                    · exact Or.inr ⟨j', by omega, h2⟩
            · intro i s' hi hs' hi' hib r' hr'
              by_cases hin : i = n
              · subst hin
                rw [hs] at hs'
                cases hs'
                rw [hrs] at hr'
                simp only [List.mem_singleton] at hr'
                subst hr'
                exact ⟨j, hj⟩
              · exact hcov i s' (by omega) hs' hi' hib r' hr'
          · -- replaces `j`
            have hstep := inv3_step hs hinv
            have e1 : (rule3Step o st (s, n)).bad = st.bad ++ st.others s := by
              unfold rule3Step
              simp only [if_neg hc, if_neg (fun h => hle (hdec.1 h))]
            have hmemb : ∀ i, i ∈ (rule3Step o st (s, n)).bad ↔ i ∈ st.bad ∨ i = j := by
              intro i
              rw [e1, List.mem_append]
              constructor
              · rintro (h | h)
                · exact Or.inl h
                · exact Or.inr (honly i h)
              · rintro (h | rfl)
                · exact Or.inl h
                · exact Or.inr ((hoth i).2 hj)
            have hnot : n ∉ (rule3Step o st (s, n)).bad := by
              rw [hmemb, hlater]
              rintro (h | h)
              · exact hnb h
              · omega
            constructor
            · intro i hi
              rw [hmemb]
              by_cases hin : i = n
              · subst hin
                rw [hlater]
                constructor
                · rintro (h | h)
                  · exact absurd h hnb
                  · omega
                · rintro (h | ⟨j', h1, s', t', r', q', h3, h4, h5, h6, h7, h8, h9, h10, h11⟩)
                  · exact absurd h hnb
                  · exfalso
                    rw [hs] at h3
                    cases h3
                    rw [hrs] at h5
                    simp only [List.mem_singleton] at h5
                    subst h5
                    have hj'n : j' < i := by
                      by_contra hcon
                      have : j' = i := by omega
                      subst this
                      rw [hs] at h6
                      cases h6
                      rw [hrs] at h9
                      simp only [List.mem_singleton] at h9
                      subst h9
                      omega
                    apply hjb
                    rw [hb j hjn]
                    exact Or.inr ⟨j', hj'n, t, t', q, q', ht, hti, by rw [htq]; simp, h6, h7, h8, h9, by omega,
                      Or.inl (by omega)⟩
              · have hilt : i < n := by omega
                rw [hb i hilt]
                constructor
                · rintro ((h | ⟨j', h1, h2⟩) | rfl)
                  · exact Or.inl h
                  · exact Or.inr ⟨j', by omega, h2⟩
                  · exact Or.inr ⟨n, by omega, (hbn i hilt).2 ⟨t, q, ht, hti, by rw [htq]; simp, hqr, by omega⟩⟩
                · rintro (h | ⟨j', h1, h2⟩)
                  · exact Or.inl (Or.inl h)
                  · by_cases hjn' : j' = n
                    · subst hjn'
                      by_cases hib : i ∈ st.bad
                      · exact Or.inl ((hb i hilt).1 hib)
                      · obtain ⟨s', q', h3, h4, h5, h6, h7⟩ := (hbn i hilt).1 h2
                        right
                        exact hinv.uniq r.1 i j ((hinv.index _ _).2 ⟨hilt, hib, s', h3, h4, q', h5, h6⟩) hj
                    · exact Or.inl (Or.inr ⟨j', by omega, h2⟩)
            · intro i s' hi hs' hi' hib r' hr'
              by_cases hrr : r'.1 = r.1
              · rw [hrr]
                exact ⟨n, (hstep.index _ _).2 ⟨by omega, hnot, s, hs, hinl, r, hr, rfl⟩⟩
              · have hin : i ≠ n := by
                  intro e
                  subst e
                  rw [hs] at hs'
                  cases hs'
                  rw [hrs] at hr'
                  simp only [List.mem_singleton] at hr'
                  exact hrr (by rw [hr'])
                obtain ⟨j', hj'⟩ := hcov i s' (by omega) hs' hi' hib r' hr'
                refine ⟨j', (hstep.index _ _).2 ?_⟩
                obtain ⟨h1, h2, t', ht', hti', q', hq', hqr'⟩ := (hinv.index _ _).1 hj'
                refine ⟨by omega, ?_, t', ht', hti', q', hq', hqr'⟩
                rw [hmemb]
                rintro (h | rfl)
                · exact h2 h
                · rw [ht] at ht'
                  cases ht'
                  rw [htq] at hq'
                  simp only [List.mem_singleton] at hq'
                  rw [hq'] at hqr'
                  exact hrr (by omega)
        · -- first of its start address
          have hnil : st.others s = [] := by
            rw [List.eq_nil_iff_forall_not_mem]
            intro j hj
            exact hex ⟨j, (hoth j).1 hj⟩
          have hstep := inv3_step hs hinv
          have e1 : (rule3Step o st (s, n)).bad = st.bad := by
            unfold rule3Step
            simp only [if_neg hc, hnil, List.any_nil, Bool.false_eq_true, if_false, List.append_nil]
          have hnone : ∀ i s', i < n → o[i]? = some s' → s'.inlined = false → i ∉ bad → ∀ r' ∈ s'.ranges, r'.1 ≠ r.1 := by
            intro i s' hi hs' hi' hib r' hr' e
            obtain ⟨j, hj⟩ := hcov i s' hi hs' hi' hib r' hr'
            rw [e] at hj
            exact hex ⟨j, hj⟩
          constructor
          · intro i hi
            rw [e1]
            by_cases hin : i = n
            · subst hin
              rw [hlater]
              constructor
              · exact Or.inl
              · rintro (h | ⟨j', h1, s', t', r', q', h3, h4, h5, h6, h7, h8, h9, h10, h11⟩)
                · exact h
                · exfalso
                  rw [hs] at h3
                  cases h3
                  rw [hrs] at h5
                  simp only [List.mem_singleton] at h5
                  subst h5
                  by_cases hj'n : j' < i
                  · exact hnone j' t' hj'n h6 h7 h8 q' h9 h10
                  · have : j' = i := by omega
                    subst this
                    rw [hs] at h6
                    cases h6
                    rw [hrs] at h9
                    simp only [List.mem_singleton] at h9
                    subst h9
                    omega
            · have hilt : i < n := by omega
              rw [hb i hilt]
              constructor
              · rintro (h | ⟨j', h1, h2⟩)
                · exact Or.inl h
                · exact Or.inr ⟨j', by omega, h2⟩
              · rintro (h | ⟨j', h1, h2⟩)
                · exact Or.inl h
                · by_cases hjn' : j' = n
                  · subst hjn'
                    by_cases hib : i ∈ bad
                    · exact Or.inl hib
                    · obtain ⟨s', q', h3, h4, h5, h6, h7⟩ := (hbn i hilt).1 h2
                      exact absurd h6 (hnone i s' hilt h3 h4 hib q' h5)
                  · exact Or.inr ⟨j', by omega, h2⟩
          · intro i s' hi hs' hi' hib r' hr'
            by_cases hin : i = n
            · subst hin
              rw [hs] at hs'
              cases hs'
              exact ⟨i, (hstep.index _ _).2 ⟨by omega, by rw [e1, hlater]; exact hnb, s, hs, hinl, r', hr', rfl⟩⟩
            · obtain ⟨j', hj'⟩ := hcov i s' (by omega) hs' hi' hib r' hr'
              obtain ⟨h1, h2, h3⟩ := (hinv.index _ _).1 hj'
              exact ⟨j', (hstep.index _ _).2 ⟨by omega, by rw [e1]; exact h2, h3⟩⟩
      · -- skipped
        have hc : (s.inlined || s.ranges.isEmpty || st.bad.contains n) = true := by
          simp only [Bool.or_eq_true, List.isEmpty_iff, List.contains_iff_mem, hlater]
          by_cases h1 : s.inlined = true
          · exact Or.inl (Or.inl h1)
          · by_cases h2 : s.ranges = []
            · exact Or.inl (Or.inr h2)
            · right
              by_contra h3
              exact hcand ⟨by simpa using h1, h3, h2⟩
        have e1 : rule3Step o st (s, n) = st := by
          unfold rule3Step
          simp only [if_pos hc]
        rw [e1]
        have hnbetter : ∀ i, ¬ Better o bad i n := by
          rintro i ⟨s', t, r, q, _, _, _, h4, h5, h6, h7, _⟩
          rw [hs] at h4
          cases h4
          exact hcand ⟨h5, h6, fun e => by rw [e] at h7; cases h7⟩
        constructor
        · intro i hi
          by_cases hin : i = n
          · subst hin
            rw [hlater]
            constructor
            · exact Or.inl
            · rintro (h | ⟨j', h1, s', t', r', q', h3, h4, h5, h6, h7, h8, h9, h10, h11⟩)
              · exact h
              · rw [hs] at h3
                cases h3
                by_contra hcon
                exact hcand ⟨h4, hcon, fun e => by rw [e] at h5; cases h5⟩
          · rw [hb i (by omega)]
            constructor
            · rintro (h | ⟨j', h1, h2⟩)
              · exact Or.inl h
              · exact Or.inr ⟨j', by omega, h2⟩
            · rintro (h | ⟨j', h1, h2⟩)
              · exact Or.inl h
              · refine Or.inr ⟨j', ?_, h2⟩
                have : j' ≠ n := fun e => hnbetter i (e ▸ h2)
                omega
        · intro i s' hi hs' hi' hib r' hr'
          have hin : i ≠ n := by
            intro e
            subst e
            rw [hs] at hs'
            cases hs'
            exact hcand ⟨hi', hib, fun e => by rw [e] at hr'; cases hr'⟩
          exact hcov i s' (by omega) hs' hi' hib r' hr'
  have h0 := gen o 0 { bad := bad, index := [] } (by simp)
    { mono := fun i hi => hi, index := by simp, uniq := by simp, later := fun i _ => Iff.rfl }
    (fun i hi => by omega) (fun i s hi => by omega) i
  have hinv := rule3_inv o bad
  simp only [Nat.zero_add] at h0
  by_cases hlen : i < o.length
  · unfold rule3
    rw [h0 hlen]
    constructor
    · rintro (h | ⟨j, _, h⟩)
      · exact Or.inl h
      · exact Or.inr ⟨j, h⟩
    · rintro (h | ⟨j, h⟩)
      · exact Or.inl h
      · refine Or.inr ⟨j, ?_, h⟩
        obtain ⟨_, t, _, _, _, _, _, h4, _⟩ := h
        exact (List.getElem?_eq_some_iff.1 h4).1
  · have := hinv.later i (by omega)
    unfold rule3
    rw [this]
    constructor
    · exact Or.inl
    · rintro (h | ⟨j, s, t, r, q, h1, _⟩)
      · exact h
      · have := (List.getElem?_eq_some_iff.1 h1).1
        omega

/-- A non-inlined subprogram that starts inside the program. -/
def Loaded (vaddr : Nat) (o : List Sub) (i : Nat) (s : Sub) : Prop :=
  o[i]? = some s ∧ s.inlined = false ∧ ∀ r ∈ s.ranges, vaddr ≤ r.1

/-- A loaded subprogram that has the start of another one (or another range of its own) strictly inside. -/
def Conflicting (vaddr : Nat) (o : List Sub) (s : Sub) : Prop :=
  ∃ r ∈ s.ranges, ∃ j t, Loaded vaddr o j t ∧ ∃ q ∈ t.ranges, r.1 < q.1 ∧ q.1 < r.2

/-- **C60, duplicates**: if every function has at most one range, then a function that is not nested is used if and
only if it starts inside the program, has no other function's start strictly inside, and is the longest (the first
of the longest) such description at its start address. -/
theorem kept_single (vaddr : Nat) (o : List Sub) (hp : ParentsLater o)
    (hsg : ∀ (i : Nat) (s : Sub), o[i]? = some s → s.inlined = false → s.ranges.length ≤ 1) (i : Nat) (s : Sub)
    (hs : o[i]? = some s) (hinl : s.inlined = false) (hroot : s.parent = none) :
    Kept vaddr o i s ↔ Loaded vaddr o i s ∧ ¬ Conflicting vaddr o s ∧
      ∀ j t, Loaded vaddr o j t → ¬ Conflicting vaddr o t → ∀ r ∈ s.ranges, ∀ q ∈ t.ranges, q.1 = r.1 →
        q.2 < r.2 ∨ (q.2 = r.2 ∧ i ≤ j) := by
  have hld : ∀ j t, o[j]? = some t → t.inlined = false → (j ∉ rule1 vaddr o ↔ Loaded vaddr o j t) := by
    intro j t ht hti
    rw [mem_rule1]
    constructor
    · intro h
      refine ⟨ht, hti, fun r hr => ?_⟩
      by_contra hc
      exact h ⟨t, ht, r, hr, by omega⟩
    · rintro ⟨_, _, h⟩ ⟨t', ht', r, hr, hlt⟩
      rw [ht] at ht'
      cases ht'
      have := h r hr
      omega
  have h2 : ∀ j t, o[j]? = some t → t.inlined = false → (j ∉ rule2 o (rule1 vaddr o) ↔
      Loaded vaddr o j t ∧ ¬ Conflicting vaddr o t) := by
    intro j t ht hti
    rw [mem_rule2]
    simp only [not_or]
    rw [hld j t ht hti]
    refine and_congr Iff.rfl (not_congr ?_)
    constructor
    · rintro ⟨t', ht', _, r, hr, k, u, hu, hui, hk, q, hq, h⟩
      rw [ht] at ht'
      cases ht'
      exact ⟨r, hr, k, u, (hld k u hu hui).1 hk, q, hq, h⟩
    · rintro ⟨r, hr, k, u, hu, q, hq, h⟩
      exact ⟨t, ht, hti, r, hr, k, u, hu.1, hu.2.1, (hld k u hu.1 hu.2.1).2 hu, q, hq, h⟩
  unfold Kept findBad
  rw [expand_spec o hp, rule3_single (fun j t ht hti _ => hsg j t ht hti)]
  simp only [not_or, hs, true_and]
  rw [h2 i s hs hinl]
  constructor
  · rintro ⟨⟨⟨h3, h4⟩, h5⟩, _⟩
    refine ⟨h3, h4, ?_⟩
    intro j t hj hjc r hr q hq hqr
    by_contra hc
    exact h5 ⟨j, s, t, r, q, hs, hinl, hr, hj.1, hj.2.1, (h2 j t hj.1 hj.2.1).2 ⟨hj, hjc⟩, hq, hqr, by omega⟩
  · rintro ⟨h3, h4, h5⟩
    refine ⟨⟨⟨h3, h4⟩, ?_⟩, ?_⟩
    · rintro ⟨j, s', t, r, q, h6, h7, h8, h9, h10, h11, h12, h13, h14⟩
      rw [hs] at h6
      cases h6
      obtain ⟨a1, a2⟩ := (h2 j t h9 h10).1 h11
      have := h5 j t a1 a2 r h8 q h12 h13
      omega
    · rintro ⟨s', p, h6, h7, _⟩
      cases h6
      rw [hroot] at h7
      cases h7

/-! ## Concrete cases -/

/-- A function `[100,200)` with an inlined call `[110,120)`, a shorter and an equal duplicate, a function that
contains the start of another one, one below the program, and an inlined call that sticks out. -/
def exSubs : List Sub :=
  [ { inlined := true, parent := some 1, ranges := [(110, 120)] },
    { inlined := false, parent := none, ranges := [(100, 200)] },
    { inlined := false, parent := none, ranges := [(100, 150)] },
    { inlined := false, parent := none, ranges := [(100, 200)] },
    { inlined := false, parent := none, ranges := [(300, 400)] },
    { inlined := false, parent := none, ranges := [(350, 360)] },
    { inlined := false, parent := none, ranges := [(8, 20)] },
    { inlined := true, parent := some 8, ranges := [(505, 520)] },
    { inlined := false, parent := none, ranges := [(500, 510)] } ]

theorem exSubs_parents : ParentsLater exSubs := by
  intro i s p hs hp
  obtain ⟨h1, h2⟩ := List.getElem?_eq_some_iff.1 hs
  have h3 : exSubs[(⟨i, h1⟩ : Fin 9)] = s := h2
  subst h3
  have : ∀ i : Fin 9, ∀ p, (exSubs[i]).parent = some p → i.1 < p ∧ p < 9 := by decide
  exact this ⟨i, h1⟩ p hp

theorem exSubs_single : ∀ (i : Nat) (s : Sub), exSubs[i]? = some s → s.inlined = false → s.ranges.length ≤ 1 := by
  intro i s hs _
  have : ∀ s ∈ exSubs, s.ranges.length ≤ 1 := by decide
  exact this s (List.mem_of_getElem? hs)

theorem exSubs_bad : findBad 50 exSubs = [7, 6, 4, 2, 3] := by decide +kernel

/-- A clean one: two functions, one split in two ranges, with nested inlined calls. -/
def exClean : List Sub :=
  [ { inlined := true, parent := some 1, ranges := [(112, 115)] },
    { inlined := true, parent := some 2, ranges := [(110, 120), (1000, 1010)] },
    { inlined := false, parent := none, ranges := [(100, 200), (1000, 1010)] },
    { inlined := false, parent := none, ranges := [(200, 250)] } ]

theorem exClean_clean : Clean 50 exClean := by
  have key : ∀ (i : Nat) (s : Sub), exClean[i]? = some s → ∃ h : i < 4, exClean[(⟨i, h⟩ : Fin 4)] = s := by
    intro i s h
    obtain ⟨h1, h2⟩ := List.getElem?_eq_some_iff.1 h
    exact ⟨h1, h2⟩
  refine { parents := ?_, loaded := ?_, nonempty := ?_, disjoint := ?_, within := ?_ }
  · intro i s p hs hp
    obtain ⟨h, rfl⟩ := key i s hs
    have : ∀ i : Fin 4, ∀ p, (exClean[i]).parent = some p → i.1 < p ∧ p < 4 := by decide
    exact this ⟨i, h⟩ p hp
  · intro i s hs
    obtain ⟨h, rfl⟩ := key i s hs
    have : ∀ i : Fin 4, ∀ r ∈ (exClean[i]).ranges, 50 ≤ r.1 := by decide
    exact this ⟨i, h⟩
  · intro i s hs _
    obtain ⟨h, rfl⟩ := key i s hs
    have : ∀ i : Fin 4, ∀ r ∈ (exClean[i]).ranges, r.1 < r.2 := by decide
    exact this ⟨i, h⟩
  · intro i j s t hs ht
    obtain ⟨h, rfl⟩ := key i s hs
    obtain ⟨h', rfl⟩ := key j t ht
    have : ∀ i j : Fin 4, (exClean[i]).inlined = false → (exClean[j]).inlined = false →
      ∀ r ∈ (exClean[i]).ranges, ∀ q ∈ (exClean[j]).ranges, (i.1 = j.1 ∧ r = q) ∨ r.2 ≤ q.1 ∨ q.2 ≤ r.1 := by decide
    exact this ⟨i, h⟩ ⟨j, h'⟩
  · intro i s p t hs hp ht
    obtain ⟨h, rfl⟩ := key i s hs
    obtain ⟨h', rfl⟩ := key p t ht
    have : ∀ i j : Fin 4, (exClean[i]).parent = some j.1 →
      ∀ r ∈ (exClean[i]).ranges, ∃ q ∈ (exClean[j]).ranges, q.1 ≤ r.1 ∧ r.2 ≤ q.2 := by decide
    exact this ⟨i, h⟩ ⟨p, h'⟩ hp

/-- With split functions a good description can be lost: the first one (hot part `[100,110)`, cold part
`[200,230)`) makes the second one (`[200,230)`) bad, then the third one (`[100,112)`, longer) makes the first one
bad; no kept subprogram describes `[200,230)`, although the second and the third do not conflict. -/
theorem split_function_lost_violated :
    let o : List Sub := [{ inlined := false, parent := none, ranges := [(100, 110), (200, 230)] },
      { inlined := false, parent := none, ranges := [(200, 230)] },
      { inlined := false, parent := none, ranges := [(100, 112)] }]
    findBad 50 o = [1, 0] := by
  decide +kernel

/-- A nested function (as in Ada, Pascal or GNU C), which is not within its parent's ranges, is dropped. -/
theorem nested_function_lost_violated :
    findBad 50 [{ inlined := false, parent := some 1, ranges := [(100, 110)] },
      { inlined := false, parent := none, ranges := [(200, 230)] }] = [0] := by
  decide +kernel

end Verif.Inline

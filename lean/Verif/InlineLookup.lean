import Verif.PruneExact
import Verif.RangeEntries

/-! # C61: the innermost subprogram of an address (util/symbolize/addr2line_inlinestack.cc) -/
namespace Verif.Inline
open Verif Verif.RangeMap

/-- `PopulateSubprogramsByAddress` (addr2line_inlinestack.cc:657-683).  `none`: a failed `CHECK` of the range
map. -/
def populate (vaddr : Nat) (o : List Sub) : Option (RMap Nat) :=
  o.zipIdx.foldlM (fun m x =>
    if (findBad vaddr o).contains x.2 then some m else insertRangeList m x.1.ranges x.2) []

/-- `GetSubprogramForAddress` (addr2line_inlinestack.cc:705-713). -/
def subprogFor (m : RMap Nat) (a : Nat) : Option Nat := (find m a).map fun e => e.2.2

/-! ## Specification -/

/-- What the debug information must satisfy for lookups to be meaningful: inlined subprograms are nested in a
subprogram; among the kept subprograms, ranges are not reversed, the ranges of one subprogram do not overlap, and
subprograms with the same parent do not overlap. -/
structure Tidy (vaddr : Nat) (o : List Sub) : Prop where
  parents : ParentsLater o
  nested : ∀ (i : Nat) (s : Sub), o[i]? = some s → s.inlined = true → s.parent ≠ none
  ordered : ∀ (i : Nat) (s : Sub), Kept vaddr o i s → ∀ r ∈ s.ranges, r.1 ≤ r.2
  own : ∀ (i : Nat) (s : Sub), Kept vaddr o i s → ∀ r ∈ s.ranges, ∀ q ∈ s.ranges, ∀ a,
    r.1 ≤ a ∧ a < r.2 → q.1 ≤ a ∧ a < q.2 → r = q
  siblings : ∀ (i j : Nat) (s t : Sub) (p : Nat), Kept vaddr o i s → Kept vaddr o j t → s.parent = some p →
    t.parent = some p → ∀ a, s.Has a → t.Has a → i = j

/-- The innermost kept subprogram of an address: it covers the address and no kept subprogram nested in it does. -/
def Innermost (vaddr : Nat) (o : List Sub) (a i : Nat) : Prop :=
  ∃ s, Kept vaddr o i s ∧ s.Has a ∧ ∀ j t, Kept vaddr o j t → t.parent = some i → ¬ t.Has a

/-! ## Proof -/

/-- `j` is `i` or encloses it. -/
inductive Up (o : List Sub) : Nat → Nat → Prop where
  | refl (i : Nat) : Up o i i
  | step {i p j : Nat} {s : Sub} (h : o[i]? = some s) (hp : s.parent = some p) (hj : Up o p j) : Up o i j

theorem Up.le {o : List Sub} (hp : ParentsLater o) {i j : Nat} (h : Up o i j) : i ≤ j := by
  induction h with
  | refl => exact Nat.le_refl _
  | step h1 h2 _ ih => have := (hp _ _ _ h1 h2).1; omega

theorem Up.snoc {o : List Sub} {i j p : Nat} {s : Sub} (h : Up o i j) (hs : o[j]? = some s)
    (hp : s.parent = some p) : Up o i p := by
  induction h with
  | refl => exact .step hs hp (.refl _)
  | step h1 h2 _ ih => exact .step h1 h2 (ih hs)

theorem Up.child {o : List Sub} {i j : Nat} (h : Up o i j) (hne : i ≠ j) :
    ∃ c s, Up o i c ∧ o[c]? = some s ∧ s.parent = some j := by
  induction h with
  | refl => exact absurd rfl hne
  | @step i p j s h1 h2 h3 ih =>
    by_cases hpj : p = j
    · subst hpj
      exact ⟨i, s, .refl _, h1, h2⟩
    · obtain ⟨c, t, a1, a2, a3⟩ := ih hpj
      exact ⟨c, t, .step h1 h2 a1, a2, a3⟩

theorem within_has {s t : Sub} (h : Within s.ranges t.ranges) {a : Nat} (ha : s.Has a) : t.Has a := by
  obtain ⟨r, hr, h1, h2⟩ := ha
  obtain ⟨q, hq, h3, h4⟩ := h r hr
  exact ⟨q, hq, by omega, by omega⟩

theorem Up.kept {vaddr : Nat} {o : List Sub} (hp : ParentsLater o) {i j : Nat} (h : Up o i j) :
    ∀ {s : Sub}, Kept vaddr o i s → ∀ {a : Nat}, s.Has a → ∃ t, Kept vaddr o j t ∧ t.Has a := by
  induction h with
  | refl => intro s hk a ha; exact ⟨s, hk, ha⟩
  | step h1 h2 _ ih =>
    intro s hk a ha
    have : _ = s := Option.some.inj (h1.symm.trans hk.1)
    subst this
    obtain ⟨t, ht, hw⟩ := kept_parent vaddr o hp _ _ _ hk h2
    exact ih ht (within_has hw ha)

theorem Up.within {vaddr : Nat} {o : List Sub} (hp : ParentsLater o) {i j : Nat} (h : Up o i j) :
    ∀ {s : Sub}, Kept vaddr o i s → ∃ t, Kept vaddr o j t ∧ Within s.ranges t.ranges := by
  induction h with
  | refl => intro s hk; exact ⟨s, hk, fun r hr => ⟨r, hr, Nat.le_refl _, Nat.le_refl _⟩⟩
  | step h1 h2 _ ih =>
    intro s hk
    have : _ = s := Option.some.inj (h1.symm.trans hk.1)
    subst this
    obtain ⟨t, ht, hw⟩ := kept_parent vaddr o hp _ _ _ hk h2
    obtain ⟨u, hu, hw'⟩ := ih ht
    refine ⟨u, hu, fun r hr => ?_⟩
    obtain ⟨q, hq, a1, a2⟩ := hw r hr
    obtain ⟨q', hq', a3, a4⟩ := hw' q hq
    exact ⟨q', hq', by omega, by omega⟩

/-- Every kept subprogram is in a kept one that is not nested. -/
theorem root_exists {vaddr : Nat} {o : List Sub} (hp : ParentsLater o) : ∀ (n i : Nat) (s : Sub),
    o.length - i ≤ n → Kept vaddr o i s → ∃ j t, Up o i j ∧ Kept vaddr o j t ∧ t.parent = none := by
  intro n
  induction n with
  | zero =>
    intro i s hle hk
    have := (List.getElem?_eq_some_iff.1 hk.1).1
    omega
  | succ n ih =>
    intro i s hle hk
    cases hpar : s.parent with
    | none => exact ⟨i, s, .refl _, hk, hpar⟩
    | some p =>
      obtain ⟨t, ht, _⟩ := kept_parent vaddr o hp i p s hk hpar
      have hlt := (hp i s p hk.1 hpar).1
      obtain ⟨j, u, h1, h2, h3⟩ := ih p t (by omega) ht
      exact ⟨j, u, .step hk.1 hpar h1, h2, h3⟩

/-- The kept subprograms of an address form a chain. -/
theorem chain {vaddr : Nat} {o : List Sub} (ht : Tidy vaddr o) {a : Nat} : ∀ (n x y : Nat) (s t : Sub),
    (o.length - x) + (o.length - y) ≤ n → Kept vaddr o x s → Kept vaddr o y t → s.Has a → t.Has a →
    Up o x y ∨ Up o y x := by
  intro n
  induction n with
  | zero =>
    intro x y s t hle hx
    have := (List.getElem?_eq_some_iff.1 hx.1).1
    omega
  | succ n ih =>
    have key : ∀ (x y : Nat) (s t : Sub), (o.length - x) + (o.length - y) ≤ n + 1 → Kept vaddr o x s →
        Kept vaddr o y t → s.Has a → t.Has a → x < y → Up o x y := by
      intro x y s t hle hx hy hxa hya hlt
      have hxl := (List.getElem?_eq_some_iff.1 hx.1).1
      cases hpar : s.parent with
      | none =>
        -- two roots
        obtain ⟨j, u, h1, h2, h3⟩ := root_exists (vaddr := vaddr) ht.parents _ y t (Nat.le_refl _) hy
        obtain ⟨u', h2', hua⟩ := h1.kept ht.parents hy hya
        have hroot : ∀ (k : Nat) (w : Sub), Kept vaddr o k w → w.parent = none → w.inlined = false := by
          intro k w hk hw
          by_contra hc
          exact ht.nested k w hk.1 (by simpa using hc) hw
        have : u' = u := Option.some.inj (h2'.1.symm.trans h2.1)
        subst this
        have hxj := kept_disjoint vaddr o x j s u' hx h2 (hroot x s hx hpar) (hroot j u' h2 h3) a hxa hua
        have := h1.le ht.parents
        omega
      | some p =>
        obtain ⟨u, hu, hw⟩ := kept_parent vaddr o ht.parents x p s hx hpar
        have hlt' := (ht.parents x s p hx.1 hpar).1
        rcases ih p y u t (by omega) hu hy (within_has hw hxa) hya with h | h
        · exact .step hx.1 hpar h
        · by_cases hyp : y = p
          · subst hyp
            exact .step hx.1 hpar (.refl _)
          · obtain ⟨c, v, h1, h2, h3⟩ := h.child hyp
            obtain ⟨v', h4, h5⟩ := h1.kept ht.parents hy hya
            have : v' = v := Option.some.inj (h4.1.symm.trans h2)
            subst this
            have := ht.siblings x c s v' p hx h4 hpar h3 a hxa h5
            have := h1.le ht.parents
            omega
    intro x y s t hle hx hy hxa hya
    rcases Nat.lt_trichotomy x y with h | h | h
    · exact Or.inl (key x y s t hle hx hy hxa hya h)
    · subst h
      exact Or.inl (.refl _)
    · exact Or.inr (key y x t s (by omega) hy hx hya hxa h)

/-- Below any kept subprogram of an address there is an innermost one. -/
theorem innermost_below {vaddr : Nat} {o : List Sub} (ht : Tidy vaddr o) {a : Nat} : ∀ (n i : Nat) (s : Sub),
    i ≤ n → Kept vaddr o i s → s.Has a → ∃ j, Up o j i ∧ Innermost vaddr o a j := by
  intro n
  induction n with
  | zero =>
    intro i s hi hk ha
    refine ⟨i, .refl _, s, hk, ha, ?_⟩
    intro j t hj hp
    have := (ht.parents j t i hj.1 hp).1
    omega
  | succ n ih =>
    intro i s hi hk ha
    by_cases hex : ∃ j t, Kept vaddr o j t ∧ t.parent = some i ∧ t.Has a
    · obtain ⟨j, t, h1, h2, h3⟩ := hex
      have := (ht.parents j t i h1.1 h2).1
      obtain ⟨k, h4, h5⟩ := ih j t (by omega) h1 h3
      exact ⟨k, h4.snoc h1.1 h2, h5⟩
    · refine ⟨i, .refl _, s, hk, ha, ?_⟩
      intro j t hj hp hta
      exact hex ⟨j, t, hj, hp, hta⟩

/-- What the map holds after the subprograms below `n`, and the ranges `done` of subprogram `n`. -/
structure PInv (vaddr : Nat) (o : List Sub) (n : Nat) (done : List Range) (m : RMap Nat) : Prop where
  ok : NonOverlapping m
  frag : ∀ e ∈ m, ∃ s, Kept vaddr o e.2.2 s ∧ (e.2.2 < n ∨ (e.2.2 = n ∧ ∃ r ∈ done, r ∈ s.ranges ∧ r.1 ≤ e.1 ∧ e.2.1 ≤ r.2)) ∧
    ∃ r ∈ s.ranges, r.1 ≤ e.1 ∧ e.2.1 ≤ r.2
  holds : ∀ a i, Holds m a i ↔ Innermost vaddr o a i ∧ (i < n ∨ (i = n ∧ ∃ r ∈ done, r.1 ≤ a ∧ a < r.2))

/-- Inserting one range of subprogram `n`. -/
theorem pinv_range {vaddr : Nat} {o : List Sub} (ht : Tidy vaddr o) {n : Nat} {s : Sub} (hk : Kept vaddr o n s)
    {done : List Range} {r : Range} (hr : r ∈ s.ranges) (hdone : ∀ q ∈ done, q ∈ s.ranges) {m : RMap Nat}
    (h : PInv vaddr o n done m) :
    ∃ m', insertRange m r.1 r.2 n = some m' ∧ PInv vaddr o n (done ++ [r]) m' := by
  have hle := ht.ordered n s hk r hr
  -- a piece that meets the range lies within it
  have hmeet : ∀ e ∈ m, ∀ a, e.1 ≤ a → a < e.2.1 → r.1 ≤ a → a < r.2 → r.1 ≤ e.1 ∧ e.2.1 ≤ r.2 := by
    intro e he a h1 h2 h3 h4
    obtain ⟨t, hkt, hpos, q, hq, hq1, hq2⟩ := h.frag e he
    rcases hpos with hlt | ⟨heq, q', hq', hq's, hq1', hq2'⟩
    · have hup : Up o e.2.2 n := by
        rcases chain ht (a := a) _ e.2.2 n t s (Nat.le_refl _) hkt hk ⟨q, hq, by omega, by omega⟩ ⟨r, hr, h3, h4⟩ with hu | hu
        · exact hu
        · have := hu.le ht.parents
          omega
      obtain ⟨s', hks', hw⟩ := hup.within ht.parents hkt
      have : s' = s := Option.some.inj (hks'.1.symm.trans hk.1)
      subst this
      obtain ⟨q2, hq2m, b1, b2⟩ := hw q hq
      have := ht.own n s' hk q2 hq2m r hr a ⟨by omega, by omega⟩ ⟨h3, h4⟩
      subst this
      omega
    · have : t = s := by rw [heq] at hkt; exact Option.some.inj (hkt.1.symm.trans hk.1)
      subst this
      have := ht.own n t hk q' hq's r hr a ⟨by omega, by omega⟩ ⟨h3, h4⟩
      subst this
      omega
  by_cases hempty : r.1 = r.2
  · refine ⟨m, by simp [insertRange, hempty], h.ok, ?_, ?_⟩
    · intro e he
      obtain ⟨t, h1, h2, h3⟩ := h.frag e he
      refine ⟨t, h1, ?_, h3⟩
      rcases h2 with h2 | ⟨h2, q, hq, h4⟩
      · exact Or.inl h2
      · exact Or.inr ⟨h2, q, List.mem_append_left _ hq, h4⟩
    · intro a i
      rw [h.holds]
      refine and_congr Iff.rfl (or_congr Iff.rfl (and_congr Iff.rfl ?_))
      constructor
      · rintro ⟨q, hq, h1⟩; exact ⟨q, List.mem_append_left _ hq, h1⟩
      · rintro ⟨q, hq, h1⟩
        rcases List.mem_append.1 hq with hq | hq
        · exact ⟨q, hq, h1⟩
        · simp only [List.mem_singleton] at hq
          subst hq
          omega
  · have hlt : r.1 < r.2 := by omega
    have hnn : ¬ Nested m r.1 r.2 := by
      rintro ⟨e, he, h1, h2, h3⟩
      have := hmeet e he r.1 h1 (by omega) (Nat.le_refl _) hlt
      omega
    have hcomp : Compatible m r.1 r.2 := by
      intro e he
      have hne := h.ok.2.1 e he
      by_cases hd : e.2.1 ≤ r.1 ∨ r.2 ≤ e.1
      · rcases hd with hd | hd
        · exact Or.inl hd
        · exact Or.inr (Or.inl hd)
      · have := hmeet e he (max e.1 r.1) (by omega) (by omega) (by omega) (by omega)
        exact Or.inr (Or.inr this)
    obtain ⟨m', hm'⟩ := insertRange_accepts m r.1 r.2 n h.ok hle (Or.inr hcomp)
    have hspec := insertRange_spec m m' r.1 r.2 n h.ok hle hm'
    have hent := insertRange_entries h.ok hle hnn hm'
    refine ⟨m', hm', hspec.1, ?_, ?_⟩
    · intro e he
      rcases hent e he with he | ⟨h1, h2, h3⟩
      · obtain ⟨t, h1, h2, h3⟩ := h.frag e he
        refine ⟨t, h1, ?_, h3⟩
        rcases h2 with h2 | ⟨h2, q, hq, h4⟩
        · exact Or.inl h2
        · exact Or.inr ⟨h2, q, List.mem_append_left _ hq, h4⟩
      · refine ⟨s, by rw [h3]; exact hk, Or.inr ⟨h3, r, by simp, hr, h1, h2⟩, r, hr, h1, h2⟩
    · intro a i
      rw [hspec.2.2 hnn a i, h.holds]
      -- what is not covered yet
      have hfree : r.1 ≤ a → a < r.2 → ((∀ u, ¬ Holds m a u) → Innermost vaddr o a n) := by
        intro h1 h2 hno
        refine ⟨s, hk, ⟨r, hr, h1, h2⟩, ?_⟩
        intro j t hj hp hta
        obtain ⟨k, hk1, hk2⟩ := innermost_below ht _ j t (Nat.le_refl _) hj hta
        have hjn := (ht.parents j t n hj.1 hp).1
        have := hk1.le ht.parents
        exact hno k ((h.holds a k).2 ⟨hk2, Or.inl (by omega)⟩)
      constructor
      · rintro (⟨h1, h2⟩ | ⟨h1, h2, h3, rfl⟩)
        · refine ⟨h1, ?_⟩
          rcases h2 with h2 | ⟨h2, q, hq, h4⟩
          · exact Or.inl h2
          · exact Or.inr ⟨h2, q, List.mem_append_left _ hq, h4⟩
        · exact ⟨hfree h1 h2 h3, Or.inr ⟨rfl, r, by simp, h1, h2⟩⟩
      · rintro ⟨h1, h2 | ⟨rfl, q, hq, h4⟩⟩
        · exact Or.inl ⟨h1, Or.inl h2⟩
        · rcases List.mem_append.1 hq with hq | hq
          · exact Or.inl ⟨h1, Or.inr ⟨rfl, q, hq, h4⟩⟩
          · simp only [List.mem_singleton] at hq
            subst hq
            by_cases hcov : ∃ u, Holds m a u
            · obtain ⟨u, hu⟩ := hcov
              obtain ⟨⟨t, hkt, hta, hun⟩, hpos⟩ := (h.holds a u).1 hu
              rcases hpos with hpos | ⟨rfl, hpos⟩
              · -- something inside covers the address: contradiction with innermost
                exfalso
                obtain ⟨s', hks', hsa', hin⟩ := h1
                rcases chain ht (a := a) _ u i t s' (Nat.le_refl _) hkt hks' hta hsa' with hup | hup
                · obtain ⟨c, w, c1, c2, c3⟩ := hup.child (by omega)
                  obtain ⟨w', d1, d2⟩ := c1.kept ht.parents hkt hta
                  have : w' = w := Option.some.inj (d1.1.symm.trans c2)
                  subst this
                  exact hin c w' d1 c3 d2
                · have := hup.le ht.parents
                  omega
              · exact Or.inl ⟨h1, Or.inr ⟨rfl, hpos⟩⟩
            · exact Or.inr ⟨h4.1, h4.2, fun u hu => hcov ⟨u, hu⟩, rfl⟩

/-- Inserting all ranges of subprogram `n`. -/
theorem pinv_sub {vaddr : Nat} {o : List Sub} (ht : Tidy vaddr o) {n : Nat} {s : Sub} (hk : Kept vaddr o n s) :
    ∀ (todo done : List Range), (∀ q ∈ done, q ∈ s.ranges) → (∀ q ∈ todo, q ∈ s.ranges) → ∀ m : RMap Nat,
    PInv vaddr o n done m → ∃ m', insertRangeList m todo n = some m' ∧ PInv vaddr o n (done ++ todo) m' := by
  intro todo
  induction todo with
  | nil => intro done _ _ m h; exact ⟨m, rfl, by simpa using h⟩
  | cons r todo ih =>
    intro done hd htodo m h
    have hr := htodo r List.mem_cons_self
    obtain ⟨m1, h1, h2⟩ := pinv_range ht hk hr hd h
    obtain ⟨m2, h3, h4⟩ := ih (done ++ [r])
      (by
        intro q hq
        rcases List.mem_append.1 hq with hq | hq
        · exact hd q hq
        · simp only [List.mem_singleton] at hq
          rw [hq]
          exact hr)
      (fun q hq => htodo q (List.mem_cons_of_mem _ hq)) m1 h2
    refine ⟨m2, ?_, by simpa using h4⟩
    unfold insertRangeList at h3 ⊢
    rw [List.foldlM_cons, h1]
    exact h3

/-- **C61, lookup**: whatever contradictory descriptions were dropped, if the kept subprograms are tidy then the
map is built and the lookup of an address finds the innermost kept subprogram that covers it, and nothing if there
is none. -/
theorem lookup_innermost (vaddr : Nat) (o : List Sub) (ht : Tidy vaddr o) :
    ∃ m, populate vaddr o = some m ∧ ∀ a i, subprogFor m a = some i ↔ Innermost vaddr o a i := by
  have gen : ∀ (l : List Sub) (n : Nat) (m : RMap Nat), o.drop n = l → PInv vaddr o n [] m →
      ∃ m', (l.zipIdx n).foldlM (fun m x =>
        if (findBad vaddr o).contains x.2 then some m else insertRangeList m x.1.ranges x.2) m = some m' ∧
        PInv vaddr o (n + l.length) [] m' := by
    intro l
    induction l with
    | nil => intro n m _ h; exact ⟨m, rfl, by simpa using h⟩
    | cons s l ih =>
      intro n m hd h
      have hs : o[n]? = some s := by
        have := List.getElem?_drop (xs := o) (i := n) (j := 0)
        rw [hd] at this
        simpa using this.symm
      have hd' : o.drop (n + 1) = l := by
        have := List.drop_drop (i := 1) (j := n) (l := o)
        rw [hd] at this
        simpa using this.symm
      have step : ∃ m1, (if (findBad vaddr o).contains n then some m else insertRangeList m s.ranges n) = some m1 ∧
          PInv vaddr o (n + 1) [] m1 := by
        by_cases hb : n ∈ findBad vaddr o
        · refine ⟨m, by simp [hb], h.ok, ?_, ?_⟩
          · intro e he
            obtain ⟨t, h1, h2, h3⟩ := h.frag e he
            refine ⟨t, h1, ?_, h3⟩
            rcases h2 with h2 | ⟨_, q, hq, _⟩
            · exact Or.inl (by omega)
            · cases hq
          · intro a i
            rw [h.holds]
            constructor
            · rintro ⟨h1, h2 | ⟨_, q, hq, _⟩⟩
              · exact ⟨h1, Or.inl (by omega)⟩
              · cases hq
            · rintro ⟨h1, h2 | ⟨_, q, hq, _⟩⟩
              · refine ⟨h1, Or.inl ?_⟩
                have : i ≠ n := by
                  rintro rfl
                  obtain ⟨t, ht', _⟩ := h1
                  exact ht'.2 hb
                omega
              · cases hq
        · have hk : Kept vaddr o n s := ⟨hs, hb⟩
          obtain ⟨m1, h1, h2⟩ := pinv_sub ht hk s.ranges [] (by simp) (fun q hq => hq) m h
          refine ⟨m1, by simp [hb, h1], h2.ok, ?_, ?_⟩
          · intro e he
            obtain ⟨t, a1, a2, a3⟩ := h2.frag e he
            refine ⟨t, a1, Or.inl ?_, a3⟩
            rcases a2 with a2 | ⟨a2, _⟩ <;> omega
          · intro a i
            rw [h2.holds]
            simp only [List.nil_append]
            constructor
            · rintro ⟨a1, a2 | ⟨rfl, _⟩⟩
              · exact ⟨a1, Or.inl (by omega)⟩
              · exact ⟨a1, Or.inl (by omega)⟩
            · rintro ⟨a1, a2 | ⟨_, q, hq, _⟩⟩
              · refine ⟨a1, ?_⟩
                by_cases hin : i = n
                · subst hin
                  obtain ⟨t, b1, b2, _⟩ := a1
                  have : t = s := Option.some.inj (b1.1.symm.trans hs)
                  subst this
                  exact Or.inr ⟨rfl, b2⟩
                · exact Or.inl (by omega)
              · cases hq
      obtain ⟨m1, h1, h2⟩ := step
      obtain ⟨m2, h3, h4⟩ := ih (n + 1) m1 hd' h2
      refine ⟨m2, ?_, ?_⟩
      · rw [List.zipIdx_cons, List.foldlM_cons, h1]
        exact h3
      · rw [List.length_cons, show n + (l.length + 1) = n + 1 + l.length by omega]
        exact h4
  obtain ⟨m, h1, h2⟩ := gen o 0 [] (by simp)
    { ok := ⟨OMap.sorted_nil, by simp, by simp⟩
      frag := by simp
      holds := by
        intro a i
        constructor
        · rintro ⟨e, he, _⟩
          cases he
        · rintro ⟨_, h | ⟨_, q, hq, _⟩⟩
          · omega
          · cases hq }
  refine ⟨m, h1, ?_⟩
  intro a i
  have hl : subprogFor m a = some i ↔ Holds m a i := by
    unfold subprogFor
    rw [Option.map_eq_some_iff]
    constructor
    · rintro ⟨e, he, hi⟩
      obtain ⟨a1, a2, a3⟩ := (find_spec m h2.ok a e).1 he
      exact ⟨e, a1, a2, a3, hi⟩
    · rintro ⟨e, a1, a2, a3, hi⟩
      exact ⟨e, (find_spec m h2.ok a e).2 ⟨a1, a2, a3⟩, hi⟩
  rw [hl, h2.holds]
  simp only [Nat.zero_add]
  constructor
  · exact fun h => h.1
  · intro h
    refine ⟨h, Or.inl ?_⟩
    obtain ⟨s, hs, _⟩ := h
    exact (List.getElem?_eq_some_iff.1 hs.1).1

end Verif.Inline

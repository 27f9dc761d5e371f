import Verif.Flatten
import Verif.MergeProps
import Mathlib.Data.List.Induction
import Mathlib.Data.List.Nodup
import Mathlib.Algebra.BigOperators.Group.List.Basic

namespace Verif.SymbolMap

/-! ### Specification -/

/-- `Entry s n`: how often `s` was entered, estimated from the first thing that happens in it. -/
inductive Entry : Sym → Nat → Prop
  /-- a recorded count is used as it is -/
  | recorded {d cs} : d.head ≠ 0 → Entry (.mk d cs) d.head
  /-- else, if an inlined call comes before all counted locations, how often the first such callee was entered -/
  | call {d cs k c n} : d.head = 0 → (k, c) ∈ cs → (∀ x ∈ cs, x.1 ≠ k → callLt k x.1 = true) → (∀ p ∈ d.pos, k.1 < p.1) → (d.pos = [] → k.1 < 2 ^ 64 - 1) →
      Entry c n → Entry (.mk d cs) n
  /-- else the count of the first location -/
  | loc {d cs o p} : d.head = 0 → (o, p) ∈ d.pos → (∀ q ∈ d.pos, o ≤ q.1) → (∀ x ∈ cs, o ≤ x.1.1) → Entry (.mk d cs) p.count
  /-- nothing is known -/
  | nothing {d cs} : d.head = 0 → d.pos = [] → (∀ x ∈ cs, 2 ^ 64 - 1 ≤ x.1.1) → Entry (.mk d cs) 0

/-- The estimated entry count. -/
def Sym.est (s : Sym) : Nat := s.estimate.data.head

mutual
/-- All inline instances in a function, with their names. -/
def Sym.inlined : Sym → List (Name × Sym) | .mk _ cs => inlinedCalls cs
def inlinedCalls : List (Callsite × Sym) → List (Name × Sym)
  | [] => []
  | (k, c) :: t => (k.2, c) :: (c.inlined ++ inlinedCalls t)
end

/-- All functions and inline instances called `f`. -/
def instances (src : OMap Name Sym) (f : Name) : List Sym :=
  ((src.flatMap fun x => x :: x.2.inlined).filter fun x => x.1 = f).map Prod.snd

/-- An instance's own count at a location, raised to the entry counts of the calls inlined there. -/
def flatCount (s : Sym) (o : Nat) : Nat := ((s.calls.filter fun x => x.1.1 = o).map fun x => x.2.est).foldl max (s.data.pos.countAt o)

/-- An instance's own count of a call target, plus the entry counts of such calls that were inlined. -/
def flatTarget (s : Sym) (o : Nat) (t : Name) : Nat := s.data.pos.targetAt o t + ((s.calls.filter fun x => x.1 = (o, t)).map fun x => x.2.est).sum

/-! ### Estimated entry counts -/

theorem callLt_trans {a b c : Callsite} (h : callLt a b = true) (h' : callLt b c = true) : callLt a c = true := by
  unfold callLt at *
  simp only [decide_eq_true_eq] at *
  rcases h with h | ⟨h1, h2⟩ <;> rcases h' with h' | ⟨h3, h4⟩
  · exact Or.inl (by omega)
  · exact Or.inl (by omega)
  · exact Or.inl (by omega)
  · exact Or.inr ⟨by omega, lt_trans h2 h4⟩

theorem callLt_total (a b : Callsite) : callLt a b = true ∨ a = b ∨ callLt b a = true := by
  unfold callLt
  simp only [decide_eq_true_eq]
  rcases lt_trichotomy a.1 b.1 with h | h | h
  · exact Or.inl (Or.inl h)
  · rcases lt_trichotomy a.2 b.2 with h' | h' | h'
    · exact Or.inl (Or.inr ⟨h, h'⟩)
    · exact Or.inr (Or.inl (Prod.ext h h'))
    · exact Or.inr (Or.inr (Or.inr ⟨h.symm, h'⟩))
  · exact Or.inr (Or.inr (Or.inl h))

theorem callLt_irrefl (a : Callsite) : callLt a a = false := by
  unfold callLt
  simp

theorem minCall_none {l : List Callsite} (h : minCall l = none) : l = [] := by
  cases l with
  | nil => rfl
  | cons a t => simp [minCall] at h

theorem minCall_some {l : List Callsite} {k : Callsite} (h : minCall l = some k) : k ∈ l ∧ ∀ x ∈ l, x ≠ k → callLt k x = true := by
  cases l with
  | nil => simp [minCall] at h
  | cons a t =>
    simp only [minCall, Option.some.injEq] at h
    have : ∀ (t : List Callsite) (a : Callsite), (t.foldl (fun m x => if callLt x m then x else m) a) ∈ a :: t ∧
        ∀ x ∈ a :: t, x ≠ t.foldl (fun m x => if callLt x m then x else m) a → callLt (t.foldl (fun m x => if callLt x m then x else m) a) x = true := by
      intro t
      induction t with
      | nil =>
        intro a
        refine ⟨by simp, ?_⟩
        intro x hx hne
        simp at hx hne
        exact absurd hx hne
      | cons b t ih =>
        intro a
        rw [List.foldl_cons]
        obtain ⟨h1, h2⟩ := ih (if callLt b a then b else a)
        by_cases hb : callLt b a = true
        · rw [if_pos hb] at h1 h2 ⊢
          refine ⟨List.mem_cons_of_mem _ h1, ?_⟩
          intro x hx hne
          rcases List.mem_cons.1 hx with rfl | hx
          · by_cases hbm : b = t.foldl (fun m x => if callLt x m then x else m) b
            · rw [← hbm]; exact hb
            · exact callLt_trans (h2 b (by simp) hbm) hb
          · exact h2 x hx hne
        · rw [if_neg hb] at h1 h2 ⊢
          refine ⟨?_, ?_⟩
          · rcases List.mem_cons.1 h1 with h | h
            · rw [h]; simp
            · exact List.mem_cons_of_mem _ (List.mem_cons_of_mem _ h)
          · intro x hx hne
            rcases List.mem_cons.1 hx with rfl | hx
            · exact h2 _ (by simp) hne
            · rcases List.mem_cons.1 hx with rfl | hx
              · by_cases ham : a = t.foldl (fun m x => if callLt x m then x else m) a
                · rw [← ham] at hne ⊢
                  rcases callLt_total a x with h | h | h
                  · exact h
                  · exact absurd h.symm hne
                  · exact absurd h hb
                · have h3 := h2 a (by simp) ham
                  rcases callLt_total a x with h | h | h
                  · exact callLt_trans h3 h
                  · rw [← h]; exact h3
                  · exact absurd h hb
              · exact h2 x (List.mem_cons_of_mem _ hx) hne
    have := this t a
    rw [h] at this
    exact this

theorem estimateAt_keys (k : Callsite) : ∀ cs : List (Callsite × Sym), (estimateAt k cs).map Prod.fst = cs.map Prod.fst
  | [] => by simp [estimateAt]
  | (k', c) :: t => by
    rw [estimateAt]
    split <;> simp [estimateAt_keys k t]

theorem lookup_estimateAt (k : Callsite) : ∀ cs : List (Callsite × Sym), lookup (estimateAt k cs) k = (lookup cs k).map Sym.estimate
  | [] => by simp [estimateAt, lookup]
  | (k', c) :: t => by
    rw [estimateAt]
    by_cases h : k' = k
    · rw [if_pos h]; simp [lookup, h]
    · rw [if_neg h]; simp [lookup, Ne.symm h, lookup_estimateAt k t]

/-- The three outcomes of the estimate. -/
theorem estimate_cases (d : Data) (cs : List (Callsite × Sym)) :
    (d.head ≠ 0 ∧ (Sym.mk d cs).estimate = .mk d cs) ∨
    (d.head = 0 ∧ (∀ k, minCall (cs.map Prod.fst) = some k → (firstPos d.pos).1 ≤ k.1) ∧
      (Sym.mk d cs).estimate = .mk { d with head := (firstPos d.pos).2 } cs) ∨
    (d.head = 0 ∧ ∃ k, minCall (cs.map Prod.fst) = some k ∧ k.1 < (firstPos d.pos).1 ∧
      (Sym.mk d cs).estimate = .mk { d with head := ((lookup cs k).map Sym.est).getD 0 } (estimateAt k cs)) := by
  rw [Sym.estimate]
  by_cases h : d.head ≠ 0
  · rw [if_pos h]; exact Or.inl ⟨h, rfl⟩
  · rw [if_neg h]
    have h0 : d.head = 0 := by omega
    cases hm : minCall (cs.map Prod.fst) with
    | none => exact Or.inr (Or.inl ⟨h0, by simp, by simp⟩)
    | some k =>
      by_cases hk : k.1 ≥ (firstPos d.pos).1
      · simp only [if_pos hk]
        exact Or.inr (Or.inl ⟨h0, by rintro k' h; cases h; exact hk, trivial⟩)
      · simp only [if_neg hk]
        refine Or.inr (Or.inr ⟨h0, k, rfl, by omega, ?_⟩)
        rw [lookup_estimateAt, Option.map_map]
        rfl

mutual
theorem estimate_idem : (s : Sym) → s.estimate.estimate = s.estimate
  | .mk d cs => by
    rcases estimate_cases d cs with ⟨h, e⟩ | ⟨h, hk, e⟩ | ⟨h, k, hk, hlt, e⟩
    · rw [e, e]
    · rw [e]
      rcases estimate_cases { d with head := (firstPos d.pos).2 } cs with ⟨_, e'⟩ | ⟨_, _, e'⟩ | ⟨_, k, hk', hlt, _⟩
      · exact e'
      · rw [e']
      · have := hk k hk'
        simp only at hlt
        omega
    · rw [e]
      rcases estimate_cases { d with head := ((lookup cs k).map Sym.est).getD 0 } (estimateAt k cs) with ⟨_, e'⟩ | ⟨_, hk', _⟩ | ⟨_, k', hk', _, e'⟩
      · exact e'
      · rw [estimateAt_keys] at hk'
        have := hk' k hk
        simp only at this
        omega
      · rw [estimateAt_keys, hk] at hk'
        cases hk'
        rw [e', estimateAt_idem k cs, lookup_estimateAt, Option.map_map]
        have : (Sym.est ∘ Sym.estimate) <$> lookup cs k = Sym.est <$> lookup cs k := by
          cases hl : lookup cs k with
          | none => rfl
          | some c =>
            have hmem := mem_of_lookup hl
            simp only [Option.map_eq_map, Option.map_some, Function.comp, Sym.est]
            rw [estimateIn cs (k, c) hmem]
        simp only [Option.map_eq_map] at this
        rw [this]
theorem estimateIn : (cs : List (Callsite × Sym)) → ∀ x ∈ cs, x.2.estimate.estimate = x.2.estimate
  | [], x, h => by cases h
  | (k, c) :: t, x, h => by
    rcases List.mem_cons.1 h with rfl | h
    · exact estimate_idem c
    · exact estimateIn t x h
theorem estimateAt_idem (k : Callsite) : (cs : List (Callsite × Sym)) → estimateAt k (estimateAt k cs) = estimateAt k cs
  | [] => by simp [estimateAt]
  | (k', c) :: t => by
    have h1 := estimate_idem c
    have h2 := estimateAt_idem k t
    rw [estimateAt]
    by_cases h : k' = k
    · rw [if_pos h, estimateAt, if_pos h, h1, h2]
    · rw [if_neg h, estimateAt, if_neg h, h2]
end

theorem est_estimate (s : Sym) : s.estimate.est = s.est := by
  unfold Sym.est; rw [estimate_idem]

mutual
/-- **C44: the estimate is the entry count of the specification.** -/
theorem entry_est : (s : Sym) → s.WF → Entry s s.est
  | .mk d cs, hw => by
    have hwf := (Sym.WF_iff _).1 hw
    simp only [Sym.data, Sym.calls] at hwf
    unfold Sym.est
    have hfirst : ∀ q ∈ d.pos, (firstPos d.pos).1 ≤ q.1 := by
      intro q hq
      cases hd : d.pos with
      | nil => rw [hd] at hq; cases hq
      | cons a t =>
        have hs := hwf.1
        rw [hd] at hq hs
        rcases List.mem_cons.1 hq with rfl | hq
        · exact Nat.le_refl _
        · exact Nat.le_of_lt ((List.pairwise_cons.1 hs).1 q hq)
    rcases estimate_cases d cs with ⟨h, e⟩ | ⟨h, hk, e⟩ | ⟨h, k, hk, hlt, e⟩
    · rw [e]; exact Entry.recorded h
    · rw [e]
      have hcs : ∀ x ∈ cs, (firstPos d.pos).1 ≤ x.1.1 := by
        intro x hx
        cases hm : minCall (cs.map Prod.fst) with
        | none => rw [List.map_eq_nil_iff.1 (minCall_none hm)] at hx; cases hx
        | some k =>
          have h1 := hk k hm
          by_cases hxk : x.1 = k
          · rw [hxk]; exact h1
          · have := (minCall_some hm).2 x.1 (List.mem_map_of_mem hx) hxk
            unfold callLt at this
            simp only [decide_eq_true_eq] at this
            omega
      cases hd : d.pos with
      | nil =>
        simp only [Sym.data, firstPos]
        exact Entry.nothing h hd (by rw [hd] at hcs; exact hcs)
      | cons a t =>
        obtain ⟨o, p⟩ := a
        simp only [Sym.data, firstPos]
        refine Entry.loc (o := o) (p := p) h (by rw [hd]; simp) ?_ ?_
        · rw [hd] at hfirst ⊢; exact hfirst
        · rw [hd] at hcs; exact hcs
    · rw [e]
      have hmin := minCall_some hk
      obtain ⟨⟨k', c⟩, hm, rfl⟩ := List.mem_map.1 hmin.1
      have hl := lookup_of_mem hwf.2.2.1 hm
      simp only [Sym.data, hl, Option.map_some, Option.getD_some]
      refine Entry.call (k := k') (c := c) h hm (fun x hx hne => hmin.2 x.1 (List.mem_map_of_mem hx) hne) ?_ ?_ ?_
      · intro p hp'; exact Nat.lt_of_lt_of_le hlt (hfirst p hp')
      · intro hd; rw [hd] at hlt; exact hlt
      · exact entryIn cs hwf.2.2.2 (k', c) hm
theorem entryIn : (cs : List (Callsite × Sym)) → (∀ p ∈ cs, p.2.WF) → ∀ x ∈ cs, Entry x.2 x.2.est
  | [], _, x, h => by cases h
  | (k, c) :: t, hw, x, h => by
    rcases List.mem_cons.1 h with rfl | h
    · exact entry_est c (hw (k, c) (by simp))
    · exact entryIn t (fun p hp => hw p (by simp [hp])) x h
end

theorem Entry.unique {s : Sym} {n : Nat} (h : Entry s n) : ∀ {m}, s.WF → Entry s m → n = m := by
  induction h with
  | recorded h =>
    intro m _ h'
    cases h' with
    | recorded => rfl
    | call h0 => exact absurd h0 h
    | loc h0 => exact absurd h0 h
    | nothing h0 => exact absurd h0 h
  | @call d cs k c n h0 hm hmin hp hb hc ih =>
    intro m hw h'
    have hwf := (Sym.WF_iff _).1 hw
    simp only [Sym.data, Sym.calls] at hwf
    cases h' with
    | recorded h => exact absurd h0 h
    | @call _ _ k' c' _ _ hm' hmin' _ _ hc' =>
      have hkk : k = k' := by
        by_contra hne
        have h1 := hmin (k', c') hm' (Ne.symm hne)
        have h2 := hmin' (k, c) hm hne
        have := callLt_trans h1 h2
        rw [callLt_irrefl] at this
        cases this
      subst hkk
      have h1 := lookup_of_mem hwf.2.2.1 hm
      rw [lookup_of_mem hwf.2.2.1 hm'] at h1
      cases h1
      exact ih (hwf.2.2.2 _ hm) hc'
    | @loc _ _ o p _ hop _ hcs =>
      have h1 := hp _ hop
      have h2 := hcs _ hm
      simp only at h1 h2
      omega
    | nothing _ hd hcs =>
      have h1 := hb hd
      have h2 := hcs _ hm
      simp only at h2
      omega
  | @loc d cs o p h0 hop hmin hcs =>
    intro m hw h'
    have hwf := (Sym.WF_iff _).1 hw
    simp only [Sym.data, Sym.calls] at hwf
    cases h' with
    | recorded h => exact absurd h0 h
    | @call _ _ k' c' _ _ hm' _ hp' _ _ =>
      have h1 := hp' _ hop
      have h2 := hcs _ hm'
      simp only at h1 h2
      omega
    | @loc _ _ o' p' _ hop' hmin' _ =>
      have h1 := hmin _ hop'
      have h2 := hmin' _ hop
      have : o = o' := by simp only at h1 h2; omega
      subst this
      have h3 := OMap.find?_some_of_mem hwf.1 hop
      rw [OMap.find?_some_of_mem hwf.1 hop'] at h3
      cases h3; rfl
    | nothing _ hd _ => rw [hd] at hop; cases hop
  | @nothing d cs h0 hd hcs =>
    intro m hw h'
    cases h' with
    | recorded h => exact absurd h0 h
    | @call _ _ k' c' _ _ hm' _ _ hb' _ =>
      have h1 := hb' hd
      have h2 := hcs _ hm'
      simp only at h2
      omega
    | loc _ hop _ _ => rw [hd] at hop; cases hop
    | nothing => rfl

/-! ### One instance -/

/-- What is merged into the flat function for a popped symbol. -/
def flatOf (s : Sym) : Data := { s.data with pos := (s.calls.map fun x => (x.1, x.2.estimate)).foldl flattenCallsite s.data.pos }

theorem foldl_max_init (l : List Nat) : ∀ a b : Nat, l.foldl max (max a b) = max (l.foldl max a) b := by
  induction l with
  | nil => intro a b; rfl
  | cons x t ih =>
    intro a b
    rw [List.foldl_cons, List.foldl_cons, ← ih]
    congr 1
    omega

theorem flatten_obs : ∀ (cs : List (Callsite × Sym)) {pos : PosMap}, OMap.Sorted pos → pos.TargetsOk →
    OMap.Sorted (cs.foldl flattenCallsite pos) ∧ PosMap.TargetsOk (cs.foldl flattenCallsite pos) ∧ ∀ o,
    PosMap.countAt (cs.foldl flattenCallsite pos) o = ((cs.filter fun x => x.1.1 = o).map fun x => x.2.data.head).foldl max (pos.countAt o) ∧
    PosMap.instAt (cs.foldl flattenCallsite pos) o = pos.instAt o ∧
    ∀ t, PosMap.targetAt (cs.foldl flattenCallsite pos) o t = pos.targetAt o t + ((cs.filter fun x => x.1 = (o, t)).map fun x => x.2.data.head).sum := by
  intro cs
  induction cs with
  | nil => intro pos h1 h2; exact ⟨h1, h2, fun o => ⟨rfl, rfl, fun t => rfl⟩⟩
  | cons x cs ih =>
    intro pos h1 h2
    rw [List.foldl_cons]
    have s1 : OMap.Sorted (flattenCallsite pos x) := PosMap.sorted_modify h1 _ _
    have s2 : PosMap.TargetsOk (flattenCallsite pos x) := PosMap.targetsOk_modify h1 h2 _ _ fun p hp => OMap.Sorted.add hp _
    obtain ⟨i1, i2, i3⟩ := ih s1 s2
    refine ⟨i1, i2, fun o => ?_⟩
    obtain ⟨j1, j2, j3⟩ := i3 o
    have hf : OMap.find? (flattenCallsite pos x) o = _ := PosMap.find?_modify h1 x.1.1 _ o
    refine ⟨?_, ?_, fun t => ?_⟩
    · rw [j1]
      unfold PosMap.countAt
      rw [hf]
      by_cases hx : o = x.1.1
      · rw [if_pos hx]
        have hd : decide (x.1.1 = o) = true := by simp [hx]
        rw [List.filter_cons_of_pos (by exact hd)]
        simp only [Option.getD_some, List.map_cons, List.foldl_cons]
        rw [hx]
      · rw [if_neg hx, List.filter_cons_of_neg (by simpa using Ne.symm hx)]
    · rw [j2]
      unfold PosMap.instAt
      rw [hf]
      by_cases hx : o = x.1.1
      · rw [if_pos hx]; simp [hx]
      · rw [if_neg hx]
    · rw [j3]
      unfold PosMap.targetAt
      rw [hf]
      by_cases hx : o = x.1.1
      · rw [if_pos hx]
        simp only [Option.getD_some, OMap.get0]
        rw [OMap.find?_add (PosMap.targetsOk_getD h2 x.1.1), hx]
        by_cases ht : t = x.1.2
        · rw [if_pos ht, List.filter_cons_of_pos (by simp [ht])]
          simp only [Option.getD_some, List.map_cons, List.sum_cons]
          rw [ht]
          simp only [OMap.get0]
          omega
        · rw [if_neg ht, List.filter_cons_of_neg (by
            simp only [decide_eq_true_eq]
            intro e; exact ht (by rw [e]))]
      · rw [if_neg hx, List.filter_cons_of_neg (by
            simp only [decide_eq_true_eq]
            intro e; exact hx (by rw [e]))]

/-- The flattened locations of one instance. -/
theorem flatOf_obs {s : Sym} (hw : s.WF) : OMap.Sorted (flatOf s).pos ∧ (flatOf s).pos.TargetsOk ∧ ∀ o,
    (flatOf s).pos.countAt o = flatCount s o ∧ (flatOf s).pos.instAt o = s.data.pos.instAt o ∧
    ∀ t, (flatOf s).pos.targetAt o t = flatTarget s o t := by
  have hwf := (Sym.WF_iff _).1 hw
  obtain ⟨h1, h2, h3⟩ := flatten_obs (s.calls.map fun x => (x.1, x.2.estimate)) hwf.1 hwf.2.1
  refine ⟨h1, h2, fun o => ?_⟩
  obtain ⟨j1, j2, j3⟩ := h3 o
  refine ⟨?_, j2, fun t => ?_⟩
  · refine j1.trans ?_
    unfold flatCount Sym.est
    rw [List.filter_map, List.map_map]
    rfl
  · refine (j3 t).trans ?_
    unfold flatTarget Sym.est
    rw [List.filter_map, List.map_map]
    rfl

theorem estimate_data (s : Sym) : s.estimate.data = { s.data with head := s.est } := by
  obtain ⟨d, cs⟩ := s
  unfold Sym.est
  rcases estimate_cases d cs with ⟨h, e⟩ | ⟨h, hk, e⟩ | ⟨h, k, hk, hlt, e⟩ <;> rw [e] <;> rfl

theorem estimateAt_map (k : Callsite) : ∀ cs : List (Callsite × Sym),
    (estimateAt k cs).map (fun x => (x.1, x.2.estimate)) = cs.map fun x => (x.1, x.2.estimate)
  | [] => by simp [estimateAt]
  | (k', c) :: t => by
    rw [estimateAt]
    by_cases h : k' = k
    · rw [if_pos h, List.map_cons, estimateAt_map k t, List.map_cons, estimate_idem]
    · rw [if_neg h, List.map_cons, estimateAt_map k t, List.map_cons]

theorem estimate_calls (s : Sym) : s.estimate.calls.map (fun x => (x.1, x.2.estimate)) = s.calls.map fun x => (x.1, x.2.estimate) := by
  obtain ⟨d, cs⟩ := s
  rcases estimate_cases d cs with ⟨h, e⟩ | ⟨h, hk, e⟩ | ⟨h, k, hk, hlt, e⟩ <;> rw [e]
  · rfl
  · exact estimateAt_map k cs

theorem flatOf_estimate (s : Sym) : flatOf s.estimate = { flatOf s with head := s.est } := by
  unfold flatOf
  rw [estimate_calls, estimate_data]

mutual
/-- The data merged for the inline instances. -/
def Sym.inner : Sym → List (Name × Data) | .mk _ cs => innerCalls cs
def innerCalls : List (Callsite × Sym) → List (Name × Data)
  | [] => []
  | (k, c) :: t => (k.2, { flatOf c with head := c.est }) :: (c.inner ++ innerCalls t)
end

mutual
theorem inner_eq : (s : Sym) → s.inner = s.inlined.map fun x => (x.1, { flatOf x.2 with head := x.2.est })
  | .mk d cs => by rw [Sym.inner, Sym.inlined, innerCalls_eq cs]
theorem innerCalls_eq : (cs : List (Callsite × Sym)) → innerCalls cs = (inlinedCalls cs).map fun x => (x.1, { flatOf x.2 with head := x.2.est })
  | [] => by simp [innerCalls, inlinedCalls]
  | (k, c) :: t => by rw [innerCalls, inlinedCalls, List.map_cons, List.map_append, inner_eq c, innerCalls_eq t]
end

mutual
theorem inner_estimate : (s : Sym) → s.estimate.inner = s.inner
  | .mk d cs => by
    rcases estimate_cases d cs with ⟨h, e⟩ | ⟨h, hk, e⟩ | ⟨h, k, hk, hlt, e⟩ <;> rw [e]
    · rw [Sym.inner, Sym.inner]
    · rw [Sym.inner, Sym.inner, inner_estimateAt k cs]
theorem inner_estimateAt (k : Callsite) : (cs : List (Callsite × Sym)) → innerCalls (estimateAt k cs) = innerCalls cs
  | [] => by simp [estimateAt]
  | (k', c) :: t => by
    have h1 := inner_estimate c
    have h2 := inner_estimateAt k t
    rw [estimateAt]
    by_cases h : k' = k
    · rw [if_pos h, innerCalls, innerCalls, h1, h2, flatOf_estimate, est_estimate]
    · rw [if_neg h, innerCalls, innerCalls, h2]
end

mutual
theorem size_estimate : (s : Sym) → s.estimate.size = s.size
  | .mk d cs => by
    rcases estimate_cases d cs with ⟨h, e⟩ | ⟨h, hk, e⟩ | ⟨h, k, hk, hlt, e⟩ <;> rw [e]
    · rw [Sym.size, Sym.size]
    · rw [Sym.size, Sym.size, size_estimateAt k cs]
theorem size_estimateAt (k : Callsite) : (cs : List (Callsite × Sym)) → sizeCalls (estimateAt k cs) = sizeCalls cs
  | [] => by simp [estimateAt]
  | (k', c) :: t => by
    have h1 := size_estimate c
    have h2 := size_estimateAt k t
    rw [estimateAt]
    by_cases h : k' = k
    · rw [if_pos h, sizeCalls, sizeCalls, h1, h2]
    · rw [if_neg h, sizeCalls, sizeCalls, h2]
end

theorem sizeCalls_eq : ∀ cs : List (Callsite × Sym), sizeCalls cs = (cs.map fun x => x.2.size).sum
  | [] => by simp [sizeCalls]
  | (k, c) :: t => by rw [sizeCalls, List.map_cons, List.sum_cons, sizeCalls_eq t]

theorem innerCalls_flat : ∀ cs : List (Callsite × Sym), innerCalls cs =
    (cs.map fun x => (x.1.2, x.2.estimate)).flatMap fun x => (x.1, flatOf x.2) :: x.2.inner
  | [] => by simp [innerCalls]
  | (k, c) :: t => by
    rw [innerCalls, innerCalls_flat t, List.map_cons, List.flatMap_cons, flatOf_estimate, inner_estimate]
    rfl

/-! ### The loop -/

/-- `AddSymbolToMap` and `FlatMerge`. -/
def mergeFlat (m : OMap Name Sym) (x : Name × Data) : OMap Name Sym := atName m x.1 fun t => t.flatMerge x.2

theorem flatLoop_ok : ∀ (fuel : Nat) (st : List (Name × Sym)) (m : OMap Name Sym), (st.map fun x => x.2.size).sum ≤ fuel →
    ∃ L : List (Name × Data), L.Perm (st.flatMap fun x => (x.1, flatOf x.2) :: x.2.inner) ∧ flatLoop false fuel st m = some (L.foldl mergeFlat m) := by
  intro fuel
  induction fuel with
  | zero =>
    intro st m h
    cases st with
    | nil => exact ⟨[], by simp, rfl⟩
    | cons x st =>
      exfalso
      obtain ⟨n, d, cs⟩ := x
      simp only [List.map_cons, List.sum_cons, Sym.size] at h
      omega
  | succ fuel ih =>
    intro st m h
    cases st with
    | nil => exact ⟨[], by simp, rfl⟩
    | cons x st =>
      obtain ⟨n, d, cs⟩ := x
      rw [flatLoop]
      simp only [List.map_cons, List.sum_cons, Sym.size] at h
      obtain ⟨L, hp, e⟩ := ih (((Sym.mk d cs).calls.map fun x => (x.1.2, x.2.estimate)).reverse ++ st) (mergeFlat m (n, flatOf (.mk d cs))) (by
        rw [List.map_append, List.map_reverse, List.sum_append, List.sum_reverse, List.map_map]
        have : (cs.map ((fun x : Name × Sym => x.2.size) ∘ fun x : Callsite × Sym => (x.1.2, x.2.estimate))).sum = sizeCalls cs := by
          rw [sizeCalls_eq]
          congr 1
          exact List.map_congr_left fun x _ => size_estimate x.2
        simp only [Sym.calls]
        rw [this]
        omega)
      refine ⟨(n, flatOf (.mk d cs)) :: L, ?_, e⟩
      rw [List.flatMap_cons, List.cons_append]
      refine List.Perm.cons _ (hp.trans ?_)
      rw [List.flatMap_append]
      refine List.Perm.append_right _ ?_
      rw [Sym.inner, innerCalls_flat]
      exact List.Perm.flatMap_right _ (List.reverse_perm _)

/-- The function `f` of a map, after flat merges of `L`. -/
structure FlatSum (L : List (Name × Data)) (f : Name) (s : Sym) : Prop where
  wf : s.WF
  calls : s.calls = []
  count : ∀ o, s.data.pos.countAt o = ((L.filter fun x => x.1 = f).map fun x => x.2.pos.countAt o).sum
  inst : ∀ o, s.data.pos.instAt o = ((L.filter fun x => x.1 = f).map fun x => x.2.pos.instAt o).sum
  target : ∀ o t, s.data.pos.targetAt o t = ((L.filter fun x => x.1 = f).map fun x => x.2.pos.targetAt o t).sum
  head : s.data.head = ((L.filter fun x => x.1 = f).map fun x => x.2.head).sum
  total : s.data.total = (s.data.pos.map fun p => p.2.count).sum

theorem sum_upsert (k : Nat) (c : PInfo → Nat) (hc : c PInfo.zero = 0) (f : PInfo → PInfo) (a : Nat) (hf : ∀ p, c (f p) = c p + a) :
    ∀ m : PosMap, ((PosMap.modify m k f).map fun p => c p.2).sum = (m.map fun p => c p.2).sum + a := by
  intro m
  unfold PosMap.modify
  induction m with
  | nil => simp [OMap.upsert, hf, hc]
  | cons x t ih =>
    obtain ⟨k', v⟩ := x
    rw [OMap.upsert]
    split
    · simp [hf, hc]; omega
    · split
      · simp [hf]; omega
      · simp only [List.map_cons, List.sum_cons, ih]; omega

theorem sum_addAll : ∀ (xs : List (Nat × PInfo)) (m : PosMap),
    ((PosMap.addAll m xs).map fun p => p.2.count).sum = (m.map fun p => p.2.count).sum + (xs.map fun p => p.2.count).sum := by
  intro xs
  induction xs with
  | nil => intro m; rfl
  | cons x t ih =>
    intro m
    unfold PosMap.addAll at ih ⊢
    rw [List.foldl_cons, ih, sum_upsert x.1 PInfo.count rfl _ x.2.count (fun p => rfl)]
    simp only [List.map_cons, List.sum_cons]
    omega

theorem FlatSum.zero (f : Name) : FlatSum [] f Sym.new where
  wf := Sym.WF.new
  calls := rfl
  count := fun _ => rfl
  inst := fun _ => rfl
  target := fun _ _ => rfl
  head := rfl
  total := rfl

theorem FlatSum.skip {L : List (Name × Data)} {f : Name} {s : Sym} (h : FlatSum L f s) {x : Name × Data} (hx : x.1 ≠ f) : FlatSum (L ++ [x]) f s := by
  have : (L ++ [x]).filter (fun x => x.1 = f) = L.filter fun x => x.1 = f := by
    rw [List.filter_append, List.filter_cons_of_neg (by simpa using hx)]; simp
  exact ⟨h.wf, h.calls, by rw [this]; exact h.count, by rw [this]; exact h.inst, by rw [this]; exact h.target, by rw [this]; exact h.head, h.total⟩

theorem FlatSum.add {L : List (Name × Data)} {f : Name} {s : Sym} (h : FlatSum L f s) {x : Name × Data} (hx : x.1 = f)
    (hs : OMap.Sorted x.2.pos) (ht : x.2.pos.TargetsOk) : FlatSum (L ++ [x]) f (s.flatMerge x.2) := by
  have hl : (L ++ [x]).filter (fun x => x.1 = f) = (L.filter fun x => x.1 = f) ++ [x] := by
    rw [List.filter_append, List.filter_cons_of_pos (by simpa using hx)]; simp
  have hwf := (Sym.WF_iff _).1 h.wf
  have hobs := fun o => PosMap.addAll_obs hwf.1 hwf.2.1 hs ht o
  refine ⟨?_, h.calls, fun o => ?_, fun o => ?_, fun o t => ?_, ?_, ?_⟩
  · rw [Sym.WF_iff]
    exact ⟨PosMap.sorted_addAll hwf.1 _, PosMap.targetsOk_addAll hwf.1 hwf.2.1 _, hwf.2.2.1, hwf.2.2.2⟩
  · rw [hl, List.map_append, List.sum_append, ← h.count]
    simpa [Sym.flatMerge, Sym.data] using (hobs o).1
  · rw [hl, List.map_append, List.sum_append, ← h.inst]
    simpa [Sym.flatMerge, Sym.data] using (hobs o).2.1
  · rw [hl, List.map_append, List.sum_append, ← h.target]
    simpa [Sym.flatMerge, Sym.data] using (hobs o).2.2.1 t
  · rw [hl, List.map_append, List.sum_append, ← h.head]
    simp [Sym.flatMerge, Sym.data]
  · have := h.total
    simp only [Sym.flatMerge, Sym.data] at this ⊢
    rw [sum_addAll, ← this]

theorem mergeFlat_fold : ∀ (L : List (Name × Data)), (∀ x ∈ L, OMap.Sorted x.2.pos ∧ x.2.pos.TargetsOk) →
    OMap.Sorted (L.foldl mergeFlat []) ∧ ∀ f,
      match OMap.find? (L.foldl mergeFlat []) f with
      | some s => FlatSum L f s ∧ f ∈ L.map Prod.fst
      | none => f ∉ L.map Prod.fst := by
  intro L
  induction L using List.reverseRecOn with
  | nil => intro _; exact ⟨OMap.sorted_nil, fun f => by simp [OMap.find?]⟩
  | append_singleton L x ih =>
    intro hL
    obtain ⟨h1, h2⟩ := ih fun y hy => hL y (by simp [hy])
    rw [List.foldl_append, List.foldl_cons, List.foldl_nil]
    refine ⟨OMap.Sorted.upsert h1 _ _, fun f => ?_⟩
    have hf : OMap.find? (mergeFlat (L.foldl mergeFlat []) x) f = _ := OMap.find?_upsert h1 x.1 _ f
    rw [hf]
    have h2 := h2 f
    by_cases hx : f = x.1
    · rw [if_pos hx]
      have hx' := hL x (by simp)
      subst hx
      cases hfind : OMap.find? (L.foldl mergeFlat []) x.1 with
      | none =>
        rw [hfind] at h2
        simp only [Option.getD_none]
        have hnil : L.filter (fun y => y.1 = x.1) = [] := by
          rw [List.filter_eq_nil_iff]
          intro y hy e
          simp only [decide_eq_true_eq] at e
          exact h2 (List.mem_map.2 ⟨y, hy, e⟩)
        have hz : FlatSum L x.1 Sym.new := by
          have := FlatSum.zero x.1
          refine ⟨this.wf, this.calls, ?_, ?_, ?_, ?_, this.total⟩ <;> rw [hnil]
          · exact this.count
          · exact this.inst
          · exact this.target
          · exact this.head
        exact ⟨hz.add rfl hx'.1 hx'.2, by simp⟩
      | some s =>
        rw [hfind] at h2
        simp only [Option.getD_some]
        exact ⟨h2.1.add rfl hx'.1 hx'.2, by simp⟩
    · rw [if_neg hx]
      cases hfind : OMap.find? (L.foldl mergeFlat []) f with
      | none =>
        rw [hfind] at h2
        simp only [List.map_append, List.mem_append, not_or]
        exact ⟨h2, by simpa using hx⟩
      | some s =>
        rw [hfind] at h2
        exact ⟨h2.1.skip (Ne.symm hx), by simp only [List.map_append, List.mem_append]; exact Or.inl h2.2⟩

mutual
theorem inlined_wf : (s : Sym) → s.WF → ∀ x ∈ s.inlined, x.2.WF
  | .mk d cs, h => by
    rw [Sym.inlined]
    exact inlinedCalls_wf cs ((Sym.WF_iff _).1 h).2.2.2
theorem inlinedCalls_wf : (cs : List (Callsite × Sym)) → (∀ p ∈ cs, p.2.WF) → ∀ x ∈ inlinedCalls cs, x.2.WF
  | [], _, x, hx => by simp [inlinedCalls] at hx
  | (k, c) :: t, h, x, hx => by
    rw [inlinedCalls] at hx
    rcases List.mem_cons.1 hx with rfl | hx
    · exact h (k, c) (by simp)
    · rcases List.mem_append.1 hx with hx | hx
      · exact inlined_wf c (h (k, c) (by simp)) x hx
      · exact inlinedCalls_wf t (fun p hp => h p (by simp [hp])) x hx
end

/-- **C44: flattening terminates; the flat profile has a function exactly for each function and inline instance; and each has,
per location, the sums over all its instances.** -/
theorem buildFlat_ok (threshold : Nat) (src : OMap Name Sym) (hw : ∀ x ∈ src, x.2.WF) :
    ∃ m, buildFlat false threshold src = some m ∧ OMap.Sorted m ∧ ∀ f,
      match OMap.find? m f with
      | none => instances src f = []
      | some s => instances src f ≠ [] ∧ s.calls = [] ∧
        (∀ o, s.data.pos.countAt o = ((instances src f).map fun i => flatCount i o).sum) ∧
        (∀ o, s.data.pos.instAt o = ((instances src f).map fun i => i.data.pos.instAt o).sum) ∧
        (∀ o t, s.data.pos.targetAt o t = ((instances src f).map fun i => flatTarget i o t).sum) ∧
        s.data.head = ((src.filter fun x => x.1 = f).map fun x => x.2.data.head).sum +
          (((src.flatMap fun x => x.2.inlined).filter fun x => x.1 = f).map fun x => x.2.est).sum ∧
        s.data.total = (s.data.pos.map fun p => p.2.count).sum := by
  unfold buildFlat
  have e1 : (src.filter fun x => decide ¬(false = true ∧ threshold ≤ x.2.data.total)) = src := by
    rw [List.filter_eq_self]; simp
  have e2 : (src.filter fun x => decide (false = true ∧ threshold ≤ x.2.data.total)) = [] := by
    rw [List.filter_eq_nil_iff]; simp
  rw [e1, e2]
  obtain ⟨L, hp, e⟩ := flatLoop_ok (src.map fun x => x.2.size).sum src.reverse [] (by rw [List.map_reverse, List.sum_reverse])
  have hp := hp.trans (List.Perm.flatMap_right _ (List.reverse_perm src))
  have hflat : ∀ x ∈ src.flatMap fun x => (x.1, flatOf x.2) :: x.2.inner, OMap.Sorted x.2.pos ∧ x.2.pos.TargetsOk := by
    intro x hx
    obtain ⟨y, hy, hx⟩ := List.mem_flatMap.1 hx
    rcases List.mem_cons.1 hx with rfl | hx
    · exact ⟨(flatOf_obs (hw y hy)).1, (flatOf_obs (hw y hy)).2.1⟩
    · rw [inner_eq] at hx
      obtain ⟨z, hz, rfl⟩ := List.mem_map.1 hx
      have := flatOf_obs (inlined_wf y.2 (hw y hy) z hz)
      exact ⟨this.1, this.2.1⟩
  obtain ⟨h1, h2⟩ := mergeFlat_fold L fun x hx => hflat x (hp.mem_iff.1 hx)
  refine ⟨_, e, h1, fun f => ?_⟩
  have h2 := h2 f
  -- the list in terms of instances
  have hsum : ∀ (φ : Data → Nat) (ψ : Sym → Nat), (∀ s : Sym, s.WF → φ (flatOf s) = ψ s) → (∀ (s : Sym) h, φ { flatOf s with head := h } = φ (flatOf s)) →
      ((L.filter fun x => x.1 = f).map fun x => φ x.2).sum = ((instances src f).map ψ).sum := by
    intro φ ψ h h'
    rw [((hp.filter _).map _).sum_eq]
    unfold instances
    rw [List.map_map]
    have : ∀ l : OMap Name Sym, (∀ x ∈ l, x.2.WF) →
        (((l.flatMap fun x => (x.1, flatOf x.2) :: x.2.inner).filter fun x => x.1 = f).map fun x => φ x.2) =
        ((l.flatMap fun x => x :: x.2.inlined).filter fun x => x.1 = f).map (ψ ∘ Prod.snd) := by
      intro l
      induction l with
      | nil => intro _; rfl
      | cons x l ih =>
        intro hl
        rw [List.flatMap_cons, List.flatMap_cons, List.filter_append, List.filter_append, List.map_append, List.map_append,
          ih fun y hy => hl y (by simp [hy])]
        congr 1
        have hin : ((x.2.inner.filter fun x => x.1 = f).map fun x => φ x.2) = (x.2.inlined.filter fun x => x.1 = f).map (ψ ∘ Prod.snd) := by
          rw [inner_eq, List.filter_map, List.map_map]
          refine List.map_congr_left fun y hy => ?_
          simp only [Function.comp]
          rw [h', h _ (inlined_wf x.2 (hl x (by simp)) y (List.mem_filter.1 hy).1)]
        by_cases hx : x.1 = f
        · rw [List.filter_cons_of_pos (by simpa using hx), List.filter_cons_of_pos (by simpa using hx), List.map_cons, List.map_cons, hin,
            h _ (hl x (by simp))]
          rfl
        · rw [List.filter_cons_of_neg (by simpa using hx), List.filter_cons_of_neg (by simpa using hx), hin]
    rw [this src hw]
  have hmem : f ∈ L.map Prod.fst ↔ instances src f ≠ [] := by
    rw [(hp.map _).mem_iff]
    unfold instances
    rw [Ne, List.map_eq_nil_iff, List.filter_eq_nil_iff]
    simp only [List.mem_map, List.mem_flatMap, List.mem_cons, decide_eq_true_eq, not_forall, not_not]
    constructor
    · rintro ⟨x, ⟨y, hy, rfl | hx⟩, rfl⟩
      · exact ⟨y, ⟨y, hy, Or.inl rfl⟩, rfl⟩
      · rw [inner_eq] at hx
        obtain ⟨z, hz, rfl⟩ := List.mem_map.1 hx
        exact ⟨z, ⟨y, hy, Or.inr hz⟩, rfl⟩
    · rintro ⟨x, ⟨y, hy, rfl | hx⟩, rfl⟩
      · exact ⟨_, ⟨x, hy, Or.inl rfl⟩, rfl⟩
      · exact ⟨_, ⟨y, hy, Or.inr (by rw [inner_eq]; exact List.mem_map.2 ⟨x, hx, rfl⟩)⟩, rfl⟩
  cases hfind : OMap.find? (L.foldl mergeFlat []) f with
  | none =>
    rw [hfind] at h2
    simp only
    by_contra hne
    exact h2 (hmem.2 hne)
  | some s =>
    rw [hfind] at h2
    obtain ⟨hs, hf⟩ := h2
    refine ⟨hmem.1 hf, hs.calls, fun o => ?_, fun o => ?_, fun o t => ?_, ?_, hs.total⟩
    · rw [hs.count]; exact hsum (fun d => d.pos.countAt o) _ (fun s hs => ((flatOf_obs hs).2.2 o).1) fun _ _ => rfl
    · rw [hs.inst]; exact hsum (fun d => d.pos.instAt o) (fun i => i.data.pos.instAt o) (fun s hs => ((flatOf_obs hs).2.2 o).2.1) fun _ _ => rfl
    · rw [hs.target]; exact hsum (fun d => d.pos.targetAt o t) _ (fun s hs => ((flatOf_obs hs).2.2 o).2.2 t) fun _ _ => rfl
    · rw [hs.head, ((hp.filter _).map _).sum_eq]
      have : ∀ l : OMap Name Sym,
          (((l.flatMap fun x => (x.1, flatOf x.2) :: x.2.inner).filter fun x => x.1 = f).map fun x => x.2.head).sum =
          ((l.filter fun x => x.1 = f).map fun x => x.2.data.head).sum +
          (((l.flatMap fun x => x.2.inlined).filter fun x => x.1 = f).map fun x => x.2.est).sum := by
        intro l
        induction l with
        | nil => rfl
        | cons x l ih =>
          have hin : ((x.2.inner.filter fun x => x.1 = f).map fun x => x.2.head).sum = ((x.2.inlined.filter fun x => x.1 = f).map fun x => x.2.est).sum := by
            rw [inner_eq, List.filter_map, List.map_map]; rfl
          rw [List.flatMap_cons, List.flatMap_cons, List.filter_append, List.filter_append, List.map_append, List.map_append, List.sum_append,
            List.sum_append, ih]
          by_cases hx : x.1 = f
          · rw [List.filter_cons_of_pos (by simpa using hx), List.filter_cons_of_pos (by simpa using hx), List.map_cons, List.map_cons, List.sum_cons,
              List.sum_cons, hin]
            simp only [flatOf]
            omega
          · rw [List.filter_cons_of_neg (by simpa using hx), List.filter_cons_of_neg (by simpa using hx), hin]
            omega
      exact this src

/-- **C44: at a location with no inlined call, the counts of all instances are added.** -/
theorem flatCount_eq {s : Sym} {o : Nat} (h : ∀ x ∈ s.calls, x.1.1 ≠ o) : flatCount s o = s.data.pos.countAt o := by
  unfold flatCount
  rw [List.filter_eq_nil_iff.2 (by simpa using h)]
  rfl

/-- **C44: selective flattening keeps the hot functions, and flattens each other function alone, turning its inlined calls into
calls.** -/
theorem buildFlat_selective (threshold : Nat) (src : OMap Name Sym) (hs : OMap.Sorted src) :
    ∃ m, buildFlat true threshold src = some m ∧ OMap.Sorted m ∧ ∀ f,
      OMap.find? m f = (OMap.find? src f).map fun s => if threshold ≤ s.data.total then Sym.new.merge s else Sym.new.flatMerge (flatOf s) := by
  unfold buildFlat
  have hl : ∀ (fuel : Nat) (st : List (Name × Sym)) (m : OMap Name Sym), st.length ≤ fuel →
      flatLoop true fuel st m = some (st.foldl (fun m x => atName m x.1 fun t => t.flatMerge (flatOf x.2)) m) := by
    intro fuel
    induction fuel with
    | zero =>
      intro st m h
      cases st with
      | nil => rfl
      | cons x st => simp at h
    | succ fuel ih =>
      intro st m h
      cases st with
      | nil => rfl
      | cons x st =>
        obtain ⟨n, s⟩ := x
        rw [flatLoop, if_pos rfl, ih _ _ (by simpa using h)]
        rfl
  have hsize : src.length ≤ (src.map fun x => x.2.size).sum := by
    clear hs
    induction src with
    | nil => simp
    | cons x l ih =>
      obtain ⟨n, d, cs⟩ := x
      simp only [List.length_cons, List.map_cons, List.sum_cons, Sym.size]
      omega
  rw [hl _ _ _ (by
    rw [List.length_reverse]
    exact Nat.le_trans (List.length_filter_le _ _) hsize)]
  refine ⟨_, rfl, ?_⟩
  -- folds that touch each name once
  have hfold : ∀ (g : Name × Sym → Sym → Sym) (l : List (Name × Sym)) (m : OMap Name Sym), OMap.Sorted m → (l.map Prod.fst).Nodup →
      OMap.Sorted (l.foldl (fun m x => atName m x.1 (g x)) m) ∧
      (∀ f, f ∉ l.map Prod.fst → OMap.find? (l.foldl (fun m x => atName m x.1 (g x)) m) f = OMap.find? m f) ∧
      ∀ x ∈ l, OMap.find? (l.foldl (fun m x => atName m x.1 (g x)) m) x.1 = some (g x ((OMap.find? m x.1).getD Sym.new)) := by
    intro g l
    induction l with
    | nil => intro m hm _; exact ⟨hm, fun _ _ => rfl, by simp⟩
    | cons a l ih =>
      intro m hm hn
      rw [List.map_cons, List.nodup_cons] at hn
      obtain ⟨i1, i2, i3⟩ := ih (atName m a.1 (g a)) (OMap.Sorted.upsert hm _ _) hn.2
      have hfa : ∀ f, OMap.find? (atName m a.1 (g a)) f = _ := fun f => OMap.find?_upsert hm a.1 _ f
      rw [List.foldl_cons]
      refine ⟨i1, fun f hf => ?_, fun x hx => ?_⟩
      · rw [List.map_cons, List.mem_cons, not_or] at hf
        rw [i2 f hf.2, hfa, if_neg hf.1]
      · rcases List.mem_cons.1 hx with rfl | hx
        · rw [i2 _ hn.1, hfa, if_pos rfl]
        · rw [i3 x hx, hfa, if_neg]
          rintro e
          exact hn.1 (e ▸ List.mem_map_of_mem hx)
  have hnd : (src.map Prod.fst).Nodup := by
    rw [List.Nodup, List.pairwise_map]
    exact hs.imp fun h => ne_of_lt h
  have hnd1 : ((src.filter fun x => decide (true = true ∧ threshold ≤ x.2.data.total)).map Prod.fst).Nodup := hnd.sublist (List.filter_sublist.map _)
  have hnd2 : ((src.filter fun x => decide ¬(true = true ∧ threshold ≤ x.2.data.total)).reverse.map Prod.fst).Nodup := by
    rw [List.map_reverse, List.nodup_reverse]
    exact hnd.sublist (List.filter_sublist.map _)
  obtain ⟨a1, a2, a3⟩ := hfold (fun x t => t.merge x.2) _ [] OMap.sorted_nil hnd1
  obtain ⟨b1, b2, b3⟩ := hfold (fun x t => t.flatMerge (flatOf x.2)) _ _ a1 hnd2
  refine ⟨b1, fun f => ?_⟩
  have huniq : ∀ x ∈ src, ∀ y ∈ src, x.1 = y.1 → x = y := by
    intro x hx y hy e
    have h1 := OMap.find?_some_of_mem hs (k := x.1) (v := x.2) hx
    have h2 := OMap.find?_some_of_mem hs (k := y.1) (v := y.2) hy
    rw [e, h2, Option.some.injEq] at h1
    exact Prod.ext e h1.symm
  cases hfind : OMap.find? src f with
  | none =>
    have hf : ∀ x ∈ src, x.1 ≠ f := by
      rintro x hx rfl
      rw [OMap.find?_some_of_mem hs (v := x.2) hx] at hfind
      cases hfind
    have hf' : ∀ p : Name × Sym → Bool, f ∉ (src.filter p).map Prod.fst := by
      intro p hm
      obtain ⟨x, hx, e⟩ := List.mem_map.1 hm
      exact hf x (List.mem_filter.1 hx).1 e
    rw [b2 f (by rw [List.map_reverse, List.mem_reverse]; exact hf' _), a2 f (hf' _)]
    rfl
  | some s =>
    have hm := OMap.mem_of_find?_some hfind
    rw [Option.map_some]
    by_cases ht : threshold ≤ s.data.total
    · rw [if_pos ht, b2 f, a3 (f, s) (List.mem_filter.2 ⟨hm, by simpa using ht⟩)]
      · rfl
      · rw [List.map_reverse, List.mem_reverse]
        intro hmm
        obtain ⟨x, hx, e⟩ := List.mem_map.1 hmm
        have := huniq x (List.mem_filter.1 hx).1 (f, s) hm e
        subst this
        have := (List.mem_filter.1 hx).2
        simp at this
        omega
    · rw [if_neg ht, b3 (f, s) (by rw [List.mem_reverse]; exact List.mem_filter.2 ⟨hm, by simpa using ht⟩), a2 f]
      · rfl
      · intro hmm
        obtain ⟨x, hx, e⟩ := List.mem_map.1 hmm
        have := huniq x (List.mem_filter.1 hx).1 (f, s) hm e
        subst this
        have := (List.mem_filter.1 hx).2
        simp at this
        omega

/-! ### Example -/

/-- `f` inlines `g` twice and `h`, whose first instruction is in an inlined `g`. -/
def exFlat : OMap Name Sym :=
  [([102], .mk ⟨30, 4, [(1, ⟨6, 1, [([103], 2)]⟩), (2, ⟨3, 1, []⟩)]⟩
      [((2, [103]), .mk ⟨5, 0, [(1, ⟨5, 1, []⟩)]⟩ []), ((3, [103]), .mk ⟨7, 0, [(1, ⟨7, 1, []⟩)]⟩ []),
       ((2, [104]), .mk ⟨9, 0, [(4, ⟨1, 1, []⟩)]⟩ [((2, [103]), .mk ⟨8, 0, [(1, ⟨8, 1, []⟩)]⟩ [])])]),
   ([103], .mk ⟨11, 2, [(1, ⟨11, 1, []⟩)]⟩ [])]

example : ∀ x ∈ exFlat, x.2.WF := by
  simp [exFlat, Sym.WF, WFCalls, OMap.Sorted]
example : (instances exFlat [103]).length = 4 := by decide +kernel
/-- Name, entry count, and for each location its count and targets. -/
def showFlat (m : OMap Name Sym) : List (List UInt8 × List (List Nat)) :=
  m.map fun x => (x.1, [x.2.data.head] :: x.2.data.pos.flatMap fun p => [p.1, p.2.count] :: p.2.targets.map fun t => t.2 :: t.1.map UInt8.toNat)

example : (buildFlat false 0 exFlat).map showFlat = some
    [([102], [[4], [1, 6], [2, 103], [2, 8], [5, 103], [8, 104], [3, 7], [7, 103]]),
     ([103], [[22], [1, 31]]), ([104], [[8], [2, 8], [8, 103], [4, 1]])] := by decide +kernel

end Verif.SymbolMap

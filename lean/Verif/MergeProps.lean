import Verif.SymLemmas

/-!
# Property C11: merging symbol profiles

Specification: what a user can read off a symbol profile, addressed by the inline path (outermost
callsite first) and the source location.  Absent entries read as 0.
-/
namespace Verif.SymbolMap

/-- Total count of the inline instance at `path`. -/
def Sym.totalAt (s : Sym) (path : List Callsite) : Nat := ((s.node? path).getD Data.zero).total
/-- Entry count of the inline instance at `path`. -/
def Sym.headAt (s : Sym) (path : List Callsite) : Nat := ((s.node? path).getD Data.zero).head
/-- Sample count at a location of the inline instance at `path`. -/
def Sym.countAt (s : Sym) (path : List Callsite) (loc : Nat) : Nat :=
  ((s.node? path).getD Data.zero).pos.countAt loc
/-- Instruction count at a location of the inline instance at `path`. -/
def Sym.instAt (s : Sym) (path : List Callsite) (loc : Nat) : Nat :=
  ((s.node? path).getD Data.zero).pos.instAt loc
/-- Call-target count at a location of the inline instance at `path`. -/
def Sym.targetAt (s : Sym) (path : List Callsite) (loc : Nat) (callee : Name) : Nat :=
  ((s.node? path).getD Data.zero).pos.targetAt loc callee

/-- Everything observable in a profile agrees. -/
def Sym.SameCounts (a b : Sym) : Prop :=
  ∀ path, (a.node? path).isSome = (b.node? path).isSome ∧ a.totalAt path = b.totalAt path ∧
    a.headAt path = b.headAt path ∧
    ∀ loc, a.countAt path loc = b.countAt path loc ∧ a.instAt path loc = b.instAt path loc ∧
      ∀ n, a.targetAt path loc n = b.targetAt path loc n

theorem Sym.WF.node {s : Sym} (h : s.WF) (p : List Callsite) :
    OMap.Sorted ((s.node? p).getD Data.zero).pos ∧
      PosMap.TargetsOk ((s.node? p).getD Data.zero).pos := by
  induction p generalizing s with
  | nil =>
    have := (Sym.WF_iff s).1 h
    exact ⟨this.1, this.2.1⟩
  | cons k p ih =>
    simp only [Sym.node?]
    cases hk : lookup s.calls k with
    | none => simp [Data.zero, OMap.Sorted, PosMap.TargetsOk]
    | some c => exact ih (h.child hk)

/-- C11 (conservation): merging `b` into `a` makes every total, entry count, location count,
instruction count and call-target count, at every inline path, the sum of the two profiles', and
the inline instances of the result are exactly those of either profile. -/
theorem merge_adds (a b : Sym) (ha : a.WF) (hb : b.WF) (path : List Callsite) :
    ((a.merge b).node? path).isSome = ((a.node? path).isSome || (b.node? path).isSome) ∧
    (a.merge b).totalAt path = a.totalAt path + b.totalAt path ∧
    (a.merge b).headAt path = a.headAt path + b.headAt path ∧
    ∀ loc, (a.merge b).countAt path loc = a.countAt path loc + b.countAt path loc ∧
      (a.merge b).instAt path loc = a.instAt path loc + b.instAt path loc ∧
      ∀ n, (a.merge b).targetAt path loc n = a.targetAt path loc n + b.targetAt path loc n := by
  have h1 := ha.node path
  have h2 := hb.node path
  have hz : ∀ x : Data, ∀ loc, (Data.zero.pos.countAt loc = 0 ∧ Data.zero.pos.instAt loc = 0 ∧
      ∀ n, Data.zero.pos.targetAt loc n = 0) := by
    intro x loc
    simp [Data.zero, PosMap.countAt, PosMap.instAt, PosMap.targetAt, OMap.find?, PInfo.zero,
      OMap.get0]
  simp only [Sym.totalAt, Sym.headAt, Sym.countAt, Sym.instAt, Sym.targetAt]
  rw [node?_merge path a b hb]
  cases hna : a.node? path with
  | none =>
    cases hnb : b.node? path with
    | none => simp [Data.zero, PosMap.countAt, PosMap.instAt, PosMap.targetAt, OMap.find?,
        PInfo.zero, OMap.get0]
    | some y =>
      rw [hnb] at h2
      simp only [Option.getD_some] at h2
      refine ⟨by simp, by simp [Data.add, Data.zero], by simp [Data.add, Data.zero], fun loc => ?_⟩
      have := PosMap.addAll_obs (m := Data.zero.pos) (by simp [Data.zero, OMap.Sorted])
        (by simp [Data.zero, PosMap.TargetsOk]) h2.1 h2.2 loc
      exact ⟨this.1, this.2.1, this.2.2.1⟩
  | some x =>
    rw [hna] at h1
    cases hnb : b.node? path with
    | none =>
      simp only [Option.isSome_some, Option.isSome_none, Option.getD_some, Option.getD_none]
      refine ⟨rfl, by simp [Data.zero], by simp [Data.zero], fun loc => ?_⟩
      have := hz x loc
      exact ⟨by rw [this.1]; rfl, by rw [this.2.1]; rfl, fun n => by rw [this.2.2]; rfl⟩
    | some y =>
      rw [hnb] at h2
      simp only [Option.getD_some] at h1 h2
      refine ⟨by simp, by simp [Data.add], by simp [Data.add], fun loc => ?_⟩
      have := PosMap.addAll_obs h1.1 h1.2 h2.1 h2.2 loc
      exact ⟨this.1, this.2.1, this.2.2.1⟩

/-- C11 (order independence, two profiles): merging `b` into `a` and `a` into `b` gives the same
observable profile. -/
theorem merge_comm_counts (a b : Sym) (ha : a.WF) (hb : b.WF) :
    (a.merge b).SameCounts (b.merge a) := by
  intro path
  obtain ⟨h0, h1, h2, h3⟩ := merge_adds a b ha hb path
  obtain ⟨g0, g1, g2, g3⟩ := merge_adds b a hb ha path
  refine ⟨by rw [h0, g0, Bool.or_comm], by omega, by omega, fun loc => ?_⟩
  obtain ⟨h4, h5, h6⟩ := h3 loc
  obtain ⟨g4, g5, g6⟩ := g3 loc
  refine ⟨by omega, by omega, fun n => ?_⟩
  have := h6 n
  have := g6 n
  omega

/-- Merging a list of profiles one after the other. -/
def mergeAll (init : Sym) (l : List Sym) : Sym := l.foldl Sym.merge init

/-- C11 (any number of profiles): the counts after merging a list of profiles are the sums. -/
theorem mergeAll_adds (init : Sym) (l : List Sym) (hi : init.WF) (hl : ∀ s ∈ l, s.WF)
    (path : List Callsite) :
    (mergeAll init l).WF ∧
    ((mergeAll init l).node? path).isSome =
      ((init.node? path).isSome || l.any (fun s => (s.node? path).isSome)) ∧
    (mergeAll init l).totalAt path = init.totalAt path + (l.map (·.totalAt path)).sum ∧
    (mergeAll init l).headAt path = init.headAt path + (l.map (·.headAt path)).sum ∧
    ∀ loc, (mergeAll init l).countAt path loc =
        init.countAt path loc + (l.map (·.countAt path loc)).sum ∧
      (mergeAll init l).instAt path loc =
        init.instAt path loc + (l.map (·.instAt path loc)).sum ∧
      ∀ n, (mergeAll init l).targetAt path loc n =
        init.targetAt path loc n + (l.map (·.targetAt path loc n)).sum := by
  unfold mergeAll
  induction l generalizing init with
  | nil => simp [hi]
  | cons s t ih =>
    have hs := hl s List.mem_cons_self
    obtain ⟨i0, i1, i2, i3, i4⟩ := ih (init.merge s) (Sym.WF.merge init hi s hs)
      (fun x hx => hl x (List.mem_cons_of_mem _ hx))
    obtain ⟨h0, h1, h2, h3⟩ := merge_adds init s hi hs path
    rw [List.foldl_cons]
    refine ⟨i0, ?_, ?_, ?_, fun loc => ?_⟩
    · rw [i1, h0, List.any_cons, Bool.or_assoc]
    · rw [i2, h1, List.map_cons, List.sum_cons]; omega
    · rw [i3, h2, List.map_cons, List.sum_cons]; omega
    · obtain ⟨j1, j2, j3⟩ := i4 loc
      obtain ⟨k1, k2, k3⟩ := h3 loc
      refine ⟨?_, ?_, fun n => ?_⟩
      · rw [j1, k1, List.map_cons, List.sum_cons]; omega
      · rw [j2, k2, List.map_cons, List.sum_cons]; omega
      · rw [j3, k3, List.map_cons, List.sum_cons]; omega

/-- C11 (order independence): permuting the merged profiles does not change anything observable. -/
theorem mergeAll_perm (init : Sym) (l₁ l₂ : List Sym) (hi : init.WF) (hl : ∀ s ∈ l₁, s.WF)
    (hp : l₁.Perm l₂) : (mergeAll init l₁).SameCounts (mergeAll init l₂) := by
  intro path
  obtain ⟨_, h1, h2, h3, h4⟩ := mergeAll_adds init l₁ hi hl path
  obtain ⟨_, g1, g2, g3, g4⟩ := mergeAll_adds init l₂ hi (fun s hs => hl s (hp.mem_iff.2 hs)) path
  refine ⟨?_, ?_, ?_, fun loc => ?_⟩
  · rw [h1, g1, hp.any_eq]
  · rw [h2, g2, (hp.map _).sum_nat]
  · rw [h3, g3, (hp.map _).sum_nat]
  · obtain ⟨h5, h6, h7⟩ := h4 loc
    obtain ⟨g5, g6, g7⟩ := g4 loc
    refine ⟨by rw [h5, g5, (hp.map _).sum_nat], by rw [h6, g6, (hp.map _).sum_nat], fun n => ?_⟩
    rw [h7, g7, (hp.map _).sum_nat]

/-- Non-vacuity: two well-formed profiles sharing an inline instance and having one each of their
own. -/
def exampleA : Sym :=
  .mk ⟨10, 2, [(0, ⟨4, 1, [([98], 3)]⟩), (65536, ⟨6, 1, []⟩)]⟩
    [((131072, [102]), .mk ⟨5, 0, [(0, ⟨5, 1, []⟩)]⟩ [])]

/-- Second example profile. -/
def exampleB : Sym :=
  .mk ⟨7, 1, [(0, ⟨7, 2, [([98], 1), ([99], 6)]⟩)]⟩
    [((131072, [102]), .mk ⟨3, 0, [(0, ⟨3, 1, []⟩)]⟩ []), ((131072, [103]), .mk ⟨1, 0, []⟩ [])]

example : exampleA.WF ∧ exampleB.WF ∧
    (exampleA.merge exampleB).countAt [(131072, [102])] 0 = 8 := by
  refine ⟨?_, ?_, ?_⟩
  · simp [exampleA, Sym.WF, WFCalls, OMap.Sorted]
  · simp [exampleB, Sym.WF, WFCalls, OMap.Sorted, List.cons_lt_cons_iff]
  · decide

end Verif.SymbolMap

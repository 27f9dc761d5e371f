import Verif.NestedTotals

/-! # Concrete profiles for `FlattenNestedInlineCallsites` -/
namespace Verif.SymbolMap

/-- A location with a count and one instruction. -/
def exPos (loc count : Nat) : Nat × PInfo := (loc, ⟨count, 1, []⟩)

/-- `f` with `g` inlined at location 3, `h` inlined into it at location 1, and `i` at location 2 of that; `h` is also a function of its own. -/
def exNested : SymMap :=
  [([102], .mk ⟨100, 10, [exPos 1 40]⟩ [((3, [103]), .mk ⟨60, 0, [exPos 1 20, exPos 2 10]⟩
      [((1, [104]), .mk ⟨30, 0, [exPos 1 25]⟩ [((2, [105]), .mk ⟨5, 0, [exPos 1 5]⟩ [])])])]),
   ([104], .mk ⟨7, 1, [exPos 1 7]⟩ [])]

/-- Each inline instance: the locations of its call sites, its total and entry count, and then its locations with their counts. -/
def showNested (m : SymMap) : List (List UInt8 × List (List Nat)) :=
  m.map fun x => (x.1, x.2.nodes.flatMap fun y => [y.1.map Prod.fst, [y.2.total, y.2.head], y.2.pos.flatMap fun p => [p.1, p.2.count]])

/-- The hypotheses of `flatten_nested` and `flatten_nested_totals` are met by a profile with three levels of inlining. -/
theorem exNested_ok : exNested.WF ∧ (∀ x, (view exNested x).isSome = true → (stack x).Nodup) ∧ TotalsAddUp exNested := by
  have hw : exNested.WF := by
    refine ⟨by simp [exNested, OMap.Sorted]; decide, ?_⟩
    intro p hp
    simp only [exNested, List.mem_cons, List.not_mem_nil, or_false] at hp
    rcases hp with rfl | rfl <;> simp [Sym.WF, WFCalls, OMap.Sorted, exPos]
  refine ⟨hw, fun x hx => ?_, ?_⟩
  · have h := (mem_allPlaces hw x).2 hx
    have : ∀ y ∈ allPlaces exNested, (stack y).Nodup := by decide +kernel
    exact this x h
  · intro f s p c hs hc
    have hall : ∀ y ∈ allPlaces exNested, ∀ c, subAt exNested y.1 y.2 = some c →
        c.data.total = (c.data.pos.map fun y => y.2.count).sum + (c.calls.map fun y => y.2.data.total).sum := by
      intro y hy c hc
      have hl : y ∈ [(([102], []) : Name × List Callsite), ([102], [(3, [103])]), ([102], [(3, [103]), (1, [104])]), ([102], [(3, [103]), (1, [104]), (2, [105])]), ([104], [])] := hy
      simp only [List.mem_cons, List.not_mem_nil, or_false] at hl
      rcases hl with rfl | rfl | rfl | rfl | rfl <;> (simp [subAt, exNested, OMap.find?, Sym.sub?, lookup, Sym.calls] at hc; subst hc; simp [Sym.data, Sym.calls, exPos])
    have hc' : subAt exNested f p = some c := by
      unfold subAt
      rw [OMap.find?_some_of_mem hw.1 hs]; exact hc
    rw [hall (f, p) ((mem_allPlaces hw _).2 (by rw [← subAt_isSome, hc']; rfl)) c hc']

/-- With the limit 2 the `h` inlined at the second level becomes part of the function `h`, and the call is left at its place. -/
theorem exNested_two : (flattenNested 10 2 exNested).map (fun r => showNested r.1) = some
    [([102], [[], [75, 10], [1, 40], [3], [35, 0], [1, 25, 2, 10]]),
     ([104], [[], [37, 26], [1, 32], [2], [5, 0], [1, 5]])] ∧ (flattenNested 10 2 exNested).map (fun r => r.2) = some 1 := by decide +kernel

/-- With the limit 1 all inlined functions become functions, and only the calls are left. -/
theorem exNested_one : (flattenNested 10 1 exNested).map (fun r => showNested r.1) = some
    [([102], [[], [65, 10], [1, 40, 3, 25]]), ([103], [[], [35, 25], [1, 25, 2, 10]]), ([104], [[], [37, 26], [1, 32, 2, 5]]), ([105], [[], [5, 5], [1, 5]])] := by decide +kernel

/-- The hypotheses of `flatten_nested_within` are met by the same profile and the limit 4. -/
theorem exNested_four : (∀ g p, (view exNested (g, p)).isSome = true → (p.length : Int) < 4) ∧ ∀ x d, view exNested x = some d → d.total < 2 ^ 64 := by
  have hl : ∀ y ∈ allPlaces exNested, y.2.length < 4 ∧ ((view exNested y).map fun d => decide (d.total < 2 ^ 64)) = some true := by decide +kernel
  constructor
  · intro g p h
    have := (hl _ ((mem_allPlaces exNested_ok.1 _).2 h)).1
    simp only at this
    omega
  · intro x d h
    have := (hl x ((mem_allPlaces exNested_ok.1 _).2 (by rw [h]; rfl))).2
    rw [h] at this
    simpa using this

/-- `f` inlines `g`, which inlines `f` again, which inlines `g` again. -/
def exRec : SymMap := [([102], .mk ⟨100, 10, [exPos 1 40]⟩ [((3, [103]), .mk ⟨60, 0, [exPos 1 30]⟩
   [((2, [102]), .mk ⟨30, 0, [exPos 1 20]⟩ [((3, [103]), .mk ⟨10, 0, [exPos 1 10]⟩ [])])])])]

/-- When a function is inlined into itself the totals no longer add up: the inner `f`, with the `g` inlined into it, is merged into the outer one while the
outer `g` is being flattened, so that the total of `g` is added to that of `f` once by the merge and once as the reported difference (symbol_map.cc:1397, 1406). The
locations of `f` have the count 60 and the inlined `g` the total 60, but the total of `f` is 130. -/
theorem flatten_nested_recursion_violated : exRec.WF ∧ (showNested exRec = [([102], [[], [100, 10], [1, 40], [3], [60, 0], [1, 30], [3, 2], [30, 0], [1, 20], [3, 2, 3], [10, 0], [1, 10]])]) ∧
    (flattenNested 10 2 exRec).map (fun r => showNested r.1) = some [([102], [[], [130, 30], [1, 60], [3], [60, 0], [1, 40, 2, 20]])] := by
  refine ⟨⟨by simp [exRec, OMap.Sorted], ?_⟩, by decide +kernel, by decide +kernel⟩
  intro p hp
  simp only [exRec, List.mem_cons, List.not_mem_nil, or_false] at hp
  subst hp
  simp [Sym.WF, WFCalls, OMap.Sorted, exPos]

end Verif.SymbolMap

import Verif.ChainEdgesInit

/-! # C30: statements in terms of layouts only -/
namespace Verif.Chain
open Verif

variable {P : Nodes} {sc : Edge → Int → Rat} {st : State} {E : List Edge}

/-- Specification: the score of a layout `l` is the sum of the scores of the edges that run within it, each at its distance
from the end of its source to its sink. -/
def totalScore (P : Nodes) (sc : Edge → Int → Rat) (E : List Edge) (l : List Nat) : Rat :=
  sumOn (fun e => sc e (dist P l e)) (E.filter fun e => decide (e.src ∈ l) && decide (e.sink ∈ l))

/-- An edge within one bundle of chain `c`. -/
def inner (st : State) (c : Nat) (e : Edge) : Bool :=
  decide (chainOf st e.src = some c) && decide (bundleOf st e.sink = bundleOf st e.src)

theorem inner_sink (w : WF P st) {c : Nat} {e : Edge} (h : inner st c e = true) :
    chainOf st e.src = some c ∧ chainOf st e.sink = some c ∧ ∃ b ∈ (st.C c).bundles, e.src ∈ (st.B b).nodes ∧ e.sink ∈ (st.B b).nodes := by
  simp only [inner, Bool.and_eq_true, decide_eq_true_eq] at h
  obtain ⟨b, hb, hbe⟩ := bundleOf_of_chainOf w h.1
  have hc := ((chainOf_iff w _ _).1 h.1).1
  have hk := h.2.trans hbe
  exact ⟨h.1, chainOf_of_bundleOf w hc hb hk, b, hb, (bundleOf_iff w hc hb _).1 hbe, (bundleOf_iff w hc hb _).1 hk⟩

/-- Score of a chain's layout: the recorded edges and those within bundles. -/
theorem totalScore_chain (w : WF P st) {c : Nat} (hc : c ∈ st.chains) :
    totalScore P sc E (nodesOf st c) = layoutScore P sc (E.filter (within st c)) (nodesOf st c) +
      sumOn (fun e => sc e (distOf P st e)) (E.filter (inner st c)) := by
  have h2 : sumOn (fun e => sc e (distOf P st e)) (E.filter (inner st c)) =
      sumOn (fun e => sc e (dist P (nodesOf st c) e)) (E.filter (inner st c)) :=
    sumOn_congr fun e he => by
      obtain ⟨h1, h2, _⟩ := inner_sink w (List.mem_filter.1 he).2
      rw [distOf_eq w hc h1 h2]
  rw [h2]
  unfold totalScore layoutScore
  rw [← sumOn_filter_or]
  · congr 1
    refine List.filter_congr fun e _ => ?_
    have hm : ∀ n, n ∈ nodesOf st c ↔ chainOf st n = some c := fun n => by rw [chainOf_iff w]; simp [hc]
    rw [Bool.eq_iff_iff]
    simp only [Bool.and_eq_true, Bool.or_eq_true, decide_eq_true_eq, hm]
    constructor
    · rintro ⟨h1, h2⟩
      by_cases hb : bundleOf st e.sink = bundleOf st e.src
      · right; simp [inner, h1, hb]
      · left; simp [within, h1, h2, hb]
    · rintro (h | h)
      · simp only [within, Bool.and_eq_true, decide_eq_true_eq] at h; exact ⟨h.1, h.2.1⟩
      · obtain ⟨h1, h2, _⟩ := inner_sink w h; exact ⟨h1, h2⟩
  · intro e _ he
    simp only [within, Bool.and_eq_true, decide_eq_true_eq] at he
    simp [inner, he.2.2]

/-- Score of a merged layout. -/
theorem totalScore_merged (w : WF P st) {s u : Nat} (hs : s ∈ st.chains) (hu : u ∈ st.chains) (hne : s ≠ u) {o : Order}
    (ho : OrdOk o st s) :
    totalScore P sc E (nodesIn st.B (mergedBundles o st s u)) =
      layoutScore P sc (E.filter (joint st s u)) (nodesIn st.B (mergedBundles o st s u)) +
      (sumOn (fun e => sc e (distOf P st e)) (E.filter (inner st s)) + sumOn (fun e => sc e (distOf P st e)) (E.filter (inner st u))) := by
  have hin : ∀ c, c ∈ st.chains → (∀ b ∈ (st.C c).bundles, ∃ x ∈ asmSlices o st s u, b ∈ x.bundles st) →
      sumOn (fun e => sc e (distOf P st e)) (E.filter (inner st c)) =
      sumOn (fun e => sc e (dist P (nodesIn st.B (mergedBundles o st s u)) e)) (E.filter (inner st c)) := by
    intro c hc hx
    refine sumOn_congr fun e he => ?_
    obtain ⟨_, _, b, hb, h1, h2⟩ := inner_sink w (List.mem_filter.1 he).2
    obtain ⟨x, hx, hbx⟩ := hx b hb
    rw [same_slice w hs hu hne ho hx (mem_nodesIn.2 ⟨b, hbx, h1⟩) (mem_nodesIn.2 ⟨b, hbx, h2⟩)]
  have hsl : ∀ b, b ∈ (st.C s).bundles ∨ b ∈ (st.C u).bundles → ∃ x ∈ asmSlices o st s u, b ∈ x.bundles st := by
    intro b hb
    have := (slices_perm o (st.C s).bundles (st.C u).bundles).mem_iff.2 (List.mem_append.2 hb)
    rw [← asm_bundles] at this
    obtain ⟨l, hl, hbl⟩ := List.mem_flatten.1 this
    obtain ⟨x, hx, rfl⟩ := List.mem_map.1 hl
    exact ⟨x, hx, hbl⟩
  rw [hin s hs (fun b hb => hsl b (.inl hb)), hin u hu (fun b hb => hsl b (.inr hb))]
  unfold totalScore layoutScore
  have hm : ∀ n, n ∈ nodesIn st.B (mergedBundles o st s u) ↔ chainOf st n = some s ∨ chainOf st n = some u := by
    intro n
    rw [mergedBundles, (nodesIn_perm st.B (slices_perm o (st.C s).bundles (st.C u).bundles)).mem_iff, nodesIn_append, List.mem_append,
      chainOf_iff w, chainOf_iff w]
    simp [hs, hu, nodesOf]
  rw [← sumOn_filter_or, ← sumOn_filter_or]
  · congr 1
    refine List.filter_congr fun e _ => ?_
    rw [Bool.eq_iff_iff]
    simp only [Bool.and_eq_true, Bool.or_eq_true, decide_eq_true_eq, hm]
    constructor
    · rintro ⟨h1, h2⟩
      by_cases hb : bundleOf st e.sink = bundleOf st e.src
      · right
        rcases h1 with h1 | h1
        · left; simp [inner, h1, hb]
        · right; simp [inner, h1, hb]
      · left; simp [joint, h1, h2, hb]
    · rintro (h | h | h)
      · simp only [joint, Bool.and_eq_true, decide_eq_true_eq] at h; exact ⟨h.1, h.2.1⟩
      · obtain ⟨h1, h2, _⟩ := inner_sink w h; exact ⟨.inl h1, .inl h2⟩
      · obtain ⟨h1, h2, _⟩ := inner_sink w h; exact ⟨.inr h1, .inr h2⟩
  · intro e _ he
    simp only [joint, Bool.and_eq_true, decide_eq_true_eq] at he
    simp [inner, he.2.2]
  · intro e _ he
    simp only [inner, Bool.and_eq_true, decide_eq_true_eq] at he
    rw [Bool.eq_false_iff]
    simp only [inner, ne_eq, Bool.and_eq_true, decide_eq_true_eq]
    rintro ⟨h1, _⟩
    rw [he.1] at h1; exact hne (Option.some.inj h1)

/-- **C30.** Lay out any functions; make any merges (each as the builder makes it: a split position inside the chain, and no
splitting order whose predicted gain is 0).  Then each chain's recorded score is that of its layout (over the edges that do not
run within one bundle); and, for any two chains and any such merge of them, no check fails, and the predicted gain is the score
of the merged layout minus the scores of the two layouts. -/
theorem predicted_gain {G : Prog} {o : Opts} {cs : List Cfg} (hf : Fits G cs) (hcl : Closed G o cs)
    (sub : Cfg → Option (List (List Nat))) (hsub : ∀ c ∈ cs, SubOk G o sub c) (hin : ∀ c ∈ cs, c.initial = [])
    (hhot : ∀ c ∈ cs, o.reorderHot = false → cfgHot G c = true → c.nodes.filter (isHot G o c) ≠ []) :
    ∃ st0, (initChains G o sub cs).bind (initEdges sc G o (decide (1 < cs.length))) = some st0 ∧
    ∀ n st, Built G.nodes sc o n st0 st →
      (∀ c ∈ st.chains, (st.C c).score =
        layoutScore G.nodes sc ((visitedIn G o cs).filter (within st c)) (nodesOf st c)) ∧
      ∀ s ∈ st.chains, ∀ u ∈ st.chains, s ≠ u → ∀ ord, OrdOk ord st s →
        ∃ g, scoreGain G.nodes sc ord st s u = some g ∧ (g ≠ 0 ∨ ord = .SU →
          g = totalScore G.nodes sc (visitedIn G o cs) (nodesIn st.B (mergedBundles ord st s u)) -
            totalScore G.nodes sc (visitedIn G o cs) (nodesOf st s) - totalScore G.nodes sc (visitedIn G o cs) (nodesOf st u) ∧
          ∃ st', merge G.nodes sc o ord g st s u = some st' ∧ nodesOf st' s = nodesIn st.B (mergedBundles ord st s u)) := by
  obtain ⟨st0, st1, e0, e1, _, _, g1, _⟩ := init_good (sc := sc) hf hcl sub hsub hin hhot
  refine ⟨st1, by rw [e0]; exact e1, ?_⟩
  intro n st hb
  obtain ⟨g, _, _⟩ := built_good g1 hb
  refine ⟨g.scores, ?_⟩
  intro s hs u hu hne ord ho
  obtain ⟨x, hx, hex⟩ := scoreGain_exact (sc := sc) g.wf g.edges g.sorted hs hu hne ho
  refine ⟨x, hx, fun hor => ?_⟩
  have ht : x = totalScore G.nodes sc (visitedIn G o cs) (nodesIn st.B (mergedBundles ord st s u)) -
          totalScore G.nodes sc (visitedIn G o cs) (nodesOf st s) - totalScore G.nodes sc (visitedIn G o cs) (nodesOf st u) := by
    rw [totalScore_merged g.wf hs hu hne ho, totalScore_chain g.wf hs, totalScore_chain g.wf hu, hex hor]; ring
  refine ⟨ht, ?_⟩
  obtain ⟨st', e', k', hch, hn, _⟩ := good_step (o := o) g hs hu hne ho hx hor
  exact ⟨st', e', hn⟩

/-! ### A concrete case -/

/-- Scores like the default ones: a fall-through counts ten times. -/
def exScore (e : Edge) (d : Int) : Rat := if d = 0 then 10 * e.weight else if 0 < d ∧ d < 20 then e.weight else 0

/-- Initial state of the example of `Verif.ChainInit`: chains 0, 1 → 2 and 3. -/
def exInit : Option State := (initChains exProg {} (fun _ => none) [exCfg]).bind (initEdges exScore exProg {} false)

example : Closed exProg {} [exCfg] := by
  intro e he _ _
  refine ⟨exCfg, by simp, ?_⟩
  revert e; decide

example : exInit.map (fun st => (st.chains.map fun c => (c, nodesOf st c))) = some [(1, [1, 2]), (0, [0]), (3, [3])] := by
  decide +kernel
/-- 0 before 1, 2: the edge 0 → 1 (weight 5) becomes a fall-through. -/
example : (exInit.bind fun st => scoreGain exProg.nodes exScore .SU st 0 1) = some 50 := by decide +kernel
/-- After this merge, putting 3 between (0) and (1, 2) breaks that fall-through, makes 0 → 3 (weight 2) one, and 0 → 1 a jump. -/
example : ((exInit.bind fun st => merge exProg.nodes exScore {} .SU 50 st 0 1).bind fun st =>
    scoreGain exProg.nodes exScore (.S1US2 1) st 0 3) = some (20 - 50 + 5) := by decide +kernel
example : ((exInit.bind fun st => merge exProg.nodes exScore {} .SU 50 st 0 1).bind fun st =>
    scoreGain exProg.nodes exScore .SU st 0 3) = some (2 + 10) := by decide +kernel

/-! ### Where the property fails: initial chains from the configuration -/

/-- Blocks 0, 1, 2 in one initial chain; 0's edge to 2 was created before its edge to 1; 3 is another chain. -/
def badProg : Prog where
  size := fun _ => 3
  fn := fun _ => 7
  bbi := id
  lp := fun _ => false
  edges := [⟨0, 2, 4, .branch, false⟩, ⟨0, 1, 5, .branch, false⟩, ⟨1, 3, 1, .branch, false⟩, ⟨3, 2, 1, .branch, false⟩]

def badCfg : Cfg := ⟨7, [0, 1, 2, 3], [[0, 1, 2]]⟩

/-- Any jump forward counts, by its distance. -/
def badScore (e : Edge) (d : Int) : Rat := if d = 0 then 10 * e.weight else if 0 < d ∧ d < 100 then e.weight * (100 - d) else 0

def badInit : Option State := (initChains badProg {} (fun _ => none) [badCfg]).bind (initEdges badScore badProg {} false)

/-- **C30 fails with initial chains from the configuration**: `InitChainEdges` does not sort the edges of a chain with several
bundles by their sinks, so `ComputeSplitChainScoreGain` misses the edge 0 → 2 when the chain is split before block 2: the
predicted gain is 20, the true difference is 8. -/
theorem predicted_gain_violated_initial_chains :
    (badInit.bind fun st => scoreGain badProg.nodes badScore (.S1US2 2) st 0 3) = some 20 ∧
    (badInit.map fun st => totalScore badProg.nodes badScore badProg.edges (nodesIn st.B (mergedBundles (.S1US2 2) st 0 3)) -
      totalScore badProg.nodes badScore badProg.edges (nodesOf st 0) -
      totalScore badProg.nodes badScore badProg.edges (nodesOf st 3)) = some 8 := by
  decide +kernel

end Verif.Chain

import Verif.ChainNodes
import Verif.ForcedPath

/-! # C29: the initial chains (`NodeChainBuilder::InitNodeChains`) and any sequence of merges -/
namespace Verif.Chain
open Verif

/-- All CFGs given to the builder, as one graph: the nodes are named by numbers in the order of `CFGNodePtrComparator`;
`edges` in the order in which they were created. -/
structure Prog where
  size : Nat → Nat
  fn : Nat → Nat
  bbi : Nat → Nat
  lp : Nat → Bool
  edges : List Edge

/-- `CFGNode::CalculateFrequency` (llvm_propeller_cfg.cc:118-159). -/
def calcFreq (es : List Edge) (n : Nat) : Nat :=
  let outs := es.filter fun e => decide (e.src = n)
  let ins := es.filter fun e => decide (e.sink = n)
  let maxCallOut := ((outs.filter fun e => decide (e.kind = .call)).map (·.weight)).foldl max 0
  let sumOut := ((outs.filter fun e => decide (e.kind ≠ .call)).map (·.weight)).sum
  let maxRetIn := ((ins.filter fun e => decide (e.kind = .ret)).map (·.weight)).foldl max 0
  let sumIn := ((ins.filter fun e => decide (e.kind ≠ .ret)).map (·.weight)).sum
  max (max maxCallOut maxRetIn) (max sumOut sumIn)

/-- What the chains need to know of the nodes; `is_entry()` is `bb_index() == 0` (llvm_propeller_cfg.h:233). -/
def Prog.nodes (G : Prog) : Nodes := ⟨G.size, calcFreq G.edges, G.fn, fun n => decide (G.bbi n = 0)⟩

/-- `PropellerCodeLayoutParameters`, the parts the builder reads (llvm_propeller_options.proto:88-102). -/
structure Opts where
  inter : Bool := false
  splitFunctions : Bool := true
  reorderHot : Bool := true
  chainSplit : Bool := true
  threshold : Nat := 0

/-- A CFG of the program: its nodes in order, and its entry in `initial_chains`. -/
structure Cfg where
  fn : Nat
  nodes : List Nat
  initial : List (List Nat) := []

variable (G : Prog) (o : Opts)

/-- `ControlFlowGraph::is_hot` (llvm_propeller_cfg.h:345-349): some edge leaves, or comes to, the function. -/
def cfgHot (c : Cfg) : Bool :=
  G.edges.any fun e => decide (G.fn e.src = c.fn) || decide (G.fn e.sink = c.fn)

/-- `has_hot_landing_pads` (llvm_propeller_cfg.h:334-343). -/
def hotLp (c : Cfg) : Bool := c.nodes.any fun n => G.lp n && decide (calcFreq G.edges n ≠ 0)

/-- Whether `InitNodeChains` takes a node as hot (llvm_propeller_node_chain_builder.cc:268-280). -/
def isHot (c : Cfg) (n : Nat) : Bool :=
  decide (calcFreq G.edges n ≠ 0) || (decide (G.bbi n = 0) && !o.inter) || (G.lp n && hotLp G c)

/-- `intra_edges()` of a CFG, as the edges that `GetForcedEdges` reads. -/
def intraEdges (c : Cfg) : List (ForcedPath.Edge Nat) :=
  (G.edges.filter fun e => decide (G.fn e.src = c.fn) && decide (G.fn e.sink = c.fn)).map fun e =>
    ⟨e.src, e.sink, e.weight, decide (e.kind = .branch)⟩

/-- `AddNewChain` for several rows of nodes. -/
def addRows (st : State) (rs : List (List Nat × Bool)) : Option State := rs.foldlM (addChain G.nodes) st

/-- "Make single-node chains for the remaining hot nodes" (llvm_propeller_node_chain_builder.cc:317-322). -/
def addSingles (ns : List Nat) (st : State) : Option State :=
  ns.foldlM (fun st n => if (st.L n).isSome then some st else addChain G.nodes st ([n], true)) st

/-- One CFG in `InitNodeChains` (llvm_propeller_node_chain_builder.cc:216-323); `sub`: the nodes of the chains that the
recursive builder returns; `multi`: `cfgs_.size() > 1`. `none`: a `CHECK` fails. -/
def initCfg (sub : Cfg → Option (List (List Nat))) (multi : Bool) (st : State) (c : Cfg) : Option State :=
  if cfgHot G c = false then some st
  else if o.inter = true ∧ multi = true ∧ 1 < (c.nodes.filter G.lp).length ∧ hotLp G c = true then
    (sub c).bind fun rs => addRows G st (rs.map fun r => (r, false))
  else
    (if o.splitFunctions = true then some st
      else addChain G.nodes st (c.nodes.filter (fun n => !isHot G o c n), false)).bind fun st =>
    if o.reorderHot = false then
      if c.nodes.filter (isHot G o c) = [] then none else addChain G.nodes st (c.nodes.filter (isHot G o c), false)
    else
      (if c.initial ≠ [] then addRows G st (c.initial.map fun r => (r, true))
        else (ForcedPath.forcedPaths G.bbi (intraEdges G c)).bind fun ps => addRows G st (ps.map fun r => (r, false))).bind
      (addSingles G (c.nodes.filter (isHot G o c)))

/-- `InitNodeChains`. -/
def initChains (sub : Cfg → Option (List (List Nat))) (cs : List Cfg) : Option State :=
  cs.foldlM (initCfg G o sub (decide (1 < cs.length))) {}

/-! ### Specification -/

/-- The nodes of a CFG that must end up in chains: the hot ones, or all of them when functions are not split. -/
def wanted (c : Cfg) : List Nat :=
  if cfgHot G c = false then [] else if o.splitFunctions = true then c.nodes.filter (isHot G o c) else c.nodes

/-- The CFGs fit the program: distinct functions and nodes, each with its function; the intra edges are between their
nodes. -/
structure Fits (cs : List Cfg) : Prop where
  once : (cs.flatMap (·.nodes)).Nodup
  fn : ∀ c ∈ cs, ∀ n ∈ c.nodes, G.fn n = c.fn
  ends : ∀ c ∈ cs, ∀ e ∈ G.edges, G.fn e.src = c.fn → G.fn e.sink = c.fn → e.src ∈ c.nodes ∧ e.sink ∈ c.nodes

/-! ### Proofs -/

section
variable {P : Nodes}

theorem located {st : State} (h : WF P st) (n : Nat) : (st.L n).isSome = true ↔ n ∈ allNodes st := by
  constructor
  · intro hs
    obtain ⟨⟨b, off⟩, e⟩ := Option.isSome_iff_exists.1 hs
    exact h.loc n b off e
  · intro hn
    obtain ⟨c, hc, hn⟩ := mem_allNodes.1 hn
    obtain ⟨b, hb, hn⟩ := mem_nodesIn.1 hn
    obtain ⟨j, hj⟩ := List.mem_iff_getElem?.1 hn
    rw [(h.bundle c hc b hb).loc j n hj]; rfl

end

theorem foldl_max_le (l : List Nat) : ∀ a, a ≤ l.foldl max a := by
  induction l with
  | nil => intro a; exact le_refl _
  | cons x t ih => intro a; exact (le_max_left a x).trans (ih _)

/-- A node at either end of a branch with a nonzero weight has a nonzero frequency. -/
theorem calcFreq_branch {es : List Edge} {e : Edge} (he : e ∈ es) (hk : e.kind = .branch) (hw : e.weight ≠ 0) :
    calcFreq es e.src ≠ 0 ∧ calcFreq es e.sink ≠ 0 := by
  have h1 : e.weight ≤ ((((es.filter fun x => decide (x.src = e.src)).filter fun x => decide (x.kind ≠ .call)).map (·.weight)).sum) :=
    List.single_le_sum (by simp) _ (List.mem_map.2 ⟨e, by simp [he, hk], rfl⟩)
  have h2 : e.weight ≤ ((((es.filter fun x => decide (x.sink = e.sink)).filter fun x => decide (x.kind ≠ .ret)).map (·.weight)).sum) :=
    List.single_le_sum (by simp) _ (List.mem_map.2 ⟨e, by simp [he, hk], rfl⟩)
  constructor
  · have : e.weight ≤ calcFreq es e.src := h1.trans ((le_max_left _ _).trans (le_max_right _ _))
    omega
  · have : e.weight ≤ calcFreq es e.sink := h2.trans ((le_max_right _ _).trans (le_max_right _ _))
    omega

variable {G : Prog} {o : Opts}

theorem addRows_spec : ∀ (rs' rs : List (List Nat × Bool)) (st : State), InitOk (P := G.nodes) rs st →
    ((rs ++ rs').flatMap Prod.fst).Nodup → (∀ r ∈ rs', ∀ n ∈ r.1, ∀ n' ∈ r.1, G.fn n = G.fn n') →
    ∃ st', addRows G st rs' = some st' ∧ InitOk (P := G.nodes) (rs ++ rs') st' := by
  intro rs'
  induction rs' with
  | nil => intro rs st h _ _; exact ⟨st, rfl, by simpa using h⟩
  | cons r t ih =>
    intro rs st h hnd hfn
    rw [show rs ++ r :: t = (rs ++ [r]) ++ t by simp] at hnd ⊢
    have h1 : ((rs ++ [r]).flatMap Prod.fst).Nodup := by
      rw [List.flatMap_append] at hnd; exact (List.nodup_append.1 hnd).1
    obtain ⟨st1, e1, i1⟩ := addChain_spec h r h1 (hfn r (by simp))
    obtain ⟨st2, e2, i2⟩ := ih (rs ++ [r]) st1 i1 hnd (fun r hr => hfn r (by simp [hr]))
    refine ⟨st2, ?_, i2⟩
    rw [addRows, List.foldlM_cons, e1]
    exact e2

theorem addSingles_spec : ∀ (ns : List Nat) (rs : List (List Nat × Bool)) (st : State), InitOk (P := G.nodes) rs st →
    (rs.flatMap Prod.fst).Nodup → ns.Nodup →
    ∃ st', addSingles G ns st = some st' ∧
      InitOk (P := G.nodes) (rs ++ (ns.filter fun n => decide (n ∉ rs.flatMap Prod.fst)).map fun n => ([n], true)) st' := by
  intro ns
  induction ns with
  | nil => intro rs st h _ _; exact ⟨st, rfl, by simpa using h⟩
  | cons n t ih =>
    intro rs st h hnd hns
    have hns' := List.nodup_cons.1 hns
    have hl : (st.L n).isSome = true ↔ n ∈ rs.flatMap Prod.fst := by rw [located h.wf, h.all.mem_iff]
    by_cases hn : n ∈ rs.flatMap Prod.fst
    · obtain ⟨st', e, i⟩ := ih rs st h hnd hns'.2
      refine ⟨st', ?_, ?_⟩
      · rw [addSingles, List.foldlM_cons, if_pos (hl.2 hn)]; exact e
      · rw [List.filter_cons_of_neg (by simpa using hn)]; exact i
    · have hnd1 : ((rs ++ [([n], true)]).flatMap Prod.fst).Nodup := by
        rw [List.flatMap_append]
        simp only [List.flatMap_cons, List.flatMap_nil, List.append_nil]
        rw [List.nodup_append]
        refine ⟨hnd, by simp, ?_⟩
        intro a ha b hb; simp at hb; subst hb
        exact ne_of_mem_of_not_mem ha hn
      obtain ⟨st1, e1, i1⟩ := addChain_spec h ([n], true) hnd1 (by simp)
      obtain ⟨st', e, i⟩ := ih _ st1 i1 hnd1 hns'.2
      refine ⟨st', ?_, ?_⟩
      · rw [addSingles, List.foldlM_cons, if_neg (fun h => hn (hl.1 h)), e1]; exact e
      · rw [List.filter_cons_of_pos (by simpa using hn)]
        have : (t.filter fun m => decide (m ∉ (rs ++ [([n], true)]).flatMap Prod.fst)) =
            t.filter fun m => decide (m ∉ rs.flatMap Prod.fst) := by
          apply List.filter_congr
          intro m hm
          have : m ≠ n := ne_of_mem_of_not_mem hm hns'.1
          simp [List.flatMap_append, this]
        rw [this] at i
        simpa using i

/-- The nodes of forced paths are hot nodes of the CFG; only the first one may lack a hot branch to it. -/
theorem forced_nodes {cs : List Cfg} (hf : Fits G cs) {c : Cfg} (hc : c ∈ cs) :
    ∃ ps, ForcedPath.forcedPaths G.bbi (intraEdges G c) = some ps ∧ ps.flatten.Nodup ∧
      (∀ p ∈ ps, ∀ n ∈ p, n ∈ c.nodes.filter (isHot G o c)) ∧
      ∀ p ∈ ps, ∀ n ∈ p.tail, ∃ a, ForcedPath.OnlyHot (intraEdges G c) a n := by
  obtain ⟨ps, e, h1, h2, _⟩ := ForcedPath.forcedPaths_spec G.bbi (intraEdges G c)
  have key : ∀ a b, ForcedPath.OnlyHot (intraEdges G c) a b → ∃ e ∈ G.edges, e.src = a ∧ e.sink = b ∧ e.kind = .branch ∧
      e.weight ≠ 0 ∧ a ∈ c.nodes ∧ b ∈ c.nodes := by
    intro a b hab
    have : (a, b) ∈ ((ForcedPath.hot (intraEdges G c)).filter fun e => decide (e.src = a)).map fun e => (e.src, e.sink) := by
      rw [hab.1]; simp
    obtain ⟨x, hx, hxe⟩ := List.mem_map.1 this
    simp only [ForcedPath.hot, intraEdges, List.mem_filter, List.mem_map, Bool.and_eq_true, decide_eq_true_eq] at hx
    obtain ⟨⟨⟨e, ⟨he, hs, hk⟩, rfl⟩, hw, hb⟩, _⟩ := hx
    simp only [Prod.mk.injEq] at hxe
    obtain ⟨rfl, rfl⟩ := hxe
    obtain ⟨m1, m2⟩ := hf.ends c hc e he hs hk
    exact ⟨e, he, rfl, rfl, by simpa using hb, hw, m1, m2⟩
  refine ⟨ps, e, ?_, ?_, ?_⟩
  · rw [List.nodup_flatten]
    exact ⟨fun p hp => (h1 p hp).2.1, h2⟩
  · intro p hp n hn
    obtain ⟨l2, _, hs⟩ := h1 p hp
    obtain ⟨i, hi, rfl⟩ := List.mem_iff_getElem.1 hn
    by_cases hil : i + 1 < p.length
    · obtain ⟨e, he, h1, h2, hk, hw, m1, m2⟩ := key p[i] p[i + 1] (hs _ _ ⟨i, by simp [hi], by simp [hil]⟩)
      have := (calcFreq_branch he hk hw).1
      rw [h1] at this
      simp [isHot, m1, this]
    · obtain ⟨e, he, h1, h2, hk, hw, m1, m2⟩ := key p[i - 1] p[i] (hs _ _ ⟨i - 1, by simp,
        by rw [show i - 1 + 1 = i by omega]; simp⟩)
      have := (calcFreq_branch he hk hw).2
      rw [h2] at this
      simp [isHot, m2, this]
  · intro p hp n hn
    obtain ⟨i, hi, rfl⟩ := List.mem_iff_getElem.1 hn
    rw [List.length_tail] at hi
    have := (h1 p hp).2.2 p[i] p[i + 1] ⟨i, by simp, by simp⟩
    exact ⟨p[i], by simpa using this⟩

/-- What the recursive builder for functions with landing pads must provide (it is the builder itself, for one CFG). -/
structure SubOk (G : Prog) (o : Opts) (sub : Cfg → Option (List (List Nat))) (c : Cfg) : Prop where
  ok : ∃ rs, sub c = some rs ∧ rs.flatten.Perm (wanted G o c)

/-- The rows of nodes that one CFG adds. -/
structure RowsOk (G : Prog) (o : Opts) (multi : Bool) (c : Cfg) (rs : List (List Nat × Bool)) : Prop where
  all : (rs.flatMap Prod.fst).Perm (wanted G o c)
  one : c.initial = [] → ∀ r ∈ rs, r.2 = true → ∃ n, r.1 = [n]
  entry : multi = false → o.inter = false → c.initial = [] → (∀ n ∈ c.nodes.tail, G.bbi n ≠ 0) →
    (∀ a, ∀ n ∈ c.nodes, ForcedPath.OnlyHot (intraEdges G c) a n → G.bbi n ≠ 0) → ∀ r ∈ rs, ∀ n ∈ r.1.tail, G.bbi n ≠ 0

theorem initCfg_spec {cs : List Cfg} (hf : Fits G cs) {c : Cfg} (hc : c ∈ cs) (sub : Cfg → Option (List (List Nat)))
    (multi : Bool) (hsub : SubOk G o sub c) (hin : c.initial = [])
    (hhot : o.reorderHot = false → cfgHot G c = true → c.nodes.filter (isHot G o c) ≠ [])
    {rs : List (List Nat × Bool)} {st : State} (h : InitOk (P := G.nodes) rs st)
    (hnd : (rs.flatMap Prod.fst).Nodup) (hdis : ∀ n ∈ c.nodes, n ∉ rs.flatMap Prod.fst) (hcn : c.nodes.Nodup) :
    ∃ rs' st', initCfg G o sub multi st c = some st' ∧ InitOk (P := G.nodes) (rs ++ rs') st' ∧ RowsOk G o multi c rs' := by
  have hfn : ∀ l : List Nat, (∀ n ∈ l, n ∈ c.nodes) → ∀ n ∈ l, ∀ n' ∈ l, G.fn n = G.fn n' := by
    intro l hl n hn n' hn'
    rw [hf.fn c hc n (hl n hn), hf.fn c hc n' (hl n' hn')]
  have happ : ∀ rs' : List (List Nat × Bool), (rs'.flatMap Prod.fst).Nodup → (∀ n ∈ rs'.flatMap Prod.fst, n ∈ c.nodes) →
      ((rs ++ rs').flatMap Prod.fst).Nodup := by
    intro rs' h1 h2
    rw [List.flatMap_append, List.nodup_append]
    exact ⟨hnd, h1, fun a ha b hb => ne_of_mem_of_not_mem ha (hdis b (h2 b hb))⟩
  rw [initCfg]
  by_cases h1 : cfgHot G c = false
  · rw [if_pos h1]
    exact ⟨[], st, rfl, by simpa using h, by simp [wanted, h1], by simp, by simp⟩
  rw [if_neg h1]
  have hwant : ∀ n ∈ wanted G o c, n ∈ c.nodes := by
    intro n hn
    rw [wanted, if_neg h1] at hn
    split at hn
    · exact List.mem_of_mem_filter hn
    · exact hn
  have hwnd : (wanted G o c).Nodup := by
    rw [wanted, if_neg h1]
    split
    exacts [hcn.filter _, hcn]
  by_cases h2 : o.inter = true ∧ multi = true ∧ 1 < (c.nodes.filter G.lp).length ∧ hotLp G c = true
  · rw [if_pos h2]
    obtain ⟨rows, e, hp⟩ := hsub.ok
    rw [e]
    have hfl : (rows.map fun r => (r, false)).flatMap Prod.fst = rows.flatten := by
      rw [List.flatMap_map]; exact List.flatMap_id'
    obtain ⟨st', e', i'⟩ := addRows_spec (rows.map fun r => (r, false)) rs st h
      (happ _ (by rw [hfl]; exact hp.nodup_iff.2 hwnd) (by rw [hfl]; exact fun n hn => hwant n (hp.mem_iff.1 hn)))
      (by
        intro r hr
        obtain ⟨r', hr', rfl⟩ := List.mem_map.1 hr
        exact hfn _ fun n hn => hwant n (hp.mem_iff.1 (List.mem_flatten.2 ⟨r', hr', hn⟩)))
    refine ⟨_, st', e', i', ⟨by rw [hfl]; exact hp, ?_, ?_⟩⟩
    · intro _ r hr h; obtain ⟨r', _, rfl⟩ := List.mem_map.1 hr; cases h
    · intro hm; rw [h2.2.1] at hm; cases hm
  rw [if_neg h2]
  -- the chain of cold nodes
  obtain ⟨cold, st1, e1, i1, hcold⟩ : ∃ cold st1, (if o.splitFunctions = true then some st
      else addChain G.nodes st (c.nodes.filter (fun n => !isHot G o c n), false)) = some st1 ∧
      InitOk (P := G.nodes) (rs ++ cold) st1 ∧
      cold = if o.splitFunctions = true then [] else [(c.nodes.filter (fun n => !isHot G o c n), false)] := by
    by_cases hs : o.splitFunctions = true
    · exact ⟨[], st, by rw [if_pos hs], by simpa using h, by rw [if_pos hs]⟩
    · obtain ⟨st1, e1, i1⟩ := addChain_spec h (c.nodes.filter (fun n => !isHot G o c n), false)
        (happ _ (by simpa using hcn.filter _) (by simp +contextual)) (hfn _ (by simp +contextual))
      exact ⟨_, st1, by rw [if_neg hs]; exact e1, i1, by rw [if_neg hs]⟩
  rw [e1]
  have hcn1 : ∀ n ∈ cold.flatMap Prod.fst, n ∈ c.nodes ∧ isHot G o c n = false := by
    rw [hcold]; split <;> simp +contextual
  have hcnd : (cold.flatMap Prod.fst).Nodup := by
    rw [hcold]; split
    · simp
    · simpa using hcn.filter _
  have hcp : ∀ l : List Nat, l.Perm (c.nodes.filter (isHot G o c)) → ((cold.flatMap Prod.fst) ++ l).Perm (wanted G o c) := by
    intro l hl
    rw [wanted, if_neg h1, hcold]
    split
    · simpa using hl
    · simp only [List.flatMap_cons, List.flatMap_nil, List.append_nil]
      refine (hl.append_left _).trans ?_
      have := List.filter_append_perm (fun n => !isHot G o c n) c.nodes
      simpa using this
  have hce : o.inter = false → ∀ r ∈ cold, ∀ n ∈ r.1.tail, G.bbi n ≠ 0 := by
    intro hi r hr n hn
    have : isHot G o c n = false := (hcn1 n (List.mem_flatMap.2 ⟨r, hr, List.mem_of_mem_tail hn⟩)).2
    intro h0
    simp [isHot, hi, h0] at this
  have hco : ∀ r ∈ cold, r.2 = true → ∃ n, r.1 = [n] := by
    rw [hcold]; split <;> simp
  have hndc : ∀ l : List (List Nat × Bool), (l.flatMap Prod.fst).Nodup → (∀ n ∈ l.flatMap Prod.fst, n ∈ c.nodes.filter (isHot G o c)) →
      ((rs ++ cold ++ l).flatMap Prod.fst).Nodup := by
    intro l hl hm
    rw [List.append_assoc]
    apply happ
    · rw [List.flatMap_append, List.nodup_append]
      refine ⟨hcnd, hl, ?_⟩
      intro a ha b hb heq
      subst heq
      have := (List.mem_filter.1 (hm a hb)).2
      rw [(hcn1 a ha).2] at this; cases this
    · intro n hn
      rw [List.flatMap_append, List.mem_append] at hn
      rcases hn with hn | hn
      exacts [(hcn1 n hn).1, List.mem_of_mem_filter (hm n hn)]
  have hbase : ((rs ++ cold).flatMap Prod.fst).Nodup := by
    have := hndc [] (by simp) (by simp); simpa using this
  simp only [Option.bind_some]
  by_cases h3 : o.reorderHot = false
  · rw [if_pos h3, if_neg (hhot h3 (by simpa using h1))]
    obtain ⟨st2, e2, i2⟩ := addChain_spec i1 (c.nodes.filter (isHot G o c), false)
      (hndc _ (by simpa using hcn.filter _) (by simp)) (hfn _ (by simp +contextual))
    refine ⟨cold ++ [(c.nodes.filter (isHot G o c), false)], st2, e2, by rw [← List.append_assoc]; exact i2, ⟨?_, ?_, ?_⟩⟩
    · rw [List.flatMap_append]; exact hcp _ (by simp)
    · intro _ r hr
      rcases List.mem_append.1 hr with hr | hr
      · exact hco r hr
      · simp at hr; subst hr; simp
    · intro _ hi _ ht _ r hr
      rcases List.mem_append.1 hr with hr | hr
      · exact hce hi r hr
      · simp only [List.mem_singleton] at hr; subst hr
        intro n hn
        refine ht n ?_
        cases hcc : c.nodes with
        | nil => rw [hcc] at hn; simp at hn
        | cons a t =>
          rw [hcc] at hn
          by_cases ha : isHot G o c a = true
          · simp only [List.filter_cons_of_pos ha, List.tail_cons] at hn
            exact List.mem_of_mem_filter hn
          · simp only [List.filter_cons_of_neg ha] at hn
            exact List.mem_of_mem_filter (List.mem_of_mem_tail hn)
  rw [if_neg h3, if_neg (by simp [hin])]
  obtain ⟨ps, ep, pnd, pm, pt⟩ := forced_nodes (o := o) hf hc
  rw [ep]
  have hfl : (ps.map fun r => (r, false)).flatMap Prod.fst = ps.flatten := by
    rw [List.flatMap_map]; exact List.flatMap_id'
  have hpm : ∀ n ∈ ps.flatten, n ∈ c.nodes.filter (isHot G o c) := by
    intro n hn
    obtain ⟨p, hp, hn⟩ := List.mem_flatten.1 hn
    exact pm p hp n hn
  obtain ⟨st2, e2, i2⟩ := addRows_spec (ps.map fun r => (r, false)) (rs ++ cold) st1 i1
    (hndc _ (by rw [hfl]; exact pnd) (by rw [hfl]; exact hpm))
    (by
      intro r hr
      obtain ⟨r', hr', rfl⟩ := List.mem_map.1 hr
      exact hfn _ fun n hn => List.mem_of_mem_filter (pm r' hr' n hn))
  simp only [Option.bind_some]
  rw [e2]
  obtain ⟨st3, e3, i3⟩ := addSingles_spec (c.nodes.filter (isHot G o c)) _ st2 i2
    (hndc _ (by rw [hfl]; exact pnd) (by rw [hfl]; exact hpm)) (hcn.filter _)
  generalize hsing : ((c.nodes.filter (isHot G o c)).filter fun n => decide (n ∉ (rs ++ cold ++ ps.map fun r => (r, false)).flatMap Prod.fst)) = sing at i3
  refine ⟨cold ++ ps.map (fun r => (r, false)) ++ sing.map fun n => ([n], true), st3, e3, by simpa using i3, ⟨?_, ?_, ?_⟩⟩
  · rw [List.append_assoc, List.flatMap_append]
    apply hcp
    rw [List.flatMap_append, hfl]
    have hs1 : (sing.map fun n => (([n], true) : List Nat × Bool)).flatMap Prod.fst = sing := by
      rw [List.flatMap_map]; exact List.flatMap_singleton' sing
    have hs2 : sing = (c.nodes.filter (isHot G o c)).filter fun n => decide (n ∉ ps.flatten) := by
      rw [← hsing]
      apply List.filter_congr
      intro n hn
      have ha : n ∉ rs.flatMap Prod.fst := hdis n (List.mem_of_mem_filter hn)
      have hb : n ∉ cold.flatMap Prod.fst := fun h => by
        have := (List.mem_filter.1 hn).2; rw [(hcn1 n h).2] at this; cases this
      rw [List.flatMap_append, List.flatMap_append, hfl]
      simp only [List.mem_append, ha, hb, false_or]
    rw [hs1, hs2]
    have hnd0 : (c.nodes.filter (isHot G o c)).Nodup := hcn.filter _
    rw [List.perm_ext_iff_of_nodup]
    · intro n
      simp only [List.mem_append, List.mem_filter, decide_eq_true_eq]
      constructor
      · rintro (hn | hn)
        · exact List.mem_filter.1 (hpm n hn)
        · exact hn.1
      · intro hn
        by_cases hp : n ∈ ps.flatten
        exacts [Or.inl hp, Or.inr ⟨hn, hp⟩]
    · rw [List.nodup_append]
      refine ⟨pnd, hnd0.filter _, ?_⟩
      intro a ha b hb heq
      subst heq
      have := (List.mem_filter.1 hb).2
      simp only [decide_eq_true_eq] at this
      exact this ha
    · exact hnd0
  · intro _ r hr
    simp only [List.mem_append, List.mem_map] at hr
    rcases hr with (hr | ⟨p, _, rfl⟩) | ⟨n, _, rfl⟩
    · exact hco r hr
    · simp
    · simp
  · intro _ hi _ _ he r hr
    simp only [List.mem_append, List.mem_map] at hr
    rcases hr with (hr | ⟨p, hp, rfl⟩) | ⟨n, _, rfl⟩
    · exact hce hi r hr
    · intro n hn
      obtain ⟨a, ha⟩ := pt p hp n hn
      exact he a n (List.mem_filter.1 (pm p hp _ (List.mem_of_mem_tail hn))).1 ha
    · simp

/-- `InitNodeChains` fails no check and puts every node it should into exactly one chain, in one place. -/
theorem initChains_spec {cs : List Cfg} (hf : Fits G cs) (sub : Cfg → Option (List (List Nat)))
    (hsub : ∀ c ∈ cs, SubOk G o sub c) (hin : ∀ c ∈ cs, c.initial = [])
    (hhot : ∀ c ∈ cs, o.reorderHot = false → cfgHot G c = true → c.nodes.filter (isHot G o c) ≠ []) :
    ∃ rows st, initChains G o sub cs = some st ∧ InitOk (P := G.nodes) rows.flatten st ∧
      List.Forall₂ (fun c rs => RowsOk G o (decide (1 < cs.length)) c rs) cs rows ∧
      (allNodes st).Perm (cs.flatMap (wanted G o)) := by
  have key : ∀ (todo done : List Cfg), done ++ todo = cs → ∀ (rows : List (List (List Nat × Bool))) st,
      InitOk (P := G.nodes) rows.flatten st → List.Forall₂ (fun c rs => RowsOk G o (decide (1 < cs.length)) c rs) done rows →
      ∃ rows' st', todo.foldlM (initCfg G o sub (decide (1 < cs.length))) st = some st' ∧
        InitOk (P := G.nodes) (rows ++ rows').flatten st' ∧
        List.Forall₂ (fun c rs => RowsOk G o (decide (1 < cs.length)) c rs) cs (rows ++ rows') := by
    intro todo
    induction todo with
    | nil =>
      intro done hd rows st h hr
      rw [List.append_nil] at hd
      subst hd
      exact ⟨[], st, rfl, by simpa using h, by simpa using hr⟩
    | cons c t ih =>
      intro done hd rows st h hr
      have hc : c ∈ cs := by rw [← hd]; simp
      have hnd : (done.flatMap (·.nodes) ++ (c.nodes ++ t.flatMap (·.nodes))).Nodup := by
        have := hf.once; rw [← hd] at this; simpa using this
      obtain ⟨n1, n2, n3⟩ := List.nodup_append.1 hnd
      have hperm : (rows.flatten.flatMap Prod.fst).Perm (done.flatMap (wanted G o)) := by
        clear ih hnd n1 n2 n3 hd h
        induction hr with
        | nil => simp
        | @cons c' rs' l1 l2 hcr _ ih2 =>
          rw [List.flatten_cons, List.flatMap_append, List.flatMap_cons]
          exact hcr.all.append ih2
      have hwsub : ∀ (c : Cfg), (wanted G o c).Sublist c.nodes := by
        intro c
        rw [wanted]
        split
        · simp
        · split
          exacts [List.filter_sublist, List.Sublist.refl _]
      have hws : (done.flatMap (wanted G o)).Sublist (done.flatMap (·.nodes)) := by
        clear hr hd hnd n1 n2 n3 hperm
        induction done with
        | nil => simp
        | cons a l ih3 => rw [List.flatMap_cons, List.flatMap_cons]; exact (hwsub a).append ih3
      obtain ⟨rs', st1, e1, i1, r1⟩ := initCfg_spec (o := o) hf hc sub (decide (1 < cs.length)) (hsub c hc) (hin c hc) (hhot c hc) h
        (hperm.nodup_iff.2 (n1.sublist hws))
        (fun n hn hn' => n3 n (hws.subset (hperm.mem_iff.1 hn')) n (by simp [hn]) rfl) (List.nodup_append.1 n2).1
      obtain ⟨rows', st', e', i', r'⟩ := ih (done ++ [c]) (by simpa using hd) (rows ++ [rs']) st1 (by simpa using i1)
        (List.rel_append hr (.cons r1 .nil))
      refine ⟨rs' :: rows', st', ?_, by simpa using i', by simpa using r'⟩
      rw [List.foldlM_cons, e1]; exact e'
  obtain ⟨rows, st, e, i, r⟩ := key cs [] (by simp) [] {} (by simpa using initOk_empty) .nil
  refine ⟨rows, st, e, by simpa using i, by simpa using r, ?_⟩
  refine i.all.trans ?_
  simp only [List.nil_append] at r ⊢
  clear key e i
  generalize hb : decide (1 < cs.length) = b at r
  clear hb hf hsub hin hhot
  induction r with
  | nil => simp
  | cons hcr _ ih2 =>
    rw [List.flatten_cons, List.flatMap_append, List.flatMap_cons]
    exact hcr.all.append ih2

/-! ### Any sequence of merges -/

/-- `Merges n st st'`: `n` merges lead from `st` to `st'`, each of two different live chains, in any order. -/
inductive Merges (P : Nodes) : Nat → State → State → Prop
  | refl (st : State) : Merges P 0 st st
  | step {n : Nat} {st st' : State} (s u : Nat) (rb : Bool) (ord : Order) : s ∈ st.chains → u ∈ st.chains → s ≠ u →
      Merges P n (mergeNodes P rb ord st s u) st' → Merges P (n + 1) st st'

/-- However many merges are made, no node is lost or duplicated, sizes, frequencies and offsets stay right, and each
merge leaves one chain less. -/
theorem merges_spec {P : Nodes} {n : Nat} {st st' : State} (h : WF P st) (hm : Merges P n st st') :
    WF P st' ∧ (allNodes st').Perm (allNodes st) ∧ st'.chains.length + n = st.chains.length := by
  induction hm with
  | refl st => exact ⟨h, List.Perm.refl _, by omega⟩
  | @step n st st' s u rb ord hs hu hne _ ih =>
    obtain ⟨w, p, _⟩ := mergeNodes_spec h hs hu hne rb ord
    obtain ⟨w', p', l⟩ := ih w
    refine ⟨w', p'.trans p, ?_⟩
    have : (mergeNodes P rb ord st s u).chains.length = st.chains.length - 1 := List.length_erase_of_mem hu
    have : 0 < st.chains.length := List.length_pos_of_mem hu
    omega

theorem nodesOf_ne {P : Nodes} {st : State} (w : WF P st) {c : Nat} (hc : c ∈ st.chains) : nodesOf st c ≠ [] := by
  obtain ⟨b, hb⟩ := List.exists_mem_of_ne_nil _ (w.ne c hc)
  obtain ⟨x, hx⟩ := List.exists_mem_of_ne_nil _ (w.bundle c hc b hb).ne
  exact List.ne_nil_of_mem (mem_nodesIn.2 ⟨b, hb, hx⟩)

theorem length_le_allNodes {P : Nodes} {st : State} (w : WF P st) : st.chains.length ≤ (allNodes st).length := by
  have : ∀ l : List Nat, (∀ c ∈ l, nodesOf st c ≠ []) → l.length ≤ (l.flatMap (nodesOf st)).length := by
    intro l
    induction l with
    | nil => simp
    | cons a t ih =>
      intro h
      have h1 := ih fun c hc => h c (by simp [hc])
      have h2 := List.length_pos_of_ne_nil (h a (by simp))
      rw [List.flatMap_cons, List.length_append, List.length_cons]
      omega
  exact this _ fun c hc => nodesOf_ne w hc

/-- C29: from the initial chains of any CFGs, after any merges, every hot node is in exactly one chain, once; chain sizes
and frequencies are the sums over their nodes; the recorded offset of a node is the total size of the nodes before it in
its chain; and fewer merges than hot nodes are possible. -/
theorem chains_partition {cs : List Cfg} (hf : Fits G cs) (sub : Cfg → Option (List (List Nat)))
    (hsub : ∀ c ∈ cs, SubOk G o sub c) (hin : ∀ c ∈ cs, c.initial = [])
    (hhot : ∀ c ∈ cs, o.reorderHot = false → cfgHot G c = true → c.nodes.filter (isHot G o c) ≠ []) :
    ∃ st0, initChains G o sub cs = some st0 ∧ ∀ n st, Merges G.nodes n st0 st →
      (allNodes st).Perm (cs.flatMap (wanted G o)) ∧ (allNodes st).Nodup ∧
      (∀ c ∈ st.chains, nodesOf st c ≠ [] ∧ (st.C c).size = ((nodesOf st c).map G.size).sum ∧
        (st.C c).freq = ((nodesOf st c).map (calcFreq G.edges)).sum) ∧
      (∀ c ∈ st.chains, ∀ i x, (nodesOf st c)[i]? = some x → ∃ b off, st.L x = some (b, off) ∧ (st.B b).chain = c ∧
        (st.B b).off + off = (((nodesOf st c).take i).map G.size).sum) ∧
      n + st.chains.length = st0.chains.length ∧ st0.chains.length ≤ (cs.flatMap (wanted G o)).length := by
  obtain ⟨rows, st0, e, i, _, p0⟩ := initChains_spec (o := o) hf sub hsub hin hhot
  refine ⟨st0, e, ?_⟩
  intro n st hm
  obtain ⟨w, p, l⟩ := merges_spec i.wf hm
  refine ⟨p.trans p0, w.once, ?_, ?_, by omega, ?_⟩
  · intro c hc
    exact ⟨nodesOf_ne w hc, w.size c hc, w.freq c hc⟩
  · intro c hc
    have key : ∀ (bs pre : List Nat), pre ++ bs = (st.C c).bundles → ∀ i x, (nodesIn st.B bs)[i]? = some x →
        ∃ b off, st.L x = some (b, off) ∧ (st.B b).chain = c ∧
          (st.B b).off + off = G.nodes.sz (nodesIn st.B pre) + G.nodes.sz ((nodesIn st.B bs).take i) := by
      intro bs
      induction bs with
      | nil => intro pre _ i x hx; simp [nodesIn] at hx
      | cons b t ih =>
        intro pre hp i x hx
        have hb : b ∈ (st.C c).bundles := by rw [← hp]; simp
        rw [nodesIn_cons] at hx ⊢
        by_cases hi : i < (st.B b).nodes.length
        · rw [List.getElem?_append_left hi] at hx
          refine ⟨b, _, (w.bundle c hc b hb).loc i x hx, (w.placed c hc).chain b hb, ?_⟩
          rw [(w.placed c hc).off pre.length b (by rw [← hp]; simp), ← hp, List.take_left' rfl, List.take_append_of_le_length hi.le]
        · rw [List.getElem?_append_right (by omega)] at hx
          obtain ⟨b', off, h1, h2, h3⟩ := ih (pre ++ [b]) (by simpa using hp) _ x hx
          refine ⟨b', off, h1, h2, ?_⟩
          have hle : (st.B b).nodes.length ≤ i := by omega
          rw [h3, nodesIn_append, sz_append, List.take_append, sz_append, List.take_of_length_le hle, nodesIn_cons, sz_append]
          simp only [nodesIn, List.flatMap_nil, Nodes.sz, List.map_nil, List.sum_nil]
          omega
    intro i x hx
    obtain ⟨b, off, h1, h2, h3⟩ := key (st.C c).bundles [] rfl i x hx
    exact ⟨b, off, h1, h2, by rw [h3]; simp [nodesIn, Nodes.sz, nodesOf, Prog.nodes]⟩
  · rw [← p0.length_eq]
    exact length_le_allNodes i.wf

/-- C29: the blocks of a merged chain in order, for each merge order: the first chain `s` is cut after its first `s1`
bundles, and the second chain `u` comes after, between or before the two pieces. -/
theorem merged_order {P : Nodes} {st : State} (h : WF P st) {s u : Nat} (hs : s ∈ st.chains) (hu : u ∈ st.chains) (hne : s ≠ u)
    (rb : Bool) (s1 s2 : List Nat) (hb : (st.C s).bundles = s1 ++ s2) :
    nodesOf (mergeNodes P rb .SU st s u) s = nodesOf st s ++ nodesOf st u ∧
    nodesOf (mergeNodes P rb (.S2S1U s1.length) st s u) s = nodesIn st.B s2 ++ nodesIn st.B s1 ++ nodesOf st u ∧
    nodesOf (mergeNodes P rb (.S1US2 s1.length) st s u) s = nodesIn st.B s1 ++ nodesOf st u ++ nodesIn st.B s2 ∧
    nodesOf (mergeNodes P rb (.US2S1 s1.length) st s u) s = nodesOf st u ++ nodesIn st.B s2 ++ nodesIn st.B s1 ∧
    nodesOf (mergeNodes P rb (.S2US1 s1.length) st s u) s = nodesIn st.B s2 ++ nodesOf st u ++ nodesIn st.B s1 := by
  refine ⟨?_, ?_, ?_, ?_, ?_⟩ <;> rw [(mergeNodes_spec h hs hu hne rb _).2.2.1] <;>
    simp [mergedBundles, slices, nodesOf, hb, nodesIn_append]

/-- C29: the placed blocks of a function that was ever executed: those that were executed, the entry block when functions
are laid out one by one, and all landing pads if one of them was executed; or all blocks when functions are not split. -/
theorem mem_wanted (c : Cfg) (n : Nat) : n ∈ wanted G o c ↔ n ∈ c.nodes ∧
    (∃ e ∈ G.edges, G.fn e.src = c.fn ∨ G.fn e.sink = c.fn) ∧
    (o.splitFunctions = true → calcFreq G.edges n ≠ 0 ∨ (G.bbi n = 0 ∧ o.inter = false) ∨
      (G.lp n = true ∧ ∃ m ∈ c.nodes, G.lp m = true ∧ calcFreq G.edges m ≠ 0)) := by
  have hh : cfgHot G c = true ↔ ∃ e ∈ G.edges, G.fn e.src = c.fn ∨ G.fn e.sink = c.fn := by
    simp [cfgHot, List.any_eq_true]
  have hi : isHot G o c n = true ↔ calcFreq G.edges n ≠ 0 ∨ (G.bbi n = 0 ∧ o.inter = false) ∨
      (G.lp n = true ∧ ∃ m ∈ c.nodes, G.lp m = true ∧ calcFreq G.edges m ≠ 0) := by
    simp [isHot, hotLp, List.any_eq_true, or_assoc]
  rw [← hh, ← hi]
  unfold wanted
  cases h1 : cfgHot G c <;> cases h2 : o.splitFunctions <;> simp

/-! ### A concrete case: blocks 0..4, where 1 → 2 is a forced path and 4 is cold. -/

def exProg : Prog where
  size := fun n => n + 3
  fn := fun _ => 7
  bbi := id
  lp := fun _ => false
  edges := [⟨0, 1, 5, .branch, false⟩, ⟨1, 2, 5, .branch, false⟩, ⟨0, 3, 2, .branch, false⟩, ⟨2, 3, 1, .branch, false⟩,
    ⟨2, 0, 0, .branch, false⟩, ⟨2, 1, 0, .branch, false⟩]

def exCfg : Cfg := ⟨7, [0, 1, 2, 3, 4], []⟩

example : Fits exProg [exCfg] := ⟨by decide, by decide, by decide⟩
example : (initChains exProg {} (fun _ => none) [exCfg]).map (fun st => (st.chains, allNodes st)) =
    some ([1, 0, 3], [1, 2, 0, 3]) := by decide +kernel
/-- Two merges of the example. -/
def exMerged (st : State) : State :=
  mergeNodes exProg.nodes true (.S1US2 1) (mergeNodes exProg.nodes false .SU st 0 1) 0 3

example : ((initChains exProg { splitFunctions := false } (fun _ => none) [exCfg]).map fun st =>
    ((exMerged st).chains, nodesOf (exMerged st) 0)) = some ([4, 0], [0, 3, 1, 2]) := by decide +kernel
example : ((initChains exProg { splitFunctions := false } (fun _ => none) [exCfg]).map fun st =>
    (((exMerged st).C 0).size, (exMerged st).L 2)) = some (18, some (2, 13)) := by decide +kernel

end Verif.Chain

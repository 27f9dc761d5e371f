import Verif.CfgBuildProps

/-!
# C101: the statistics of the program CFG

llvm_propeller_statistics.h:86-132 (`CfgStats`), as filled in by llvm_propeller_program_cfg_builder.cc:46-106 and 152-194 and
llvm_propeller_cfg.cc:200-209.  The graph itself is that of C27.  Simplified: counters are unbounded (`int`, `int64_t`, `uint64_t` in
the code).
-/
namespace Verif.CfgStats
open Verif Verif.Mapper Verif.InferFT Verif.CfgBuild

/-! ## Model -/

/-- `PropellerStats::CfgStats` (llvm_propeller_statistics.h:86-96); a missing key of a map counts 0. -/
structure Stats where
  mixed : Nat := 0
  cfgs : Nat := 0
  pads : Nat := 0
  nodes : Nat := 0
  created : Kind → Nat := fun _ => 0
  weights : Kind → Nat := fun _ => 0
  hot : Nat := 0
  hotEmpty : Nat := 0

/-- `InternalCreateEdge` with its statistics (llvm_propeller_program_cfg_builder.cc:152-194). -/
def createEdgeS (m : Mapper) {S : Type} [DecidableEq S] (sec : Nat → S) (p : St × Stats) (r : Req) : Option (St × Stats) :=
  match m.handles[r.src]?, m.handles[r.sink]? with
  | some a, some b =>
    match p.1.emap.lookup (a, b) with
    | some i =>
      let mixed := if (p.1.g.edges[i]?).map (·.kind) ≠ some r.kind then p.2.mixed + 1 else p.2.mixed
      some ({ p.1 with g := { p.1.g with edges := bump p.1.g.edges i r.weight } },
        { p.2 with mixed := mixed, weights := upd p.2.weights r.kind (· + r.weight) })
    | none => (createEdge p.1.g a b r.weight r.kind (decide (sec a.fn ≠ sec b.fn))).map fun q =>
        (⟨q.1, ((a, b), q.2) :: p.1.emap⟩,
          { p.2 with created := upd p.2.created r.kind (· + 1), weights := upd p.2.weights r.kind (· + r.weight) })
  | _, _ => none

/-- The loop over the selected functions (llvm_propeller_program_cfg_builder.cc:58-86): the CFGs made so far and the statistics. -/
def makeCfgs (m : Mapper) : List Nat → List Nat × Stats → List Nat × Stats
  | [], p => p
  | f :: sel, p =>
    if f ∈ p.1 then makeCfgs m sel p
    else makeCfgs m sel (p.1 ++ [f], { p.2 with nodes := p.2.nodes + ((m.fns[f]?).map (·.bbs.length)).getD 0, cfgs := p.2.cfgs + 1 })

/-- The nodes of the CFG of a function (llvm_propeller_program_cfg_builder.cc:25-44). -/
def nodesOf (m : Mapper) (f : Nat) : List Handle := (List.range (((m.fns[f]?).map (·.bbs.length)).getD 0)).map fun b => ⟨f, b⟩

/-- `ControlFlowGraph::GetNodeFrequencyStats` (llvm_propeller_cfg.cc:200-209): hot blocks, empty ones, landing pads. -/
def freqStats (m : Mapper) (g : Graph) (pad : Handle → Bool) (f : Nat) : Nat × Nat × Nat :=
  (nodesOf m f).foldl (fun s n => if nodeFreq g n = 0 then s
    else (s.1 + 1, (if m.size n = 0 then s.2.1 + 1 else s.2.1), (if pad n then s.2.2 + 1 else s.2.2))) (0, 0, 0)

/-- The last loop of `Build` (llvm_propeller_program_cfg_builder.cc:93-103): the functions kept and the statistics. -/
def keepHot (m : Mapper) (g : Graph) (pad : Handle → Bool) : List Nat → List Nat × Stats → List Nat × Stats
  | [], p => p
  | f :: cfgs, p =>
    let s := freqStats m g pad f
    if s.1 = 0 then keepHot m g pad cfgs p
    else
      let pads := if s.2.2 ≠ 0 then p.2.pads + 1 else p.2.pads
      keepHot m g pad cfgs (p.1 ++ [f], { p.2 with hot := p.2.hot + s.1, hotEmpty := p.2.hotEmpty + s.2.1, pads := pads })

/-- `ProgramCfgBuilder::Build` (llvm_propeller_program_cfg_builder.cc:46-106) without CFGs to begin with: the edges, the functions kept and
the statistics. `order`: the hash order of the CFGs.  `pad`: `is_landing_pad`.  The thresholds of C79 are left out. -/
def buildS (m : Mapper) {S : Type} [DecidableEq S] (sec : Nat → S) (pad : Handle → Bool) (order : List Nat → List Nat) (sel : List Nat)
    (brs fts : List ((Nat × Nat) × Nat)) : Option (Graph × List Nat × Stats) :=
  let p := makeCfgs m sel ([], {})
  ((requests m brs fts).foldlM (createEdgeS m sec) (⟨Graph.empty, []⟩, p.2)).map fun q =>
    (q.1.g, keepHot m q.1.g pad (order p.1) ([], q.2))

/-- `total_edges_created` (llvm_propeller_statistics.h:98-104). -/
def Stats.edges (s : Stats) : Nat := s.created .branch + s.created .call + s.created .ret

/-- `total_edge_weight_created` (llvm_propeller_statistics.h:106-112). -/
def Stats.weight (s : Stats) : Nat := s.weights .branch + s.weights .call + s.weights .ret

/-- `operator+=` (llvm_propeller_statistics.h:114-129). -/
def Stats.add (s t : Stats) : Stats :=
  ⟨s.mixed + t.mixed, s.cfgs + t.cfgs, s.pads + t.pads, s.nodes + t.nodes, fun k => s.created k + t.created k,
    fun k => s.weights k + t.weights k, s.hot + t.hot, s.hotEmpty + t.hotEmpty⟩

/-! ## Specification -/

/-- Two requests for edges between the same blocks. -/
def SamePair (m : Mapper) (q r : Req) : Prop := m.handles[q.src]? = m.handles[r.src]? ∧ m.handles[q.sink]? = m.handles[r.sink]?

instance (m : Mapper) (q r : Req) : Decidable (SamePair m q r) := by unfold SamePair; infer_instance

/-- The requests that ask for another kind than the first one between the same blocks. -/
def mixedReqs (m : Mapper) (rs : List Req) : List Req :=
  rs.filter fun r => decide ((rs.find? fun q => decide (SamePair m q r)).map (·.kind) ≠ some r.kind)

/-- The statistics describe the graph. -/
structure Describes (m : Mapper) (rs : List Req) (pad : Handle → Bool) (sel : List Nat) (g : Graph) (s : Stats) : Prop where
  cfgs : s.cfgs = sel.length
  nodes : s.nodes = m.handles.length
  created : ∀ k, s.created k = (g.edges.filter fun e => decide (e.kind = k)).length
  edges : s.edges = g.edges.length
  weight : s.weight = (g.edges.map (·.weight)).sum
  mixed : s.mixed = (mixedReqs m rs).length
  weights : s.mixed = 0 → ∀ k, s.weights k = ((g.edges.filter fun e => decide (e.kind = k)).map (·.weight)).sum
  hot : s.hot = (m.handles.filter fun h => decide (0 < nodeFreq g h)).length
  hotEmpty : s.hotEmpty = (m.handles.filter fun h => decide (0 < nodeFreq g h ∧ m.size h = 0)).length
  pads : s.pads = (sel.filter fun f => m.handles.any fun h => decide (h.fn = f ∧ 0 < nodeFreq g h ∧ pad h = true)).length

end Verif.CfgStats

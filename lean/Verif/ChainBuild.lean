import Verif.ChainGain

/-! # C31: the whole chain builder (`NodeChainBuilder::BuildChains`, llvm_propeller_node_chain_builder.h/.cc) -/
namespace Verif.Chain
open Verif

/-- `PropellerCodeLayoutParameters`, the weights of the scores (llvm_propeller_options.proto:82-86). -/
structure Weights where
  ft : Nat := 10
  fwd : Nat := 1
  bwd : Nat := 1
  fwdDist : Nat := 1024
  bwdDist : Nat := 680

/-- `GetEdgeScore` (llvm_propeller_code_layout_scorer.cc:28-53), in exact arithmetic; `size`: the sizes of the nodes. -/
def getEdgeScore (k : Weights) (size : Nat → Nat) (e : Edge) (dist : Int) : Rat :=
  let d1 : Int := if e.kind = .call then dist + (size e.src / 2 : Nat) else dist
  let d : Int := if e.kind = .ret then d1 + (size e.sink / 2 : Nat) else d1
  if d = 0 ∧ e.kind = .branch then e.weight * k.ft
  else if 0 < d ∧ d.natAbs < k.fwdDist then e.weight * k.fwd * (1 - (d.natAbs : Rat) / k.fwdDist)
  else if d < 0 ∧ d.natAbs < k.bwdDist then e.weight * k.bwd * (1 - (d.natAbs : Rat) / k.bwdDist)
  else 0

/-- `NodeChainAssembly`: the chains, the merge order with its slice position, and the cached gain
(llvm_propeller_node_chain_assembly.h:270-295). -/
structure Asm where
  s : Nat
  u : Nat
  ord : Order
  gain : Rat

/-- `GetFirstNode`, `GetLastNode` (llvm_propeller_node_chain.h:236-242). -/
def firstNode (st : State) (c : Nat) : Option Nat := ((st.C c).bundles.head?).bind fun b => (st.B b).nodes.head?
def lastNode (st : State) (c : Nat) : Option Nat := ((st.C c).bundles.getLast?).bind fun b => (st.B b).nodes.getLast?
/-- `GetFirstNode` of an assembly (llvm_propeller_node_chain_assembly.h:190-192). -/
def asmFirst (st : State) (ord : Order) (s u : Nat) : Option Nat :=
  (((asmSlices ord st s u).head?).bind fun x => (x.bundles st).head?).bind fun b => (st.B b).nodes.head?

/-- `is_entry()` of a node that was found. -/
def isEntry (P : Nodes) (n : Option Nat) : Bool := n.any P.entry

/-- `BuildNodeChainAssembly` (llvm_propeller_node_chain_assembly.cc:17-55); outer `none`: a `CHECK` fails; inner `none`: an
error status is returned. -/
def buildAsm (P : Nodes) (sc : Edge → Int → Rat) (o : Opts) (errorOnZero : Bool) (st : State) (s u : Nat) (ord : Order) :
    Option (Option Asm) :=
  if s = u then none
  else if (ord.pos.all fun p => decide (p < (st.C s).bundles.length) && decide (0 < p)) = false then none
  else (scoreGain P sc ord st s u).map fun g =>
    if (!o.inter && (isEntry P (firstNode st s) || isEntry P (firstNode st u)) && !isEntry P (asmFirst st ord s u)) = true then none
    else if g < 0 then none
    else if g = 0 ∧ errorOnZero = true then none
    else some ⟨s, u, ord, g⟩

/-- Values of the enumeration `ChainMergeOrder` (llvm_propeller_chain_merge_order.h:11-17). -/
def Order.rank : Order → Nat
  | .SU => 0 | .S2S1U _ => 1 | .S1US2 _ => 2 | .US2S1 _ => 3 | .S2US1 _ => 4

/-- `std::optional<int>` comparison: `nullopt` is smallest. -/
def Order.posKey (o : Order) : Nat := (o.pos.map (· + 1)).getD 0

/-- `NodeChainAssemblyComparator` (llvm_propeller_node_chain_assembly.cc:262-271). -/
def asmLt (a b : Asm) : Bool :=
  decide (a.gain < b.gain) || (decide (a.gain = b.gain) &&
  (decide (b.s < a.s) || (decide (b.s = a.s) &&
  (decide (b.u < a.u) || (decide (b.u = a.u) &&
  (decide (a.ord.rank < b.ord.rank) || (decide (a.ord.rank = b.ord.rank) &&
   decide (a.ord.posKey < b.ord.posKey))))))))

/-- `NodeChainAssemblyQueue` (llvm_propeller_node_chain_builder.h:31-130): at most one assembly for each ordered pair of
chains. -/
abbrev Queue := List Asm

/-- `RemoveAssembly`, `InsertAssembly`. -/
def Queue.remove (q : Queue) (s u : Nat) : Queue := q.filter fun a => !(decide (a.s = s) && decide (a.u = u))
def Queue.insert (q : Queue) (a : Asm) : Queue := Queue.remove q a.s a.u ++ [a]

/-- `std::max_element`: the first of the largest. -/
def pickMax (best : Option Asm) (a : Asm) : Option Asm :=
  match best with
  | none => some a
  | some b => if asmLt b a then some a else some b
/-- `GetBestAssembly` of `NodeChainAssemblyIterativeQueue`. -/
def Queue.best (q : Queue) : Option Asm := q.foldl pickMax none

/-- `compare_and_update_best_assembly` (llvm_propeller_node_chain_builder.cc:356-363). -/
def pick (best a : Option Asm) : Option Asm :=
  match a with
  | none => best
  | some a => pickMax best a

/-- `ForEachInEdgeRef` (llvm_propeller_cfg.h:222-225). -/
def inEdges (G : Prog) (n : Nat) : List Edge :=
  (G.edges.filter fun e => decide (e.sink = n) && decide (G.fn e.src = G.fn n)) ++
  (G.edges.filter fun e => decide (e.sink = n) && decide (G.fn e.src ≠ G.fn n))

/-- `try_assemblies`, for one edge: the orders that it tries (llvm_propeller_node_chain_builder.cc:386-396). -/
def tryPos (st : State) (s p : Nat) (orders : List Order) : List Order :=
  if p = 0 ∨ p = (st.C s).bundles.length then [] else orders

/-- All results, or `none` if one fails. -/
def gather {α β : Type} (f : α → Option (List β)) : List α → Option (List β)
  | [] => some []
  | a :: t => (f a).bind fun x => (gather f t).map (x ++ ·)

variable (sc : Edge → Int → Rat) (G : Prog) (o : Opts) (multi : Bool)

/-- Splits before the sink of an edge from the end of `u` (llvm_propeller_node_chain_builder.cc:399-409); `none`: the sink
is in no bundle (a null pointer is read). -/
def trySink (st : State) (s : Nat) (e : Edge) : Option (List Order) :=
  if shouldVisit o multi e = false then some []
  else (st.L e.sink).map fun p =>
    if (st.B p.1).chain ≠ s then [] else if (st.B p.1).nodes.head? ≠ some e.sink then []
    else tryPos st s (st.B p.1).idx [.S1US2 (st.B p.1).idx, .US2S1 (st.B p.1).idx]

/-- Splits after the source of an edge to the beginning of `u` (llvm_propeller_node_chain_builder.cc:413-423). -/
def trySrc (st : State) (s : Nat) (e : Edge) : Option (List Order) :=
  if shouldVisit o multi e = false then some []
  else (st.L e.src).map fun p =>
    if (st.B p.1).chain ≠ s then [] else if (st.B p.1).nodes.getLast? ≠ some e.src then []
    else tryPos st s ((st.B p.1).idx + 1) [.S1US2 ((st.B p.1).idx + 1), .S2S1U ((st.B p.1).idx + 1)]

/-- The splitting orders that `UpdateNodeChainAssembly` tries, in order (llvm_propeller_node_chain_builder.cc:354-425). -/
def splitOrders (st : State) (s u : Nat) : Option (List Order) :=
  if o.chainSplit = false then some []
  else if (st.C s).bundles.length ≤ o.threshold then
    some ([Order.S1US2, Order.S2S1U, Order.US2S1, Order.S2US1].flatMap fun k =>
      (List.range ((st.C s).bundles.length - 1)).map fun i => k (i + 1))
  else
    (gather (trySink o multi st s) ((lastNode st u).elim [] (outEdges G))).bind fun x =>
    (gather (trySrc o multi st s) ((firstNode st u).elim [] (inEdges G))).map (x ++ ·)

/-- The best assembly of two chains, if any is worth it. -/
def bestOf (st : State) (s u : Nat) : Option (Option Asm) :=
  (splitOrders G o multi st s u).bind fun os =>
    (Order.SU :: os).foldlM (fun best ord => (buildAsm G.nodes sc o true st s u ord).map (pick best)) none

/-- `UpdateNodeChainAssembly` (llvm_propeller_node_chain_builder.cc:348-432). -/
def updateAsm (st : State) (q : Queue) (s u : Nat) : Option Queue :=
  (bestOf sc G o multi st s u).map fun best =>
    match best with
    | some a => q.insert a
    | none => q.remove s u

/-- `VisitEachCandidateChain` (llvm_propeller_node_chain.h:277-287). -/
def cands (st : State) (c : Nat) : List Nat :=
  (st.C c).interIn ++ ((st.C c).interOut.map (·.1)).filter fun d => decide (d ∉ (st.C c).interIn)

/-- `InitChainAssemblies` (llvm_propeller_node_chain_builder.cc:435-444). -/
def initAsms (st : State) : Option Queue :=
  (st.chains.flatMap fun c => (cands st c).map fun d => (c, d)).foldlM (fun q p => updateAsm sc G o multi st q p.1 p.2) []

/-- `UpdateAssembliesAfterMerge` (llvm_propeller_node_chain_builder.cc:502-521); `chains_.erase` is part of `merge`. -/
def afterMerge (st : State) (q : Queue) (s u : Nat) : Option Queue :=
  (cands st s).foldlM (fun q d => (updateAsm sc G o multi st q s d).bind fun q => updateAsm sc G o multi st q d s)
    ((cands st u).foldl (fun q d => (q.remove u d).remove d u) q)

/-- `MergeChains(NodeChainAssembly)` (llvm_propeller_node_chain_builder.cc:457-467). -/
def mergeAsm (x : State × Queue) (a : Asm) : Option (State × Queue) :=
  if a.gain < 0 then none
  else (merge G.nodes sc o a.ord a.gain x.1 a.s a.u).bind fun st =>
    (afterMerge sc G o multi st x.2 a.s a.u).map fun q => (st, q)

/-- The loop of `BuildChains` (llvm_propeller_node_chain_builder.cc:334-336); `none` also if it does not end within
`fuel` rounds. -/
def buildLoop : Nat → State × Queue → Option (State × Queue)
  | fuel, x =>
    match x.2.best with
    | none => some x
    | some a =>
      match fuel with
      | 0 => none
      | fuel + 1 => (mergeAsm sc G o multi x a).bind (buildLoop fuel)

/-- `exec_density` (llvm_propeller_node_chain.h:225-227). -/
def density (st : State) (c : Nat) : Rat := ((st.C c).freq : Rat) / (max (st.C c).size 1 : Nat)

/-- The comparison of `CoalesceChains` (llvm_propeller_node_chain_builder.cc:541-549). -/
def coalesceLt (st : State) (a b : Nat) : Bool :=
  if isEntry G.nodes (firstNode st b) then false
  else if isEntry G.nodes (firstNode st a) then true
  else decide (density st b < density st a) || (decide (density st a = density st b) && decide (a < b))

/-- `MergeChains(left, right)` (llvm_propeller_node_chain_builder.cc:446-455); `none`: `CHECK(assembly.ok())` fails. -/
def mergeRight (x : State × Queue) (l r : Nat) : Option (State × Queue) :=
  (buildAsm G.nodes sc o false x.1 l r .SU).bind fun a => a.bind (mergeAsm sc G o multi x)

/-- `CoalesceChains` (llvm_propeller_node_chain_builder.cc:527-558). -/
def coalesce (x : State × Queue) : Option (State × Queue) :=
  match isort (fun a b => !coalesceLt G x.1 b a) x.1.chains with
  | [] => some x
  | c :: t => (c :: t).foldlM (fun x d => if d = c then some x else mergeRight sc G o multi x c d) x

/-- `BuildChains` (llvm_propeller_node_chain_builder.cc:329-346), for the CFGs `cs`; `sub`: the recursive builder. -/
def build (sub : Cfg → Option (List (List Nat))) (cs : List Cfg) : Option State :=
  ((initChains G o sub cs).bind (initEdges sc G o (decide (1 < cs.length)))).bind fun st =>
  (initAsms sc G o (decide (1 < cs.length)) st).bind fun q =>
  (buildLoop sc G o (decide (1 < cs.length)) st.chains.length (st, q)).bind fun x =>
  (if cs.length = 1 then coalesce sc G o (decide (1 < cs.length)) x else some x).map (·.1)

/-- The node lists of the chains that are returned. -/
def rowsOf (st : State) : List (List Nat) := st.chains.map (nodesOf st)

/-- The builder with its recursion: for functions with several landing pads, `InitNodeChains` builds the chains of that
one function first (llvm_propeller_node_chain_builder.cc:222-243); in such a run it does not recurse further. -/
def buildChains (cs : List Cfg) : Option State :=
  build sc G o (fun c => (build sc G o (fun _ => none) [c]).map rowsOf) cs

example : (buildChains exScore exProg {} [exCfg]).map rowsOf = some [[0, 1, 2, 3]] := by decide +kernel

end Verif.Chain

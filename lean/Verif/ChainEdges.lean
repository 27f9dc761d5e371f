import Verif.ChainInit
import Verif.Sort

/-! # C30: the edges that node chains keep (`NodeChainBuilder::InitChainEdges`, `NodeChain::MergeChainEdges`,
`RemoveIntraBundleEdges`, `SortIntraChainEdges`, `MergeWith`) -/
namespace Verif.Chain
open Verif

/-- `inter_chain_out_edges_[d]` gets more edges (`try_emplace`, or appended). -/
def addOut (m : OMap Nat (List Edge)) (d : Nat) (es : List Edge) : OMap Nat (List Edge) :=
  OMap.upsert d (fun o => o.getD [] ++ es) m

/-- Insertion into `inter_chain_in_edges_`. -/
def insertKey (l : List Nat) (x : Nat) : List Nat := if x ∈ l then l else l ++ [x]

/-- `intra_chain_out_edges` of the source's bundle gets an edge (llvm_propeller_node_chain.cc:100-107); the source is
always in a bundle. -/
def pushIntra (st : State) (e : Edge) : State :=
  match st.L e.src with
  | some (b, _) => { st with B := upd st.B b { st.B b with outs := (st.B b).outs ++ [e] } }
  | none => st

/-- `move_edges` (llvm_propeller_node_chain.cc:97-119). -/
def moveEdges (st : State) (es : List Edge) (f t : Nat) : State :=
  if f = t then es.foldl pushIntra st
  else
    { st with
      C := if (OMap.find? (st.C f).interOut t).isSome then
          upd st.C f { st.C f with interOut := addOut (st.C f).interOut t es }
        else
          upd (upd st.C f { st.C f with interOut := addOut (st.C f).interOut t es }) t
            { st.C t with interIn := insertKey (st.C t).interIn f } }

/-- First loop of `MergeChainEdges` (llvm_propeller_node_chain.cc:122-128), `u`: `other`; `none`: a `CHECK` fails. The
hash map is visited in the order of the chain ids. -/
def mergeOut (s u : Nat) (st : State) (p : Nat × List Edge) : Option State :=
  if p.1 = u then none
  else
    let st1 := moveEdges st p.2 s p.1
    some { st1 with C := upd st1.C p.1 { st1.C p.1 with interIn := (st1.C p.1).interIn.erase u } }

/-- Second loop (llvm_propeller_node_chain.cc:131-141). -/
def mergeIn (s u : Nat) (st : State) (c : Nat) : Option State :=
  if c = u then none
  else
    match OMap.find? (st.C c).interOut u with
    | none => none
    | some es =>
      let st1 := moveEdges st es c s
      some { st1 with C := upd st1.C c { st1.C c with interOut := OMap.erase u (st1.C c).interOut } }

/-- `MergeChainEdges` (llvm_propeller_node_chain.cc:89-142). -/
def mergeEdges (st : State) (s u : Nat) : Option State :=
  ((st.C u).interOut.foldlM (mergeOut s u) st).bind fun st1 => (st1.C u).interIn.foldlM (mergeIn s u) st1

/-- Bundle, chain and offset of a node, as the mapper has them (`GetBundleMappingEntry`, `GetNodeOffset`). -/
def bundleOf (st : State) (n : Nat) : Option Nat := (st.L n).map (·.1)
def chainOf (st : State) (n : Nat) : Option Nat := (st.L n).map fun p => (st.B p.1).chain
def offOf (st : State) (n : Nat) : Nat := ((st.L n).map fun p => (st.B p.1).off + p.2).getD 0

/-- Distance of an edge within its chain. -/
def distOf (P : Nodes) (st : State) (e : Edge) : Int := (offOf st e.sink : Int) - offOf st e.src - P.size e.src

/-- Distance of an edge within its bundle (llvm_propeller_node_chain.cc:158-160). -/
def bundleDist (P : Nodes) (st : State) (e : Edge) : Int :=
  (((st.L e.sink).map (·.2)).getD 0 : Int) - ((st.L e.src).map (·.2)).getD 0 - P.size e.src

/-- Sum of a function over a list. -/
def sumOn {α : Type} (f : α → Rat) (l : List α) : Rat := (l.map f).sum

variable (P : Nodes) (sc : Edge → Int → Rat)

/-- Whether an edge runs within one bundle. -/
def inBundle (st : State) (e : Edge) : Bool := decide (bundleOf st e.src = bundleOf st e.sink)

/-- `RemoveIntraBundleEdges` (llvm_propeller_node_chain.cc:144-170), for the bundles `bs` of chain `c`; `sc`:
`GetEdgeScore`. -/
def removeIntra (c : Nat) (bs : List Nat) (st : State) : State :=
  bs.foldl (fun st b =>
    { st with
      B := upd st.B b { st.B b with outs := (st.B b).outs.filter fun e => !inBundle st e }
      C := upd st.C c { st.C c with
        score := (st.C c).score - sumOn (fun e => sc e (bundleDist P st e)) ((st.B b).outs.filter (inBundle st)) } }) st

/-- Index in its chain of the sink's bundle. -/
def sinkIdx (st : State) (e : Edge) : Nat := ((st.L e.sink).map fun p => (st.B p.1).idx).getD 0

/-- `SortIntraChainEdges` (llvm_propeller_node_chain.cc:174-193). -/
def sortIntra (bs : List Nat) (st : State) : State :=
  bs.foldl (fun st b =>
    { st with B := upd st.B b { st.B b with outs := isort (fun e e' =>
      decide (sinkIdx st e < sinkIdx st e') || (decide (sinkIdx st e = sinkIdx st e') && decide (e.src ≤ e'.src))) (st.B b).outs } }) st

/-- `NodeChain::MergeWith` (llvm_propeller_node_chain.cc:195-266), and the removal of the merged chain
(`UpdateAssembliesAfterMerge`); `gain`: `assembly.score_gain()`. -/
def merge (o : Opts) (ord : Order) (gain : Rat) (st : State) (s u : Nat) : Option State :=
  (mergeEdges st s u).map fun st1 =>
    let st2 := mergeNodes P (shouldRebundle o.chainSplit o.threshold (st.C s) (st.C u)) ord st1 s u
    let st3 := { st2 with C := upd st2.C s { st2.C s with score := (st.C s).score + (st.C u).score + gain } }
    let bs := (st3.C s).bundles
    let st4 := if (st.C s).bundles.length + (st.C u).bundles.length ≠ bs.length then removeIntra P sc s bs st3 else st3
    sortIntra bs st4

/-- `ComputeScore` (llvm_propeller_node_chain.cc:268-285), without its `CHECK_NE`. -/
def computeScore (st : State) (c : Nat) : Rat :=
  sumOn (fun b => sumOn (fun e => sc e (distOf P st e)) (st.B b).outs) (st.C c).bundles

/-- `ShouldVisitEdge` (llvm_propeller_node_chain_builder.h, end); `multi`: `cfgs_.size() > 1`. -/
def shouldVisit (o : Opts) (multi : Bool) (e : Edge) : Bool :=
  decide (e.weight ≠ 0) && decide (e.kind ≠ .ret) && ((o.inter && multi && !e.interSection) || decide (e.kind ≠ .call))

/-- `ForEachOutEdgeRef` (llvm_propeller_cfg.h:227-230). -/
def outEdges (G : Prog) (n : Nat) : List Edge :=
  (G.edges.filter fun e => decide (e.src = n) && decide (G.fn e.sink = G.fn n)) ++
  (G.edges.filter fun e => decide (e.src = n) && decide (G.fn e.sink ≠ G.fn n))

/-- One edge in `InitChainEdges` (llvm_propeller_node_chain_builder.cc, `InitChainEdges`); `none`: an end of the edge is in
no bundle (a null pointer is read). -/
def initEdge (c : Nat) (st : State) (e : Edge) : Option State :=
  match st.L e.src, st.L e.sink with
  | some (b, _), some (b', _) =>
    if b = b' then some st
    else if (st.B b').chain = c then some (pushIntra st e)
    else some (moveEdges st [e] c (st.B b').chain)
  | _, _ => none

/-- `InitChainEdges`: all visited edges from the nodes of each chain, then the scores. -/
def initEdges (G : Prog) (o : Opts) (multi : Bool) (st : State) : Option State :=
  (st.chains.foldlM (fun st c =>
    (((nodesOf st c).flatMap (outEdges G)).filter (shouldVisit o multi)).foldlM (initEdge c) st) st).map fun st1 =>
  { st1 with C := fun c => if c ∈ st1.chains then { st1.C c with score := computeScore G.nodes sc st1 c } else st1.C c }

end Verif.Chain

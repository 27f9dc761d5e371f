import Verif.ChainEdgesInv

/-! # C30: the gain predicted for a merge (llvm_propeller_node_chain_assembly.h/.cc) -/
namespace Verif.Chain
open Verif

/-- `NodeChainSlice` (llvm_propeller_node_chain_assembly.h:42-102). -/
structure Slice where
  chain : Nat
  lo : Nat
  hi : Nat

variable (P : Nodes) (sc : Edge → Int → Rat)

/-- The bundles of a slice, `begin_pos()` to `end_pos()`. -/
def Slice.bundles (st : State) (x : Slice) : List Nat := ((st.C x.chain).bundles.take x.hi).drop x.lo
/-- `begin_offset` (llvm_propeller_node_chain_assembly.h:79-81); 0 where the code would read past the end. -/
def Slice.beginOff (st : State) (x : Slice) : Nat := (((st.C x.chain).bundles[x.lo]?).map fun b => (st.B b).off).getD 0
/-- `end_offset` (llvm_propeller_node_chain_assembly.h:82-86). -/
def Slice.endOff (st : State) (x : Slice) : Nat :=
  if x.hi = (st.C x.chain).bundles.length then (st.C x.chain).size
  else (((st.C x.chain).bundles[x.hi]?).map fun b => (st.B b).off).getD 0

/-- `ConstructSlices` (llvm_propeller_node_chain_assembly.cc:77-99). -/
def asmSlices (o : Order) (st : State) (s u : Nat) : List Slice :=
  let U : Slice := ⟨u, 0, (st.C u).bundles.length⟩
  let n := (st.C s).bundles.length
  match o with
  | .SU => [⟨s, 0, n⟩, U]
  | .S2S1U p => [⟨s, p, n⟩, ⟨s, 0, p⟩, U]
  | .S1US2 p => [⟨s, 0, p⟩, U, ⟨s, p, n⟩]
  | .US2S1 p => [U, ⟨s, p, n⟩, ⟨s, 0, p⟩]
  | .S2US1 p => [⟨s, p, n⟩, U, ⟨s, 0, p⟩]

/-- `unsplit_chain_slice_index` (llvm_propeller_node_chain_assembly.h:218-232). -/
def unsplitIdx : Order → Nat
  | .SU => 1 | .S2S1U _ => 2 | .S1US2 _ => 1 | .US2S1 _ => 0 | .S2US1 _ => 1
/-- `split_chain_slice_indexes` (llvm_propeller_node_chain_assembly.h:235-249). -/
def splitIdxs : Order → List Nat
  | .SU => [0] | .S2S1U _ => [1, 0] | .S1US2 _ => [0, 2] | .US2S1 _ => [2, 1] | .S2US1 _ => [0, 2]

/-- Backward scan of one bundle (llvm_propeller_node_chain_assembly.cc:131-137); the `break` leaves the bundle only. -/
def scanBack (n : Nat) (ns : List Nat) : Bool := decide (n ∈ ns.reverse.takeWhile fun m => decide (P.size m = 0))
/-- Forward scan of one bundle (llvm_propeller_node_chain_assembly.cc:146-152). -/
def scanFwd (n : Nat) : List Nat → Bool
  | [] => false
  | m :: t => if m = n then true else if P.size m ≠ 0 then false else scanFwd n t

/-- One iteration of the loop over slices in `FindSliceIndex` (llvm_propeller_node_chain_assembly.cc:112-155): is the node at
offset `off` in this slice? -/
def inSlice (st : State) (n off : Nat) (x : Slice) : Bool :=
  (decide (off < x.endOff st) && decide (x.beginOff st < off)) ||
  (decide (off = x.endOff st) && (x.bundles st).reverse.any fun b => scanBack P n (st.B b).nodes) ||
  (decide (off = x.beginOff st) && (x.bundles st).any fun b => scanFwd P n (st.B b).nodes)

/-- `FindSliceIndex` (llvm_propeller_node_chain_assembly.cc:101-157). A node in no bundle (null pointer read) gives `none`
too. -/
def findSlice (o : Order) (st : State) (s u n : Nat) : Option Nat :=
  match st.L n with
  | none => none
  | some (b, d) =>
    if (st.B b).chain = u then some (unsplitIdx o)
    else if (st.B b).chain ≠ s then none
    else if o = .SU then some 0
    else (splitIdxs o).find? fun i => ((asmSlices o st s u)[i]?).any fun x => inSlice P st n ((st.B b).off + d) x

/-- The distance in `ComputeEdgeScore` (llvm_propeller_node_chain_assembly.cc:159-196); `none`: `value()` of a
`nullopt`. -/
def edgeDist (o : Order) (st : State) (s u : Nat) (e : Edge) : Option Int :=
  match findSlice P o st s u e.src, findSlice P o st s u e.sink with
  | some i, some j =>
    let so : Int := offOf st e.src
    let ko : Int := offOf st e.sink
    if i = j then some (ko - so - P.size e.src)
    else
      match (asmSlices o st s u)[i]?, (asmSlices o st s u)[j]? with
      | some x, some y =>
        let d : Int := if i < j then x.endOff st - so - P.size e.src + ko - y.beginOff st
          else x.beginOff st - so - P.size e.src + ko - y.endOff st
        let m : Int := (((asmSlices o st s u)[1]?).map fun z => (z.endOff st : Int) - z.beginOff st).getD 0
        some (if i = 0 ∧ j = 2 then d + m else if i = 2 ∧ j = 0 then d - m else d)
      | _, _ => none
  | _, _ => none

/-- `ComputeEdgeScore`. -/
def edgeScore (o : Order) (st : State) (s u : Nat) (e : Edge) : Option Rat := (edgeDist P o st s u e).map (sc e)

/-- A sum of terms that may fail. -/
def sumM (f : Edge → Option Rat) (l : List Edge) : Option Rat := l.foldlM (fun a e => (f e).map (a + ·)) 0

/-- `ComputeInterChainScore` (llvm_propeller_node_chain_assembly.cc:198-208). -/
def interScore (o : Order) (st : State) (s u f t : Nat) : Option Rat :=
  match outTo st f t with
  | none => some 0
  | some es => sumM (edgeScore P sc o st s u) es

/-- The edges visited by `ComputeSplitChainScoreGain`'s loops (llvm_propeller_node_chain_assembly.cc:227-253). -/
def crossing (st : State) (s p : Nat) : List Edge :=
  ((st.C s).bundles.take p).flatMap (fun b => (st.B b).outs.reverse.takeWhile fun e => decide (p ≤ sinkIdx st e)) ++
  ((st.C s).bundles.drop p).flatMap (fun b => (st.B b).outs.takeWhile fun e => decide (sinkIdx st e < p))

/-- `ComputeSplitChainScoreGain` (llvm_propeller_node_chain_assembly.cc:214-255). -/
def splitGain (o : Order) (st : State) (s u : Nat) : Option Rat :=
  match o.pos with
  | none => some 0
  | some p => sumM (fun e => (edgeScore P sc o st s u e).map (· - sc e (distOf P st e))) (crossing st s p)

/-- `ComputeScoreGain` (llvm_propeller_node_chain_assembly.cc:60-75); exact arithmetic instead of `double`. -/
def scoreGain (o : Order) (st : State) (s u : Nat) : Option Rat :=
  (interScore P sc o st s u s u).bind fun a =>
  (interScore P sc o st s u u s).bind fun b =>
  if a + b = 0 then some 0 else (splitGain P sc o st s u).map (a + b + ·)

end Verif.Chain

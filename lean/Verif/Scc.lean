import Mathlib.Logic.Relation
import Mathlib.Data.List.Basic

/-! Inclusive counts over the call graph: `symbol_map.cc:611-640` and `739-980`. Symbols are numbered; a symbol, the `SCCNode`
created for it and the pointer to either are the same number. Hash sets are lists in an arbitrary order: every theorem quantifies
over it. Undefined behaviour (`back()` of an empty stack) is `none`. -/

namespace Verif.Scc

/-- The fields of the `SCCNode`s used by `StrongConnect`, its stack (`back()` first) and the map from a node to the root of
its group (symbol_map.cc:739-748, 785-786, 841-871). -/
structure St where
  idx : Nat → Nat := fun _ => 0
  low : Nat → Nat := fun _ => 0
  stack : List Nat := []
  scc : Nat → Option Nat := fun _ => none

/-- `x[k] = v`. -/
def upd {α : Type} (f : Nat → α) (k : Nat) (v : α) : Nat → α := fun x => if x = k then v else f x

/-- `node->lowlink = std::min(node->lowlink, callee->lowlink)` (symbol_map.cc:853, 856). -/
def lowmin (v w : Nat) (s : St) : St := { s with low := upd s.low v (min (s.low v) (s.low w)) }

/-- `sccmap->insert({member, node})`: keeps an entry already present (symbol_map.cc:865). -/
def emplace (m : Nat → Option Nat) (k v : Nat) : Nat → Option Nat := fun x => if x = k then (m k).or (some v) else m x

/-- The `do … while` that pops a group (symbol_map.cc:861-866). -/
def popTo (v : Nat) : List Nat → (Nat → Option Nat) → Option (List Nat × (Nat → Option Nat))
  | [], _ => none
  | m :: st, scc => if m = v then some (st, emplace scc m v) else popTo v st (emplace scc m v)

/-- The end of `StrongConnect` (symbol_map.cc:859-867). -/
def finish (v : Nat) (s : St) : Option St :=
  if s.idx v = s.low v then (popTo v s.stack s.scc).map fun r => { s with stack := r.1, scc := r.2 } else some s

/-- The body of the loop over the callees of `v` (symbol_map.cc:850-858). -/
def visit (rec : Nat → St → Option St) (v : Nat) (s : St) (w : Nat) : Option St :=
  if s.idx w = 0 then (rec w s).map (lowmin v w)
  else if w ∈ s.stack then some (lowmin v w s)
  else some s

/-- `StrongConnect`; `index` is passed by value (symbol_map.cc:841-868). The depth of the recursion is bounded by `fuel`;
`findScc_ok` shows that the number of nodes suffices. -/
def connect (E : Nat → List Nat) : Nat → Nat → Nat → St → Option St
  | 0, _, _, _ => none
  | fuel + 1, i, v, s =>
    ((E v).foldlM (visit (connect E fuel (i + 1)) v)
      { s with idx := upd s.idx v i, low := upd s.low v i, stack := v :: s.stack }).bind (finish v)

/-- `FindAndCollapseSCC`, first part: the loop over `nodes` (symbol_map.cc:899-905). -/
def findScc (E : Nat → List Nat) (ns : List Nat) : Option St :=
  ns.foldlM (fun s v => if s.idx v = 0 then connect E ns.length 1 v s else some s) {}

/-- Insertion into a hash set. -/
def ins (l : List Nat) (x : Nat) : List Nat := if x ∈ l then l else x :: l

/-- The symbols and callees of the nodes while they are collapsed (symbol_map.cc:749-750, 788-789). -/
structure Coll where
  syms : Nat → List Nat
  callees : Nat → List Nat

/-- One node in `CollapseSCC` (symbol_map.cc:874-894); `root` is `(*sccmap)[·]`. -/
def collapse1 (root : Nat → Nat) (c : Coll) (n : Nat) : Coll :=
  if n ≠ root n then
    { syms := upd c.syms (root n) ((c.syms n).foldl ins (c.syms (root n)))
      callees := upd c.callees (root n) ((c.callees n).foldl
        (fun l w => if root w ≠ root n then ins l (root w) else l) (c.callees (root n))) }
  else
    { c with callees := upd c.callees n ((((c.callees n).filter fun w => w ≠ root w).foldl (fun l w => ins (l.filter (· ≠ w)) (root w)) (c.callees n)).filter (· ≠ n)) }

/-- `CollapseSCC`: the new nodes, their symbols and callees (symbol_map.cc:870-897; `sym_scc_map` is not read afterwards, and the
loop at 895 changes copies only). -/
def collapse (root : Nat → Nat) (E : Nat → List Nat) (ns : List Nat) : List Nat × Coll :=
  (ns.filter fun n => n = root n, ns.foldl (collapse1 root) ⟨fun n => [n], E⟩)

inductive Err | loop | fuel
  deriving DecidableEq

/-- The fields used by `TopoVisit` and its results (symbol_map.cc:801-812). The working set is `nodes` minus the post-visited. -/
structure TSt where
  pre : List Nat := []
  post : List Nat := []
  sorted : List Nat := []

/-- `TopoVisit` (symbol_map.cc:801-812); `LOG(FATAL)` is `Err.loop`. -/
def topo (C : Nat → List Nat) : Nat → TSt → Nat → Except Err TSt
  | 0, _, _ => .error .fuel
  | fuel + 1, s, v =>
    if v ∈ s.post then .ok s
    else if v ∈ s.pre then .error .loop
    else ((C v).foldlM (topo C fuel) { s with pre := v :: s.pre }).map fun s =>
      { s with post := v :: s.post, sorted := s.sorted ++ [v] }

/-- `ReverseTopoSort`: repeatedly visits a node that is not yet post-visited (symbol_map.cc:814-825). The order in which
`workingset.begin()` picks nodes is the order of `ns`, which is arbitrary. -/
def topoSort (C : Nat → List Nat) (ns : List Nat) : Except Err (List Nat) :=
  (ns.foldlM (fun s v => if v ∈ s.post then .ok s else topo C (ns.length + 1) s v) {}).map TSt.sorted

/-- A symbol's calls, including those in its inline instances: number of the callee, if it is in the map, and count
(symbol_map.cc:614-619, 919-937). -/
structure Sym where
  total : Nat
  head : Nat
  calls : List (Nat × Nat)

/-- One pass of `ComputeTotalCountIncl` over a group (symbol_map.cc:611-640, 967-978). `cost incl calls count` is
`static_cast<uint64_t>(static_cast<float>(incl) / calls * count)`. The sum is a 32-bit `unsigned`. -/
def symIncl (cost : Nat → Nat → Nat → Nat) (S : Nat → Sym) (g : List Nat) (incl : Nat → Nat) (s : Nat) : Nat :=
  (S s).calls.foldl (fun t (c : Nat × Nat) => if c.1 ∈ g then t
    else t + cost (incl c.1) (if (S c.1).head = 0 then 1 else (S c.1).head) c.2) (S s).total

/-- The loop over the symbols of a group, adding to `scc_total_count_incl` (symbol_map.cc:969-976). -/
def groupSum (cost : Nat → Nat → Nat → Nat) (S : Nat → Sym) (g : List Nat) (incl : Nat → Nat) : (Nat → Nat) × Nat :=
  g.foldl (fun a s => (upd a.1 s (symIncl cost S g a.1 s), (a.2 + symIncl cost S g a.1 s) % 2 ^ 32)) (incl, 0)

/-- A group of `ComputeTotalCountIncl` (symbol_map.cc:967-978). -/
def groupIncl (cost : Nat → Nat → Nat → Nat) (S : Nat → Sym) (syms : Nat → List Nat) (incl : Nat → Nat) (n : Nat) : Nat → Nat :=
  (syms n).foldl (fun a s => upd a s (groupSum cost S (syms n) incl).2) (groupSum cost S (syms n) incl).1

/-- `SymbolMap::ComputeTotalCountIncl` (symbol_map.cc:949-980): the inclusive counts and the order of the groups. `cs` gives the
callees in the order in which the collapsed sets are iterated, `es` that of the original sets, `ns'` that of the collapsed nodes. -/
def computeIncl (cost : Nat → Nat → Nat → Nat) (S : Nat → Sym) (es : Nat → List Nat) (ns : List Nat)
    (order : (Nat → List Nat) → Nat → List Nat) (orderN : List Nat → List Nat) : Option (Except Err (Nat → Nat)) :=
  (findScc es ns).map fun st =>
    (topoSort (order (collapse (fun n => (st.scc n).getD 0) es ns).2.callees) (orderN (collapse (fun n => (st.scc n).getD 0) es ns).1)).map fun sorted =>
      sorted.foldl (groupIncl cost S (collapse (fun n => (st.scc n).getD 0) es ns).2.syms) (fun _ => 0)

end Verif.Scc

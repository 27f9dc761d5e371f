import Verif.AddSource
import Verif.Flatten

/-!
# Hybrid profiles: `PopulateSymbolRetainingHotInlineStacks` and `BuildHybridProfile`
(symbol_map.cc:1280-1359)

The destination of the recursion is a symbol inside the new map, reached from the function `root` along
the call sites `path`; symbols are heap objects and the map is node based, so additions elsewhere do not
move it.  The name of a source symbol is the key under which it is reached (its name in the map, or the
callee name of its call site).  File and directory names are not modelled; counts are `Nat`.
-/
namespace Verif.SymbolMap

/-- An update of the symbol reached from function `root` along `path`.  `AddSymbolToMap`
(symbol_map.cc:1340-1346) and `callsites.insert` with `new Symbol()` (symbol_map.cc:1317-1324) create what
does not exist. -/
def updateAt (m : SymMap) (root : Name) (path : List Callsite) (f : Data → Data) : SymMap :=
  OMap.upsert root (fun o => (o.getD Sym.new).addAlong 0 f path) m

/-- The output: the new map and the counters `num_callsites` and `num_flattened`. -/
structure HybridOut where
  map : SymMap
  callsites : Nat
  flattened : Nat

mutual
/-- `Symbol::PopulateSymbolRetainingHotInlineStacks` (symbol_map.cc:1291-1338) of the destination symbol
`root`, `path`, for the source symbol `other`. -/
def populate (th : Nat) (r : HybridOut) (root : Name) (path : List Callsite) : Sym → HybridOut
  | .mk d cs =>
    let r := { r with map := updateAt r.map root path fun t => { t with total := t.total + d.total, head := t.head + d.head } }
    let r := populateCalls th r root path cs
    let pos := (cs.filter fun x => decide (x.2.data.total ≤ th)).foldl flattenCallsite d.pos
    { r with map := updateAt r.map root path fun t => { t with pos := PosMap.addAll t.pos pos } }
/-- The loop over the call sites of `other` (symbol_map.cc:1302-1331). -/
def populateCalls (th : Nat) (r : HybridOut) (root : Name) (path : List Callsite) : List (Callsite × Sym) → HybridOut
  | [] => r
  | (k, c) :: t =>
    let r := { r with callsites := r.callsites + 1 }
    let r := if c.data.total ≤ th then populate th { r with flattened := r.flattened + 1 } k.2 [] c
      else populate th r root (path ++ [k]) c
    populateCalls th r root path t
end

/-- `SymbolMap::BuildHybridProfile` into an empty map (symbol_map.cc:1348-1359), counters starting at 0. -/
def buildHybrid (th : Nat) (src : SymMap) : HybridOut :=
  src.foldl (fun r x => populate th r x.1 [] x.2) ⟨[], 0, 0⟩

end Verif.SymbolMap

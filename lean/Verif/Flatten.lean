import Verif.Sym
import Verif.SymLemmas

/-! Flattening an inline profile: `symbol_map.cc:166-212, 1425-1460`. The name of a symbol is the key under which it is reached:
its name in the map, or the callee name of its call site. -/

namespace Verif.SymbolMap

/-- `CallsiteLessThan` (symbol_map.h:112-119). -/
def callLt (a b : Callsite) : Bool := decide (a.1 < b.1 ∨ (a.1 = b.1 ∧ a.2 < b.2))

/-- `*std::min_element(calls.begin(), calls.end(), CallsiteLessThan())` (symbol_map.cc:183-188). -/
def minCall : List Callsite → Option Callsite
  | [] => none
  | k :: t => some (t.foldl (fun m x => if callLt x m then x else m) k)

/-- Lowest offset with a count, and that count (symbol_map.cc:170-180); `pos_counts` is a sorted map. -/
def firstPos (pos : PosMap) : Nat × Nat := match pos with | [] => (2 ^ 64 - 1, 0) | (o, p) :: _ => (o, p.count)

mutual
/-- `Symbol::EstimateHeadCount` (symbol_map.cc:166-196): sets `head_count`, also that of a callee it takes the value from. -/
def Sym.estimate : Sym → Sym
  | .mk d cs =>
    if d.head ≠ 0 then .mk d cs
    else match minCall (cs.map Prod.fst) with
      | none => .mk { d with head := (firstPos d.pos).2 } cs
      | some k =>
        if k.1 ≥ (firstPos d.pos).1 then .mk { d with head := (firstPos d.pos).2 } cs
        else .mk { d with head := ((lookup (estimateAt k cs) k).map fun c => c.data.head).getD 0 } (estimateAt k cs)
/-- `ret->second->EstimateHeadCount()` where `ret` is the call site `k` (symbol_map.cc:189-194). -/
def estimateAt (k : Callsite) : List (Callsite × Sym) → List (Callsite × Sym)
  | [] => []
  | (k', c) :: t => if k' = k then (k', c.estimate) :: estimateAt k t else (k', c) :: estimateAt k t
end

/-- `Symbol::FlattenCallsite` (symbol_map.cc:198-202). -/
def flattenCallsite (pos : PosMap) (x : Callsite × Sym) : PosMap :=
  PosMap.modify pos x.1.1 fun p => { p with count := max p.count x.2.data.head, targets := OMap.add p.targets (x.1.2, x.2.data.head) }

/-- `Symbol::FlatMerge` (symbol_map.cc:204-212). -/
def Sym.flatMerge (dst : Sym) (src : Data) : Sym :=
  .mk ⟨dst.data.total + (src.pos.map fun p => p.2.count).sum, dst.data.head + src.head, PosMap.addAll dst.data.pos src.pos⟩ dst.calls

/-- `AddSymbolToMap` (symbol_map.cc:1340-1346) and `map_.at(name)->…`; the new map has no aliases. -/
def atName (m : OMap Name Sym) (n : Name) (f : Sym → Sym) : OMap Name Sym := OMap.upsert n (fun o => f (o.getD Sym.new)) m

/-- The `while` loop of `BuildFlatProfile` (symbol_map.cc:1447-1459); the back of `symbols` first. `fuel` bounds the iterations;
`buildFlat_ok` shows that the number of symbols suffices. -/
def flatLoop (selective : Bool) : Nat → List (Name × Sym) → OMap Name Sym → Option (OMap Name Sym)
  | _, [], m => some m
  | 0, _ :: _, _ => none
  | fuel + 1, (n, s) :: st, m =>
    flatLoop selective fuel
      (if selective then st else ((s.calls.map fun x => (x.1.2, x.2.estimate)).reverse ++ st))
      (atName m n fun t => t.flatMerge { s.data with pos := (s.calls.map fun x => (x.1, x.2.estimate)).foldl flattenCallsite s.data.pos })

mutual
/-- How many symbols there are in a tree. -/
def Sym.size : Sym → Nat | .mk _ cs => 1 + sizeCalls cs
/-- `Sym.size` for all callees. -/
def sizeCalls : List (Callsite × Sym) → Nat
  | [] => 0
  | (_, c) :: t => c.size + sizeCalls t
end

/-- `SymbolMap::BuildFlatProfile` into an empty map (symbol_map.cc:1431-1460): the new map and the number of flattened functions. -/
def buildFlat (selective : Bool) (threshold : Nat) (src : OMap Name Sym) : Option (OMap Name Sym) :=
  flatLoop selective (src.map fun x => x.2.size).sum
    ((src.filter fun x => ¬ (selective = true ∧ threshold ≤ x.2.data.total)).reverse)
    ((src.filter fun x => selective = true ∧ threshold ≤ x.2.data.total).foldl (fun m x => atName m x.1 fun t => t.merge x.2) [])

end Verif.SymbolMap

import Verif.SymLemmas
import Verif.Sort

/-!
# `throttleInlineInstancesAtSameLocation` and `TrimCallTargets` (symbol_map.cc:1546-1647)
-/
namespace Verif.SymbolMap

/-- The comparator of the `std::stable_sort` (symbol_map.cc:1564-1572), as the non-strict order
`!comp(b, a)`: location ascending, then total count descending. -/
def hotterLe (a b : Callsite × Nat) : Bool :=
  a.1.1 < b.1.1 || (a.1.1 == b.1.1 && a.2 ≥ b.2)

/-- The loop over the sorted callsites (symbol_map.cc:1574-1594): returns the erased entries.  `n` is
`num_inline_instances_at_same_loc`. -/
def eraseLoop (max : Nat) : Nat → List (Callsite × Nat) → List (Callsite × Nat)
  | _, [] => []
  | n, x :: t =>
    let next := match t with
      | [] => n + 1
      | y :: _ => if y.1.1 ≠ x.1.1 then 0 else n + 1
    if n ≥ max then x :: eraseLoop max next t else eraseLoop max next t

/-- The entries (callsite, total count) erased from `callsites` (symbol_map.cc:1559-1595).
`callsites.size() > max_inline_instances` compares as `size_t`, so it is false for a negative
limit. -/
def erasedCalls (max : Int) (xs : List (Callsite × Nat)) : List (Callsite × Nat) :=
  if 0 ≤ max ∧ max < xs.length then eraseLoop max.toNat 0 (isort hotterLe xs) else []

/-- `total_count` of each callee. -/
def totalsOf : List (Callsite × Sym) → List (Callsite × Nat)
  | [] => []
  | (k, s) :: t => (k, s.data.total) :: totalsOf t

mutual
/-- `Symbol::throttleInlineInstancesAtSameLocation` (symbol_map.cc:1555-1608): the symbol after the
call and the returned removed count. -/
def Sym.throttle (max : Int) : Sym → Sym × Nat
  | .mk d cs =>
    let erased := erasedCalls max (totalsOf cs)
    let kept := throttleCalls max (erased.map Prod.fst) cs
    let removed := min ((erased.map Prod.snd).sum + (kept.map (fun p => p.2.2)).sum) d.total
    (.mk { d with total := d.total - removed } (kept.map (fun p => (p.1, p.2.1))), removed)
/-- Erasure of the callsites followed by the recursive calls on the remaining ones
(symbol_map.cc:1583, 1597-1601). -/
def throttleCalls (max : Int) (erased : List Callsite) :
    List (Callsite × Sym) → List (Callsite × (Sym × Nat))
  | [] => []
  | (k, s) :: t =>
    if k ∈ erased then throttleCalls max erased t
    else (k, s.throttle max) :: throttleCalls max erased t
end

/-- `SymbolMap::throttleInlineInstancesAtSameLocation` (symbol_map.cc:1546-1553), on the list of
`map_` entries (aliases, which would be processed twice, see `throttle_idem`). -/
def throttleMap (max : Int) (m : List (Name × Sym)) : List (Name × Sym) :=
  if max < 0 then m else m.map (fun p => (p.1, (p.2.throttle max).1))

/-- The comparator of the `std::nth_element` (symbol_map.cc:1628-1635) as a non-strict order. -/
def targetLe (a b : Name × Nat) : Bool :=
  b.2 < a.2 || (a.2 == b.2 && !(decide (b.1 < a.1)))

/-- Insertion of pairs into a `std::map` that ignores already present keys. -/
def insertAll (xs : List (Name × Nat)) : OMap Name Nat :=
  xs.foldl (fun m x => OMap.upsert x.1 (fun o => o.getD x.2) m) []

/-- One iteration of the loop of `Symbol::TrimCallTargets` (symbol_map.cc:1618-1641).  After
`nth_element` the first `max` elements are the `max` least ones under the comparator, in an order
that does not matter for the map built from them; the model sorts fully.  `size() <= max` compares as
`size_t`, so it is true for a negative limit. -/
def trimTargets (max : Int) (t : OMap Name Nat) : OMap Name Nat :=
  if max < 0 ∨ (t.length : Int) ≤ max then t
  else insertAll ((isort targetLe t).take max.toNat)

/-- The loop over `pos_counts` of `Symbol::TrimCallTargets` (symbol_map.cc:1617-1642). -/
def trimPos (max : Int) (m : PosMap) : PosMap :=
  m.map (fun p => (p.1, { p.2 with targets := trimTargets max p.2.targets }))

mutual
/-- `Symbol::TrimCallTargets` (symbol_map.cc:1616-1647). -/
def Sym.trim (max : Int) : Sym → Sym
  | .mk d cs => .mk { d with pos := trimPos max d.pos } (trimCalls max cs)
/-- Recursion into the inline callsites (symbol_map.cc:1643-1646). -/
def trimCalls (max : Int) : List (Callsite × Sym) → List (Callsite × Sym)
  | [] => []
  | (k, s) :: t => (k, s.trim max) :: trimCalls max t
end

end Verif.SymbolMap

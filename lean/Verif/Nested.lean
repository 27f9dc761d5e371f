import Verif.AddSourceProps
import Verif.Flatten

/-!
# Limiting the inline nesting level: `FlattenNestedInlineCallsites` (symbol_map.cc:1361-1424)

Symbols are heap objects reached by pointers while functions are merged elsewhere in the map; here a symbol is the place where it is:
a function of the map and a path of call sites. The name of a symbol is the key under which it is reached. Totals wrap at 2^64 in this
function (`total_count` is unsigned); the sums formed by `Merge` are unbounded as everywhere in the model.
`fuel` bounds the recursion and the iterations; `flatten_nested` shows that it suffices.
-/
namespace Verif.SymbolMap

/-- The symbol reached along a path of call sites. -/
def Sym.sub? : Sym → List Callsite → Option Sym
  | s, [] => some s
  | s, k :: p =>
    match lookup s.calls k with
    | none => none
    | some c => c.sub? p

/-- An update of the element `k`, if there is one. -/
def modifyIf {A : Type} (k : Callsite) (f : A → A) : List (Callsite × A) → List (Callsite × A)
  | [] => []
  | (k', s) :: t => if k = k' then (k', f s) :: t else (k', s) :: modifyIf k f t

/-- An update of the symbol reached along a path of call sites. -/
def Sym.modSub (f : Sym → Sym) : List Callsite → Sym → Sym
  | [], s => f s
  | k :: p, .mk d cs => .mk d (modifyIf k (Sym.modSub f p) cs)

/-- `*symbol` for the symbol at a place of the map. -/
def subAt (m : SymMap) (g : Name) (q : List Callsite) : Option Sym := (OMap.find? m g).bind fun s => s.sub? q

/-- An update of the symbol at a place of the map. -/
def modAt (m : SymMap) (g : Name) (q : List Callsite) (f : Sym → Sym) : SymMap :=
  match OMap.find? m g with
  | none => m
  | some s => OMap.set g (s.modSub f q) m

/-- An update of the fields of a symbol. -/
def onData (h : Data → Data) : Sym → Sym
  | .mk d cs => .mk (h d) cs

/-- `a - b` in `uint64_t`. -/
def wsub (a b : Nat) : Nat := (a + 2 ^ 64 - b % 2 ^ 64) % 2 ^ 64

/-- The changes to `func` when the call site `k` with the symbol `c` is flattened (symbol_map.cc:1389-1395). -/
def flattenInto (k : Callsite) (c : Sym) (d : Data) : Data :=
  let pos := PosMap.modify (flattenCallsite d.pos (k, c)) k.1 fun p => { p with count := max p.count (OMap.get0 p.targets k.2) }
  { d with total := (d.total + (pos.countAt k.1 - d.pos.countAt k.1)) % 2 ^ 64, pos := pos }

/-- One iteration of the loop at the maximal level (symbol_map.cc:1374-1398); `rec` is the recursive call at level 1. -/
def flattenOne (rec : Name → List Callsite → SymMap → Option (SymMap × Nat)) (g : Name) (q : List Callsite) (m : SymMap) (k : Callsite) : Option SymMap :=
  (subAt m g (q ++ [k])).bind fun c =>
  (rec g (q ++ [k]) (modAt m g q (onData fun d => { d with total := wsub d.total c.data.total }))).bind fun r =>
  (subAt (modAt r.1 g (q ++ [k]) Sym.estimate) g (q ++ [k])).map fun c =>
  atName (modAt (modAt r.1 g (q ++ [k]) Sym.estimate) g q (onData (flattenInto k c))) k.2 fun t => t.merge c

/-- `FlattenNestedInlineCallsitesImpl` (symbol_map.cc:1361-1410) for the symbol at `g`, `q`: the map and the returned difference
(modulo 2^64). -/
def nested (mx : Nat) : Nat → Nat → Name → List Callsite → SymMap → Option (SymMap × Nat)
  | 0, _, _, _, _ => none
  | fuel + 1, depth, g, q, m =>
    (subAt m g q).bind fun func =>
    (if depth = mx then
      ((func.calls.map Prod.fst).foldlM (flattenOne (nested mx fuel 1) g q) m).map fun m => modAt m g q fun s => .mk s.data []
    else
      (func.calls.map Prod.fst).foldlM (fun m k => (nested mx fuel (depth + 1) g (q ++ [k]) m).map fun r =>
        modAt r.1 g q (onData fun d => { d with total := (d.total + r.2) % 2 ^ 64 })) m).bind fun m' =>
    (subAt m' g q).map fun s => (m', wsub s.data.total func.data.total)

/-- The loop of `FlattenNestedInlineCallsites` (symbol_map.cc:1415-1420) from the function `x` on. Functions inserted behind the current
one are visited. -/
def nestedFrom (mx rfuel : Nat) : Nat → Option (Name × Sym) → SymMap → Nat → Option (SymMap × Nat)
  | _, none, m, n => some (m, n)
  | 0, some _, _, _ => none
  | fuel + 1, some x, m, n =>
    (nested mx rfuel 1 x.1 [] m).bind fun r => nestedFrom mx rfuel fuel (OMap.upper? r.1 x.1) r.1 (if r.2 ≠ 0 then n + 1 else n)

/-- `FlattenNestedInlineCallsites` (symbol_map.cc:1412-1424): the map and the number of flattened functions. -/
def flattenNested (fuel : Nat) (mx : Int) (m : SymMap) : Option (SymMap × Nat) :=
  if mx > 0 then nestedFrom mx.toNat fuel fuel m.head? m 0 else some (m, 0)

end Verif.SymbolMap

import Verif.OMap
import Verif.Bytes

/-!
# Symbol profiles: model of `Symbol` / `ProfileInfo` (symbol_map.h, symbol_map.cc)

Counts are `Nat` (64-bit wrap-around not modelled).  Not modelled: file/dir names, addresses,
`total_count_incl`, `timestamp`, null callee names.
-/
namespace Verif.SymbolMap

/-- `ProfileInfo` (symbol_map.h:78-86). -/
structure PInfo where
  count : Nat
  numInst : Nat
  targets : OMap Name Nat
deriving DecidableEq

/-- `ProfileInfo()` (symbol_map.h:80). -/
def PInfo.zero : PInfo := ⟨0, 0, []⟩

/-- `ProfileInfo::operator+=` (symbol_map.cc:104-111). -/
def PInfo.add (p s : PInfo) : PInfo :=
  ⟨p.count + s.count, p.numInst + s.numInst, OMap.addAll p.targets s.targets⟩

/-- `PositionCountMap` (symbol_map.h:93). -/
abbrev PosMap := OMap Nat PInfo

/-- `pos_counts[off] = f(pos_counts[off])`, creating a zero entry when absent. -/
def PosMap.modify (m : PosMap) (off : Nat) (f : PInfo → PInfo) : PosMap :=
  OMap.upsert off (fun o => f (o.getD PInfo.zero)) m

/-- `for (pos : other) pos_counts[pos.first] += pos.second` (symbol_map.cc:149-150). -/
def PosMap.addAll (m : PosMap) (xs : List (Nat × PInfo)) : PosMap :=
  xs.foldl (fun m x => PosMap.modify m x.1 (fun p => p.add x.2)) m

/-- The fields of `Symbol` (symbol_map.h:232-248) other than the callsites. -/
structure Data where
  total : Nat
  head : Nat
  pos : PosMap
deriving DecidableEq

/-- A freshly constructed `Symbol` (symbol_map.h:145-176). -/
def Data.zero : Data := ⟨0, 0, []⟩

/-- The non-recursive part of `Symbol::Merge` (symbol_map.cc:143-150). -/
def Data.add (a b : Data) : Data :=
  ⟨a.total + b.total, a.head + b.head, PosMap.addAll a.pos b.pos⟩

/-- `Callsite` (symbol_map.h:95-98): location and callee name. -/
abbrev Callsite := Nat × Name

/-- `Symbol` with its `callsites` (symbol_map.h:142-249).  The hash map of callsites is a list in
arbitrary order. -/
inductive Sym where
  | mk (d : Data) (calls : List (Callsite × Sym))

/-- Own data of a symbol. -/
def Sym.data : Sym → Data | .mk d _ => d

/-- `callsites` of a symbol. -/
def Sym.calls : Sym → List (Callsite × Sym) | .mk _ c => c

/-- Freshly constructed `Symbol` (symbol_map.h:145-176). -/
def Sym.new : Sym := .mk Data.zero []

/-- `callsites.find(k)`. -/
def lookup {A : Type} (l : List (Callsite × A)) (k : Callsite) : Option A :=
  match l with
  | [] => none
  | (k', s) :: t => if k = k' then some s else lookup t k

/-- `callsites.insert(k)` followed by an update of the element through the returned iterator.  A new
element goes to an arbitrary place (here: the end) of the hash map. -/
def modifyAt {A : Type} (l : List (Callsite × A)) (k : Callsite) (f : Option A → A) :
    List (Callsite × A) :=
  match l with
  | [] => [(k, f none)]
  | (k', s) :: t => if k = k' then (k', f (some s)) :: t else (k', s) :: modifyAt t k f

mutual
/-- `Symbol::Merge` (symbol_map.cc:142-163): merges `other` into `this`. -/
def Sym.merge (this : Sym) : Sym → Sym
  | .mk d cs => .mk (this.data.add d) (mergeCalls this.calls cs)
/-- The callsite loop of `Symbol::Merge` (symbol_map.cc:152-162). -/
def mergeCalls (acc : List (Callsite × Sym)) : List (Callsite × Sym) → List (Callsite × Sym)
  | [] => acc
  | (k, s) :: t => mergeCalls (modifyAt acc k (fun o => Sym.merge (o.getD Sym.new) s)) t
end

mutual
/-- Representation invariant: `std::map`s sorted and callsite keys distinct, recursively. -/
def Sym.WF : Sym → Prop
  | .mk d cs => OMap.Sorted d.pos ∧ (∀ p ∈ d.pos, OMap.Sorted p.2.targets) ∧
      (cs.map Prod.fst).Nodup ∧ WFCalls cs
/-- `Sym.WF` for all callees. -/
def WFCalls : List (Callsite × Sym) → Prop
  | [] => True
  | (_, s) :: t => s.WF ∧ WFCalls t
end

/-- Data of the inline instance reached by following `path` of callsites (outermost first). -/
def Sym.node? : Sym → List Callsite → Option Data
  | s, [] => some s.data
  | s, k :: p =>
    match lookup s.calls k with
    | none => none
    | some c => c.node? p

end Verif.SymbolMap

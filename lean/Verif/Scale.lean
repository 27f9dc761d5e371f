import Verif.ElideProps
import Verif.FloatUses

/-!
# C102: scaling a profile (symbol_map.h:205, 476-479; symbol_map.cc:698-711, 1267-1278)

`map_` is the table of names (name order) to symbols of C12; several names may share a symbol.  Counts are `Nat`: a product of 2^64 or more is
undefined in the code (conversion of a floating-point number that does not fit).  The ratio is a number that is not negative.
-/
namespace Verif.Scale
open Verif Verif.SymbolMap Verif.Fl

/-- `roundl` (symbol_map.cc:699-705): to the nearest integer, halves away from zero; for numbers that are not negative. -/
def roundHalfUp (x : ℚ) : ℕ := ⌊x + 1 / 2⌋.toNat

/-- `roundl(count * ratio)` (symbol_map.cc:699-705): the count is converted to `double`, the product is rounded to `double`;
    conversion to `long double` is exact. -/
def scaleN (r : ℚ) (n : ℕ) : ℕ := roundHalfUp (f64 (f64 n * r))

/-- The loop over the positions and over the targets (symbol_map.cc:701-707), for any function of the counts. -/
def _root_.Verif.SymbolMap.PInfo.mapCounts (f : ℕ → ℕ) (p : PInfo) : PInfo := ⟨f p.count, p.numInst, p.targets.map fun t => (t.1, f t.2)⟩

/-- The part of `Symbol::UpdateWithRatio` about the symbol itself (symbol_map.cc:699-707). -/
def _root_.Verif.SymbolMap.Data.mapCounts (f : ℕ → ℕ) (d : Data) : Data := ⟨f d.total, f d.head, d.pos.map fun p => (p.1, p.2.mapCounts f)⟩

mutual
/-- `Symbol::UpdateWithRatio` (symbol_map.cc:698-711), for any function of the counts. -/
def _root_.Verif.SymbolMap.Sym.mapCounts (f : ℕ → ℕ) : Sym → Sym
  | .mk d cs => .mk (d.mapCounts f) (mapCalls f cs)
/-- Its loop over the inlined calls (symbol_map.cc:708-710). -/
def mapCalls (f : ℕ → ℕ) : List (Callsite × Sym) → List (Callsite × Sym)
  | [] => []
  | (k, s) :: t => (k, s.mapCounts f) :: mapCalls f t
end

/-- `Symbol::UpdateWithRatio` (symbol_map.cc:698-711). -/
def _root_.Verif.SymbolMap.Sym.scale (r : ℚ) (s : Sym) : Sym := s.mapCounts (scaleN r)

/-- `SymbolMap::UpdateWithRatio` (symbol_map.cc:1274-1278). -/
def _root_.Verif.SymbolMap.Store.scale (r : ℚ) (st : Store) : Store :=
  st.map.foldl (fun s e => { s with heap := setHeap s.heap e.2 ((s.heap e.2).scale r) }) st

/-- `SymbolMap::GetTotalSum` (symbol_map.cc:1267-1272). -/
def _root_.Verif.SymbolMap.Store.totalSum (st : Store) : ℕ := st.map.foldl (fun n e => n + (st.heap e.2).data.total) 0

/-! ## Specification -/

/-- `b` has the positions and targets of `a`, each count changed by `f`. -/
structure Scaled (f : ℕ → ℕ) (a b : Data) : Prop where
  total : b.total = f a.total
  head : b.head = f a.head
  positions : ∀ off, (OMap.find? b.pos off).isSome ↔ (OMap.find? a.pos off).isSome
  counts : ∀ off p q, OMap.find? a.pos off = some p → OMap.find? b.pos off = some q → q.count = f p.count ∧ q.numInst = p.numInst ∧
    ∀ t, OMap.find? q.targets t = (OMap.find? p.targets t).map f

/-- The number of names of a symbol. -/
def _root_.Verif.SymbolMap.Store.nameCount (st : Store) (i : ℕ) : ℕ := (st.map.filter fun e => e.2 == i).length

end Verif.Scale

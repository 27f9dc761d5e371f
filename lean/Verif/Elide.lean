import Verif.Sym

/-!
# Suffix elision: model of `GetOriginalName` and `ElideSuffixesAndMerge`
(symbol_map.cc:256-341)
-/
namespace Verif.SymbolMap

/-- Suffix elision policy (symbol_map.h:631-635). -/
inductive Policy where
  | all | selected | none
deriving DecidableEq

/-- The character '.'. -/
def dot : UInt8 := 46

/-- `std::string::rfind(pat)`: start of the last occurrence. -/
def rfind (pat : Name) : Name → Option Nat
  | [] => if pat = [] then some 0 else none
  | c :: t =>
    match rfind pat t with
    | some i => some (i + 1)
    | none => if pat.isPrefixOf (c :: t) then some 0 else none

/-- `StripLastOccurrenceOf` (symbol_map.cc:259-265). -/
def stripLast (s pat : Name) : Name :=
  match rfind pat s with
  | none => s
  | some i => s.take i ++ s.drop (i + pat.length)

/-- `StripSuffixWithTwoDots` (symbol_map.cc:270-282). -/
def stripTwoDots (s pat : Name) : Name :=
  match rfind pat s with
  | none => s
  | some i => s.take i ++ (s.drop (i + pat.length)).dropWhile (· != dot)

/-- ".cold" -/
def sufCold : Name := [46, 99, 111, 108, 100]
/-- ".llvm." -/
def sufLlvm : Name := [46, 108, 108, 118, 109, 46]
/-- ".lto_priv" -/
def sufLto : Name := [46, 108, 116, 111, 95, 112, 114, 105, 118]
/-- ".__part." -/
def sufPart : Name := [46, 95, 95, 112, 97, 114, 116, 46]
/-- ".isra" -/
def sufIsra : Name := [46, 105, 115, 114, 97]

/-- `selectedSuffixes` (symbol_map.cc:89-90). -/
def selectedSuffixes : List Name := [sufCold, sufLlvm, sufLto, sufPart, sufIsra]

/-- One iteration of the loop over the selected suffixes (symbol_map.cc:299-306); `name` is the
unmodified input. -/
def stripSelected (name : Name) (cand suffix : Name) : Name :=
  if suffix = sufCold then stripLast cand suffix
  else if 2 ≤ name.length ∧ suffix.head? = some dot ∧ suffix.getLast? = some dot then
    stripTwoDots cand suffix
  else cand

/-- `SymbolMap::GetOriginalName` (symbol_map.cc:284-312). -/
def originalName : Policy → Name → Name
  | .none, n => n
  | .all, n => if n.head? = some dot then n else n.takeWhile (· != dot)
  | .selected, n => selectedSuffixes.foldl (stripSelected n) n

/-- The part of a `SymbolMap` relevant for symbol identity: `map_` holds pointers (here: indices
into the heap); several names may share one symbol.  Entries of `heap` at or above `next` are not
allocated yet. -/
structure Store where
  /-- `map_` -/
  map : OMap Name Nat
  /-- The symbols. -/
  heap : Nat → Sym
  /-- Next free pointer. -/
  next : Nat

/-- Overwrite one heap cell. -/
def setHeap (h : Nat → Sym) (i : Nat) (s : Sym) : Nat → Sym := fun j => if j = i then s else h j

/-- The loop body of `ElideSuffixesAndMerge` for one name (symbol_map.cc:321-340).  `none` is the
`CHECK` failure of line 324. -/
def elideOne (pol : Policy) (st : Store) (name : Name) : Option Store :=
  let orig := originalName pol name
  match OMap.find? st.map name with
  | none => none
  | some sym =>
    let m := OMap.erase name st.map
    match OMap.find? m orig with
    | some d =>
      if sym = d then
        -- the base name already refers to the same symbol: a fresh symbol replaces it
        let fresh := st.next
        let m := OMap.set orig fresh m
        let h := setHeap (setHeap st.heap fresh Sym.new) fresh (Sym.new.merge (st.heap sym))
        some ⟨m.map (fun p => (p.1, if p.2 = sym then fresh else p.2)), h, st.next + 1⟩
      else
        let h := setHeap st.heap d ((st.heap d).merge (st.heap sym))
        some ⟨m.map (fun p => (p.1, if p.2 = sym then d else p.2)), h, st.next⟩
    | none =>
      let fresh := st.next
      let m := OMap.set orig fresh m
      let h := setHeap (setHeap st.heap fresh Sym.new) fresh (Sym.new.merge (st.heap sym))
      some ⟨m.map (fun p => (p.1, if p.2 = sym then fresh else p.2)), h, st.next + 1⟩

/-- Names to be elided, in map order (symbol_map.cc:315-320). -/
def elideSet (pol : Policy) (m : OMap Name Nat) : List Name :=
  (m.map Prod.fst).filter (fun n => originalName pol n ≠ n)

/-- `SymbolMap::ElideSuffixesAndMerge` (symbol_map.cc:314-341). -/
def elide (pol : Policy) (st : Store) : Option Store :=
  (elideSet pol st.map).foldlM (elideOne pol) st

end Verif.SymbolMap

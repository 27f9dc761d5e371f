import Verif.SymLemmas
import Verif.Elide
import Verif.SourceOffset

/-!
# Sample attribution: `TraverseInlineStack`, `AddSourceCount`, `AddIndirectCallTarget`
(symbol_map.cc:521-607)

`map_` is modelled without aliases (each name has its own symbol).  `map_.find(name)->second` on a
missing name is undefined behaviour: outcome `none`.  File and directory names are not modelled.
-/
namespace Verif.SymbolMap

/-- `SourceInfo` (source_info.h:18-106) without file names. -/
structure Frame where
  func : Name
  startLine : BitVec 32
  line : BitVec 32
  disc : BitVec 32

/-- `SourceInfo::HasInvalidInfo` (source_info.h:66-69). -/
def Frame.invalid (f : Frame) : Bool := f.startLine == 0 || f.line == 0

/-- `SourceInfo::Offset` (source_info.h:38-54), plain discriminators. -/
def Frame.off (f : Frame) : Nat := (SourceOffset.offset f.startLine f.line f.disc).toNat

/-- `DataSource` (symbol_map.h:434). -/
inductive DataSource where
  | invalid | perfData | afdoProto | afdoProfile
deriving DecidableEq

/-- `data_source == PERFDATA || data_source == AFDOPROTO` (symbol_map.cc:547, 577, 601). -/
def DataSource.needConversion : DataSource → Bool
  | .perfData | .afdoProto => true
  | _ => false

/-- The callsites followed by the loop of `TraverseInlineStack` (symbol_map.cc:546-562) on the
reversed stack (outermost frame first); it stops at an invalid frame when converting. -/
def walk (conv : Bool) : List Frame → List Callsite
  | f :: g :: t => if conv && f.invalid then [] else (f.off, g.func) :: walk conv (g :: t)
  | _ => []

/-- `TraverseInlineStack` (symbol_map.cc:539-563) below one root symbol along the callsites it
follows, together with the caller's update `leaf` of the returned symbol. -/
def Sym.addAlong (count : Nat) (leaf : Data → Data) : List Callsite → Sym → Sym
  | [], .mk d cs => .mk (leaf { d with total := d.total + count }) cs
  | k :: p, .mk d cs =>
    .mk { d with total := d.total + count }
      (modifyAt cs k (fun o => Sym.addAlong count leaf p (o.getD Sym.new)))

/-- Update of the returned symbol in `AddSourceCount` (symbol_map.cc:577-590). -/
def leafCount (conv : Bool) (src0 : Frame) (count numInst : Nat) (d : Data) : Data :=
  if conv && src0.invalid then d
  else { d with pos := PosMap.modify d.pos src0.off (fun i =>
    { i with count := if conv then (if count > i.count then count else i.count) else i.count + count,
             numInst := i.numInst + numInst }) }

/-- `map_` without aliases. -/
abbrev SymMap := OMap Name Sym

/-- `SymbolMap::AddSourceCount` (symbol_map.cc:566-591).  `mul` is
`FLAGS_use_discriminator_multiply_factor`.  `src` lists the innermost frame first. -/
def addSourceCount (m : SymMap) (name : Name) (src : List Frame) (count numInst dup : Nat)
    (mul : Bool) (ds : DataSource) : Option SymMap :=
  let count := if dup ≠ 1 ∧ mul = true then count * dup else count
  match src with
  | [] => some m
  | src0 :: _ =>
    match OMap.find? m name with
    | none => none
    | some s => some (OMap.set name (Sym.addAlong count
        (leafCount ds.needConversion src0 count numInst) (walk ds.needConversion src.reverse) s) m)

/-- Update of the returned symbol in `AddIndirectCallTarget` (symbol_map.cc:601-606). -/
def leafTarget (conv : Bool) (src0 : Frame) (target : Name) (count : Nat) (d : Data) : Data :=
  if conv && src0.invalid then d
  else { d with pos := PosMap.modify d.pos src0.off (fun i =>
    { i with targets := OMap.set target count i.targets }) }

/-- `SymbolMap::AddIndirectCallTarget` (symbol_map.cc:593-607): the map and the returned flag. -/
def addIndirectCallTarget (pol : Policy) (m : SymMap) (name : Name) (src : List Frame) (target : Name)
    (count : Nat) (ds : DataSource) : Option (SymMap × Bool) :=
  match src with
  | [] => some (m, false)
  | src0 :: _ =>
    match OMap.find? m name with
    | none => none
    | some s => some (OMap.set name (Sym.addAlong 0
        (leafTarget ds.needConversion src0 (originalName pol target) count)
        (walk ds.needConversion src.reverse) s) m, !(ds.needConversion && src0.invalid))

/-- `SymbolMap::AddSymbolEntryCount` (symbol_map.cc:521-526). -/
def addSymbolEntryCount (m : SymMap) (name : Name) (head total : Nat) : Option SymMap :=
  match OMap.find? m name with
  | none => none
  | some (.mk d cs) =>
    some (OMap.set name (.mk { d with head := d.head + head, total := d.total + total } cs) m)

end Verif.SymbolMap

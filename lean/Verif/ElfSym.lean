import Verif.ElfProps
import Verif.AddrLookup

/-! # C67: the symbols of an ELF file and the symbol map built from them (elf_reader.cc:181-242, 317-357, 636-654,
763-778, symbol_map.cc:427-520, symbol_map.h:584-600)

The conventions are those of `Verif.Elf`. -/
namespace Verif.Elf
open Verif Verif.ByteReader
open Verif.DwarfLine (cstr encodeFixed_len cstr_spec)
open Verif.DwarfInfo (StrIn)
open Verif.AddrLookup (AddrMap Seg W)

/-- `Elf32_Sym`, `Elf64_Sym`. -/
structure Sym where
  name : Nat
  info : Nat
  other : Nat
  shndx : Nat
  value : Nat
  size : Nat
deriving DecidableEq

def Sym.read (w : Nat) (bs : List Nat) : Option Sym :=
  if w = 8 then
    match readFields [4, 1, 1, 2, 8, 8] bs with
    | some [n, i, o, x, v, s] => some ⟨n, i, o, x, v, s⟩
    | _ => none
  else
    match readFields [4, 4, 4, 1, 1, 2] bs with
    | some [n, v, s, i, o, x] => some ⟨n, i, o, x, v, s⟩
    | _ => none

/-- What a filter is called with (elf_reader.cc:332-333): the name is a pointer into the string table. -/
structure View where
  tab : List Nat
  off : Nat
  value : Nat
  size : Nat
  bind : Nat
  type : Nat
  shndx : Nat

/-- The arguments of `AddSymbol` (elf_reader.cc:340-341). -/
structure Out where
  name : List Nat
  value : Nat
  size : Nat
  bind : Nat
  type : Nat
  shndx : Nat
deriving DecidableEq

/-- `AdjustSymbolValue` (elf_reader.cc:636-654, 65-68): `EM_ARM` is 40, `STT_FUNC` is 2. -/
def adjust (machine : Nat) (s : Sym) : Nat :=
  if machine = 40 ∧ s.info % 16 = 2 then s.value - s.value % 2 else s.value

/-- One round of the loop (elf_reader.cc:327-343); `some none`: nothing is added.  The symbol is at a 32-bit offset of the
section (`GetOffset`, 153-156).  A name or symbol that is not inside its section is not modelled. -/
def Reader.visitOne (r : Reader) (filter : View → Option Bool) (bind type : Option Nat) (raw : Bool) (c t : List Nat)
    (entsize i : Nat) : Option (Option Out) :=
  (Sym.read r.w (c.drop (i * entsize % 2 ^ 32))).bind fun s =>
  if s.name = 0 then some none
  else
    (cstr (t.drop s.name)).bind fun n =>
    (filter ⟨t, s.name, s.value, s.size, s.info / 16, s.info % 16, s.shndx⟩).bind fun ok =>
    if ok = false then some none
    else if (bind = none ∨ bind = some (s.info / 16)) ∧ (type = none ∨ type = some (s.info % 16)) then
      some (some ⟨n.1, if raw then s.value else adjust r.eh.machine s, s.size, s.info / 16, s.info % 16, s.shndx⟩)
    else some none

/-- `VisitSymbols` of one section type (elf_reader.cc:322-345, 186-204): the calls of `AddSymbol`.  More than 2^31 symbols
(`int`) are not modelled. -/
def Reader.visit (r : Reader) (filter : View → Option Bool) (bind type : Option Nat) (raw : Bool) (stype : Nat) :
    Option (List Out) :=
  (r.indexByType stype (List.range (numSecs r.eh r.first))).bind fun
  | none => some []
  | some k => (r.section k).bind fun c => (r.shdr k).bind fun s =>
    if s.entsize = 0 then none
    else if s.size / s.entsize ≥ 2 ^ 31 then none
    else if s.link = 0 then none
    else (r.section s.link).bind fun t =>
      ((List.range (s.size / s.entsize)).mapM (r.visitOne filter bind type raw c t s.entsize)).map (·.filterMap id)

/-- `ElfReader::VisitSymbols` (elf_reader.cc:763-778): `SHT_SYMTAB` is 2, `SHT_DYNSYM` is 11. -/
def visitSymbols (path : List Nat) (disk : Option (List Nat)) (filter : View → Option Bool) (bind type : Option Nat)
    (raw : Bool) : Option (List Out) :=
  match openFile path disk with
  | none => some []
  | some bs => (reader path bs).bind fun
    | none => some []
    | some r => (r.visit filter bind type raw 2).bind fun a => (r.visit filter bind type raw 11).map (a ++ ·)

/-! ## The symbol map -/

/-- `\.__part\.\d+$` (symbol_map.cc:506). -/
def partSuffix (n : List Nat) : Bool :=
  !(n.reverse.takeWhile fun c => decide (48 ≤ c ∧ c ≤ 57)).isEmpty &&
    (str ".__part.").isSuffixOf (n.reverse.dropWhile fun c => decide (48 ≤ c ∧ c ≤ 57)).reverse

/-- The filter of `BuildSymbolMap` (symbol_map.cc:502-511).  The comparison with `@plt` starts four bytes before the end of the
name, also if that is before the name. -/
def wanted (v : View) : Option Bool :=
  (cstr (v.tab.drop v.off)).bind fun n =>
  if n.1 = str "__llvm_fs_discriminator__" then some true
  else if v.size ≠ 0 ∧ (v.type = 2 ∨ hasSuffix n.1 (str ".cold") ∨ partSuffix n.1) then
    if v.off + n.1.length < 4 then none
    else (cstr (v.tab.drop (v.off + n.1.length - 4))).map fun p => decide (p.1 ≠ str "@plt")
  else some false

/-- A name as the model of the symbol map has it. -/
def toName (n : List Nat) : Name := n.map UInt8.ofNat

/-- `address_symbol_map_` and `name_alias_map_` (symbol_map.h:617-619), the second one as its pairs in the order of insertion. -/
structure SymMap where
  map : AddrMap
  aliases : List (Name × Name)

/-- `SymbolReader::AddSymbol` (symbol_map.cc:436-446). -/
def SymMap.add (m : SymMap) (o : Out) : SymMap :=
  match OMap.find? m.map o.value with
  | none => { m with map := OMap.set o.value (toName o.name, o.size) m.map }
  | some e => { m with aliases := m.aliases ++ [(e.1, toName o.name)] }

/-- `BuildSymbolMap` (symbol_map.cc:495-520), without the flags about discriminators. -/
def buildSymbolMap (path : List Nat) (disk : Option (List Nat)) : Option SymMap :=
  (visitSymbols path disk wanted none none false).map fun l => l.foldl SymMap.add ⟨[], []⟩

/-- Whether `use_fs_discriminator` is set by the binary (symbol_map.cc:438-439, 514-516). -/
def usesFsDiscriminator (path : List Nat) (disk : Option (List Nat)) : Option Bool :=
  (visitSymbols path disk wanted none none false).map fun l => l.any fun o => o.name == str "__llvm_fs_discriminator__"

/-- `BuildNameAddressMap` (symbol_map.h:586-592): the last address with the name. -/
def addrOfName (m : AddrMap) (n : Name) : Option Nat := (m.filter fun e => decide (e.2.1 = n)).getLast?.map Prod.fst

/-- The loop of `ReadLoadableExecSegmentInfo` (symbol_map.cc:466-481): `PT_LOAD` is 1, `PF_X` is 1; the offsets of a kernel are
those from the first such segment.  `none`: the assertion of `add_loadable_exec_segment` (symbol_map.h:594-599). -/
def execSegs (kernel : Bool) : List Phdr → Option Nat → List Seg → Option (List Seg)
  | [], _, acc => some acc
  | p :: ps, base, acc =>
    if p.type = 1 ∧ p.flags % 2 = 1 then
      let base' := if kernel && base.isNone then some p.offset else base
      let off := (p.offset + W - base'.getD 0) % W
      if (match acc.getLast? with | none => true | some s => decide (s.offset < off)) then
        execSegs kernel ps base' (acc ++ [⟨off, p.vaddr⟩])
      else none
    else execSegs kernel ps base acc

/-- `ReadLoadableExecSegmentInfo` (symbol_map.cc:456-493): a kernel module without segments has its `.text`. -/
def loadableSegs (path : List Nat) (disk : Option (List Nat)) (kernel : Bool) : Option (List Seg) :=
  (segmentInfo path disk).bind fun ps =>
  (execSegs kernel ps none []).bind fun l =>
  if ps.isEmpty && hasSuffix path (str ".ko") then
    (sectionInfoByName path disk (str ".text")).map fun
      | none => l
      | some s => l ++ [⟨s.offset, s.addr⟩]
  else some l

/-! # Specification -/

def Sym.encode64 (s : Sym) : List Nat :=
  le 4 s.name ++ (le 1 s.info ++ (le 1 s.other ++ (le 2 s.shndx ++ (le 8 s.value ++ le 8 s.size))))

def Sym.encode32 (s : Sym) : List Nat :=
  le 4 s.name ++ (le 4 s.value ++ (le 4 s.size ++ (le 1 s.info ++ (le 1 s.other ++ le 2 s.shndx))))

def Sym.encode (w : Nat) (s : Sym) : List Nat := if w = 8 then s.encode64 else s.encode32

structure Sym.Fits (w : Nat) (s : Sym) : Prop where
  name : s.name < 2 ^ 32
  byte : s.info < 256 ∧ s.other < 256
  half : s.shndx < 65536
  addr : s.value < 256 ^ w ∧ s.size < 256 ^ w

/-- The file has a symbol table of the given type with the symbols `syms` (with their names), in this order; `tab` is its string
table.  The first section of the type counts. -/
def SymTable (bs : List Nat) (w : Nat) (secs : List (Shdr × List Nat)) (type : Nat) (syms : List (Sym × List Nat))
    (tab : List Nat) : Prop :=
  ∃ (i : Nat) (s : Shdr × List Nat) (c : List Nat), secs[i]? = some s ∧ s.1.type = type ∧
    (∀ j t, secs[j]? = some t → t.1.type = type → i ≤ j) ∧
    Contents bs s.1 c ∧ s.1.entsize ≠ 0 ∧ s.1.size / s.1.entsize = syms.length ∧ s.1.size < 2 ^ 32 ∧ syms.length < 2 ^ 31 ∧
    (∃ t, s.1.link ≠ 0 ∧ secs[s.1.link]? = some t ∧ Contents bs t.1 tab) ∧
    ∀ n y, syms[n]? = some y → At c (n * s.1.entsize) (y.1.encode w) ∧ y.1.Fits w ∧
      (y.1.name ≠ 0 → StrIn tab y.1.name y.2)

/-- The file's symbol table of a type, if it has one. -/
def SymsOf (bs : List Nat) (w : Nat) (secs : List (Shdr × List Nat)) (type : Nat) (syms : List (Sym × List Nat))
    (tab : List Nat) : Prop :=
  SymTable bs w secs type syms tab ∨ ((∀ s ∈ secs, s.1.type ≠ type) ∧ syms = [])

/-- The address of a symbol: functions of ARM have the lowest bit of a Thumb function removed. -/
def addrOf (eh : Ehdr) (y : Sym) : Nat := if eh.machine = 40 ∧ y.info % 16 = 2 then y.value / 2 * 2 else y.value

/-- The call of `AddSymbol` for a symbol: binding and type are the two halves of a byte. -/
def Sym.call (y : Sym) (nm : List Nat) (addr : Nat) : Out := ⟨nm, addr, y.size, y.info / 16, y.info % 16, y.shndx⟩

/-- The symbols of the symbol map: a function, or a part of one that was split off, of a known size, that is not an entry of
the procedure linkage table; or the flag about discriminators. -/
def Kept (y : Sym × List Nat) : Prop :=
  y.1.name ≠ 0 ∧ (y.2 = str "__llvm_fs_discriminator__" ∨
    (y.1.size ≠ 0 ∧ (y.1.info % 16 = 2 ∨ (∃ x, y.2 = x ++ str ".cold") ∨
      ∃ x ds, y.2 = x ++ (str ".__part." ++ ds) ∧ ds ≠ [] ∧ ∀ d ∈ ds, 48 ≤ d ∧ d ≤ 57) ∧
     ¬ ∃ x, y.2 = x ++ str "@plt"))

/-- Names of less than four bytes are not the ends of other names, nor at the very start of the string table. -/
def ShortOk (tab : List Nat) (syms : List (Sym × List Nat)) : Prop :=
  ∀ y ∈ syms, y.1.name ≠ 0 → y.2.length < 4 → 4 ≤ y.1.name + y.2.length ∧ tab[y.1.name - 1]? = some 0

end Verif.Elf

import Verif.DwarfInfoSpec

/-! # C66: the reader of ELF files (util/symbolize/elf_reader.cc)

A file is its list of bytes; the host is little-endian with pages of 4096 bytes.  `none` stands for a failed `CHECK`, a failed
`mmap` (fatal), a null or wild pointer, or something said below not to be modelled.  `pread` and `mmap` succeed exactly
inside the file.  That sections are mapped once and kept is not modelled: mapping again gives the same bytes. -/
namespace Verif.Elf
open Verif.ByteReader
open Verif.DwarfLine (cstr encodeFixed_len cstr_spec)
open Verif.DwarfInfo (StrIn)

/-- A string constant as bytes. -/
def str (s : String) : List Nat := s.toList.map Char.toNat

/-! ## Structures of `<elf.h>` -/

/-- Consecutive little-endian fields of the given widths. -/
def readFields : List Nat → List Nat → Option (List Nat)
  | [], _ => some []
  | w :: ws, bs => (readFixed .little w bs).bind fun v => (readFields ws (bs.drop w)).map (v :: ·)

/-- `Elf32_Ehdr`, `Elf64_Ehdr` after the 16 identification bytes. -/
structure Ehdr where
  type : Nat
  machine : Nat
  version : Nat
  entry : Nat
  phoff : Nat
  shoff : Nat
  flags : Nat
  ehsize : Nat
  phentsize : Nat
  phnum : Nat
  shentsize : Nat
  shnum : Nat
  shstrndx : Nat
deriving DecidableEq

/-- `Elf32_Shdr`, `Elf64_Shdr`. -/
structure Shdr where
  name : Nat
  type : Nat
  flags : Nat
  addr : Nat
  offset : Nat
  size : Nat
  link : Nat
  info : Nat
  align : Nat
  entsize : Nat
deriving DecidableEq, Inhabited

/-- `Elf32_Phdr`, `Elf64_Phdr` (the order of the fields differs, see `Phdr.read`). -/
structure Phdr where
  type : Nat
  flags : Nat
  offset : Nat
  vaddr : Nat
  paddr : Nat
  filesz : Nat
  memsz : Nat
  align : Nat
deriving DecidableEq

/-- The identification read as fields: `w` is 4 for `Elf32`, 8 for `Elf64`. -/
def Ehdr.read (w : Nat) (bs : List Nat) : Option Ehdr :=
  match readFields [2, 2, 4, w, w, w, 4, 2, 2, 2, 2, 2, 2] bs with
  | some [a, b, c, d, e, f, g, h, i, j, k, l, m] => some ⟨a, b, c, d, e, f, g, h, i, j, k, l, m⟩
  | _ => none

def Shdr.read (w : Nat) (bs : List Nat) : Option Shdr :=
  match readFields [4, 4, w, w, w, w, 4, 4, w, w] bs with
  | some [a, b, c, d, e, f, g, h, i, j] => some ⟨a, b, c, d, e, f, g, h, i, j⟩
  | _ => none

def Phdr.read (w : Nat) (bs : List Nat) : Option Phdr :=
  if w = 8 then
    match readFields [4, 4, 8, 8, 8, 8, 8, 8] bs with
    | some [t, fl, o, v, p, f, m, a] => some ⟨t, fl, o, v, p, f, m, a⟩
    | _ => none
  else
    match readFields [4, 4, 4, 4, 4, 4, 4, 4] bs with
    | some [t, o, v, p, f, m, fl, a] => some ⟨t, fl, o, v, p, f, m, a⟩
    | _ => none

/-- `sizeof(Ehdr)`, `sizeof(Shdr)`, `sizeof(Phdr)`. -/
def ehSize (w : Nat) : Nat := if w = 8 then 64 else 52
def shSize (w : Nat) : Nat := if w = 8 then 64 else 40
def phSize (w : Nat) : Nat := if w = 8 then 56 else 32

/-! ## Opening (elf_reader.cc:246-250, 287-314, 690-709) -/

/-- `MyHasSuffixString` (elf_reader.cc:246-250). -/
def hasSuffix (s suf : List Nat) : Bool := decide (suf.length ≤ s.length) && (s.drop (s.length - suf.length) == suf)

/-- The file behind the descriptor (elf_reader.cc:690-709); `disk`: what `open` finds. -/
def openFile (path : List Nat) (disk : Option (List Nat)) : Option (List Nat) :=
  if hasSuffix path (str " (deleted)") then none
  else if path = str "[vdso]" then none
  else if path = str "[vsyscall]" then none
  else disk

/-- `IsArchElfFile` (elf_reader.cc:287-314): the magic number, the class, little-endian data. -/
def isArch (cls : Nat) (bs : List Nat) : Bool :=
  decide (16 ≤ bs.length) && (bs.take 4 == [0x7f, 0x45, 0x4c, 0x46]) && (bs[4]? == some cls) && (bs[5]? == some 1)

/-- Which of the two readers is used (`IsElf32File`, `IsElf64File`, elf_reader.cc:745-751): its width. -/
def width (bs : List Nat) : Option Nat :=
  if isArch 1 bs then some 4 else if isArch 2 bs then some 8 else none

/-! ## Headers (elf_reader.cc:512-541, 575-633) -/

/-- `ElfReaderImpl`.  `sh`, `ph`: `none` if the array is not allocated or not filled in. -/
structure Reader where
  w : Nat
  bs : List Nat
  dwp : Bool
  eh : Ehdr
  first : Shdr
  sh : Option (List Shdr)
  ph : Option (List Phdr)

/-- `GetNumSections` (elf_reader.cc:525-529). -/
def numSecs (eh : Ehdr) (first : Shdr) : Nat := if eh.shnum = 0 then first.size else eh.shnum

/-- `GetNumProgramHeaders` (elf_reader.cc:517-522). -/
def numPhs (eh : Ehdr) (first : Shdr) : Nat :=
  if eh.shnum = 0 ∧ eh.phnum = 0xffff ∧ first.info ≠ 0 then first.info else eh.phnum

/-- `GetStringTableIndex` (elf_reader.cc:532-540). -/
def strIdx (eh : Ehdr) (first : Shdr) : Nat :=
  if eh.shnum = 0 then
    if eh.shstrndx = 0xffff then first.link
    else if eh.shstrndx ≥ numSecs eh first then 0
    else eh.shstrndx
  else eh.shstrndx

/-- An array of `n` structures of `size` bytes read by one `pread`; `none` if the read is short. -/
def readArray {α : Type} (read : List Nat → Option α) (bs : List Nat) (off size n : Nat) : Option (List α) :=
  if off + n * size ≤ bs.length ∨ n = 0 then (List.range n).mapM fun i => read (bs.drop (off + i * size)) else none

/-- The object whose headers are not read completely: the constructor ignores the result of `ParseHeaders`
(elf_reader.cc:262-272). -/
def Reader.bare (w : Nat) (bs : List Nat) (dwp : Bool) (eh : Ehdr) : Reader := ⟨w, bs, dwp, eh, default, none, none⟩

/-- `ParseHeaders` (elf_reader.cc:575-633) in the constructor.  `header_` is initialised with zeros (665), so that a short
read leaves zeros.  Array sizes beyond 2^31 (`int`) and a short read of the first section header are not modelled. -/
def parse (w : Nat) (bs : List Nat) (dwp : Bool) : Option Reader :=
  (Ehdr.read w ((bs ++ List.replicate 64 0).drop 16)).bind fun eh =>
  if bs.length < ehSize w then some (.bare w bs dwp eh)
  else if eh.type ≠ 2 ∧ eh.type ≠ 3 ∧ eh.type ≠ 1 then some (.bare w bs dwp eh)
  else if eh.shoff = 0 then some (.bare w bs dwp eh)
  else
    (if eh.shnum = 0 then
      (if eh.shoff + shSize w ≤ bs.length then Shdr.read w (bs.drop eh.shoff) else none)
     else some default).bind fun first =>
    if numSecs eh first * shSize w ≥ 2 ^ 31 ∨ numPhs eh first * phSize w ≥ 2 ^ 31 then none
    else
      match readArray (Shdr.read w) bs eh.shoff (shSize w) (numSecs eh first) with
      | none => some ⟨w, bs, dwp, eh, first, none, none⟩
      | some sh => some ⟨w, bs, dwp, eh, first, some sh,
          readArray (Phdr.read w) bs eh.phoff (phSize w) (numPhs eh first)⟩

/-! ## Sections (elf_reader.cc:131-146, 349-441, 544-570) -/

/-- `section_headers_[k]`. -/
def Reader.shdr (r : Reader) (k : Nat) : Option Shdr := r.sh.bind (·[k]?)

/-- `ElfSectionReader` (elf_reader.cc:131-146): the contents of a section.  `mmap` fails for an empty mapping; a section that
is not inside the file is not modelled. -/
def Reader.mapped (r : Reader) (s : Shdr) : Option (List Nat) :=
  if s.size + s.offset % 4096 = 0 then none
  else if s.offset + s.size ≤ r.bs.length then some ((r.bs.drop s.offset).take s.size) else none

/-- The section with the names: `GetSection(GetStringTableIndex())` (elf_reader.cc:545-546, 556-569). -/
def Reader.strtab (r : Reader) : Option (List Nat) :=
  if strIdx r.eh r.first < numSecs r.eh r.first then (r.shdr (strIdx r.eh r.first)).bind r.mapped else none

/-- `GetSectionName` (elf_reader.cc:544-552) as the C string at the pointer.  A string that does not end inside the section
is not modelled. -/
def Reader.nameAt (r : Reader) (off : Nat) : Option (List Nat) :=
  r.strtab.bind fun t => if t.length ≥ off then (cstr (t.drop off)).map Prod.fst else none

/-- `GetSection` (elf_reader.cc:556-570): the name is computed, with its `CHECK`, and dropped. -/
def Reader.section (r : Reader) (k : Nat) : Option (List Nat) :=
  if k < numSecs r.eh r.first then
    (r.shdr k).bind fun s =>
    if k = strIdx r.eh r.first then r.mapped s
    else r.strtab.bind fun t => if t.length ≥ s.name then r.mapped s else none
  else none

/-- `SectionNamesMatch` (elf_reader.cc:859-866). -/
def namesMatch (name sh : List Nat) : Bool :=
  if (str ".debug_").isPrefixOf name && (str ".zdebug_").isPrefixOf sh then
    name.drop 7 == sh.drop 8
  else name == sh

/-- The loop over the sections (elf_reader.cc:393-399, 416-422) in the order of the list: the first one that matches. -/
def Reader.find (r : Reader) (name : List Nat) : List Nat → Option (Option Nat)
  | [] => some none
  | k :: ks => (r.shdr k).bind fun s => (r.nameAt s.name).bind fun n =>
      if namesMatch name n then some (some k) else r.find name ks

/-- The order of the loop: backwards in a `.dwp` file (elf_reader.cc:397, 420). -/
def Reader.order (r : Reader) : List Nat :=
  (List.range (numSecs r.eh r.first)).map fun k => if r.dwp then numSecs r.eh r.first - k - 1 else k

/-- `GetSectionContentsByName` (elf_reader.cc:391-410); `some none`: null. -/
def Reader.contentsByName (r : Reader) (name : List Nat) : Option (Option (List Nat)) :=
  (r.find name r.order).bind fun
    | none => some none
    | some k => (r.section k).map some

/-- `GetSectionInfoByName` (elf_reader.cc:414-441): the header; the section is mapped too. -/
def Reader.infoByName (r : Reader) (name : List Nat) : Option (Option Shdr) :=
  (r.find name r.order).bind fun
    | none => some none
    | some k => (r.section k).bind fun _ => (r.shdr k).map some

/-- `GetSectionIndexByType` (elf_reader.cc:379-386). -/
def Reader.indexByType (r : Reader) (type : Nat) : List Nat → Option (Option Nat)
  | [] => some none
  | k :: ks => (r.shdr k).bind fun s => if s.type = type then some (some k) else r.indexByType type ks

/-- `HasDebugSections` (elf_reader.cc:483-492). -/
def Reader.hasDebug (r : Reader) : Option Bool :=
  go ((List.range (numSecs r.eh r.first)).reverse)
where
  go : List Nat → Option Bool
  | [] => some false
  | k :: ks => (r.shdr k).bind fun s => (r.nameAt s.name).bind fun n =>
      if (str ".debug").isPrefixOf n then some true else go ks

/-! ## Segments (elf_reader.cc:444-478) -/

/-- `program_headers_[0]` to `program_headers_[GetNumProgramHeaders() - 1]`. -/
def Reader.phdrs (r : Reader) : Option (List Phdr) :=
  if numPhs r.eh r.first = 0 then some [] else r.ph

/-- `GetSegmentInfo` (elf_reader.cc:444-460). -/
def Reader.segmentInfo (r : Reader) : Option (List Phdr) := r.phdrs

/-- `VaddrOfFirstLoadSegment` (elf_reader.cc:466-478). -/
def Reader.vaddr (r : Reader) : Option Nat :=
  if r.eh.type = 1 then some 0
  else r.phdrs.map fun ps => match ps.find? (fun p => p.type == 1) with
    | some p => p.vaddr
    | none => 0

/-! ## The class `ElfReader` (elf_reader.cc:780-857, 932-941) -/

/-- `GetImpl32`, `GetImpl64` (elf_reader.cc:943-955). -/
def reader (path bs : List Nat) : Option (Option Reader) :=
  match width bs with
  | none => some none
  | some w => (parse w bs (hasSuffix path (str ".dwp"))).map some

/-- `GetSectionByName` (elf_reader.cc:835-845): `some none` is a null pointer. -/
def sectionByName (path : List Nat) (disk : Option (List Nat)) (name : List Nat) : Option (Option (List Nat)) :=
  match openFile path disk with
  | none => some none
  | some bs => (reader path bs).bind fun
    | none => some none
    | some r => r.contentsByName name

/-- `GetSectionInfoByName` (elf_reader.cc:847-857). -/
def sectionInfoByName (path : List Nat) (disk : Option (List Nat)) (name : List Nat) : Option (Option Shdr) :=
  match openFile path disk with
  | none => some none
  | some bs => (reader path bs).bind fun
    | none => some none
    | some r => r.infoByName name

/-- `VaddrOfFirstLoadSegment` (elf_reader.cc:780-789). -/
def vaddrOfFirstLoad (path : List Nat) (disk : Option (List Nat)) : Option Nat :=
  match openFile path disk with
  | none => some 0
  | some bs => (reader path bs).bind fun
    | none => some 0
    | some r => r.vaddr

/-- `GetSegmentInfo` (elf_reader.cc:791-800). -/
def segmentInfo (path : List Nat) (disk : Option (List Nat)) : Option (List Phdr) :=
  match openFile path disk with
  | none => some []
  | some bs => (reader path bs).bind fun
    | none => some []
    | some r => r.segmentInfo

/-- `IsDynamicSharedObject` (elf_reader.cc:932-941). -/
def isDso (path : List Nat) (disk : Option (List Nat)) : Option Bool :=
  match openFile path disk with
  | none => some false
  | some bs => (reader path bs).bind fun
    | none => some false
    | some r => some (r.eh.type == 3)

/-! # Specification -/

/-- The bytes `xs` are at the offset `off` of the file. -/
def At (bs : List Nat) (off : Nat) (xs : List Nat) : Prop := ∃ pre post, bs = pre ++ (xs ++ post) ∧ pre.length = off

/-- `v` in `n` bytes, least significant first. -/
def le (n v : Nat) : List Nat := encodeFixed .little n v

def Ehdr.encode (w : Nat) (h : Ehdr) : List Nat :=
  le 2 h.type ++ (le 2 h.machine ++ (le 4 h.version ++ (le w h.entry ++ (le w h.phoff ++ (le w h.shoff ++ (le 4 h.flags ++
  (le 2 h.ehsize ++ (le 2 h.phentsize ++ (le 2 h.phnum ++ (le 2 h.shentsize ++ (le 2 h.shnum ++ le 2 h.shstrndx)))))))))))

def Shdr.encode (w : Nat) (s : Shdr) : List Nat :=
  le 4 s.name ++ (le 4 s.type ++ (le w s.flags ++ (le w s.addr ++ (le w s.offset ++ (le w s.size ++ (le 4 s.link ++
  (le 4 s.info ++ (le w s.align ++ le w s.entsize))))))))

def Phdr.encode64 (p : Phdr) : List Nat :=
  le 4 p.type ++ (le 4 p.flags ++ (le 8 p.offset ++ (le 8 p.vaddr ++ (le 8 p.paddr ++ (le 8 p.filesz ++ (le 8 p.memsz ++
  le 8 p.align))))))

def Phdr.encode32 (p : Phdr) : List Nat :=
  le 4 p.type ++ (le 4 p.offset ++ (le 4 p.vaddr ++ (le 4 p.paddr ++ (le 4 p.filesz ++ (le 4 p.memsz ++ (le 4 p.flags ++
  le 4 p.align))))))

def Phdr.encode (w : Nat) (p : Phdr) : List Nat := if w = 8 then p.encode64 else p.encode32

/-- The fields fit. -/
structure Ehdr.Fits (w : Nat) (h : Ehdr) : Prop where
  half : h.type < 65536 ∧ h.machine < 65536 ∧ h.ehsize < 65536 ∧ h.phentsize < 65536 ∧ h.phnum < 65536 ∧
    h.shentsize < 65536 ∧ h.shnum < 65536 ∧ h.shstrndx < 65536
  word : h.version < 2 ^ 32 ∧ h.flags < 2 ^ 32
  addr : h.entry < 256 ^ w ∧ h.phoff < 256 ^ w ∧ h.shoff < 256 ^ w

structure Shdr.Fits (w : Nat) (s : Shdr) : Prop where
  word : s.name < 2 ^ 32 ∧ s.type < 2 ^ 32 ∧ s.link < 2 ^ 32 ∧ s.info < 2 ^ 32
  addr : s.flags < 256 ^ w ∧ s.addr < 256 ^ w ∧ s.offset < 256 ^ w ∧ s.size < 256 ^ w ∧ s.align < 256 ^ w ∧ s.entsize < 256 ^ w

structure Phdr.Fits (w : Nat) (p : Phdr) : Prop where
  word : p.type < 2 ^ 32 ∧ p.flags < 2 ^ 32
  addr : p.offset < 256 ^ w ∧ p.vaddr < 256 ^ w ∧ p.paddr < 256 ^ w ∧ p.filesz < 256 ^ w ∧ p.memsz < 256 ^ w ∧ p.align < 256 ^ w

/-- `bs` is an ELF file of class `w` (4 or 8 bytes) for a little-endian machine: with the header `eh`, the sections `secs` (with
their names), the segments `segs`; `k` is the number of the section with the names, `names` its contents. -/
structure IsElf (bs : List Nat) (w : Nat) (eh : Ehdr) (secs : List (Shdr × List Nat)) (segs : List Phdr) (k : Nat)
    (names : List Nat) : Prop where
  class_ : w = 4 ∨ w = 8
  ident : At bs 0 [0x7f, 0x45, 0x4c, 0x46, if w = 8 then 2 else 1, 1]
  header : At bs 16 (eh.encode w)
  fits : eh.Fits w
  type : eh.type = 1 ∨ eh.type = 2 ∨ eh.type = 3
  shoff : eh.shoff ≠ 0
  /-- The section headers, one after the other. -/
  sections : ∀ i s, secs[i]? = some s → At bs (eh.shoff + i * (if w = 8 then 64 else 40)) (s.1.encode w) ∧ s.1.Fits w
  segments : ∀ i p, segs[i]? = some p → At bs (eh.phoff + i * (if w = 8 then 56 else 32)) (p.encode w) ∧ p.Fits w
  /-- The number of sections is in the header, or in the first section. -/
  nsecs : eh.shnum = secs.length ∨ (eh.shnum = 0 ∧ ∃ s, secs[0]? = some s ∧ s.1.size = secs.length)
  nsegs : (eh.phnum = segs.length ∧ segs.length < 0xffff) ∨
    (eh.phnum = 0xffff ∧ eh.shnum = 0 ∧ ∃ s, secs[0]? = some s ∧ s.1.info = segs.length ∧ segs ≠ [])
  nstr : (eh.shstrndx = k ∧ k < 0xff00) ∨ (eh.shstrndx = 0xffff ∧ eh.shnum = 0 ∧ ∃ s, secs[0]? = some s ∧ s.1.link = k)
  /-- Every section has its name. -/
  strtab : ∃ t, secs[k]? = some t ∧ At bs t.1.offset names ∧ names.length = t.1.size
  names : ∀ s ∈ secs, StrIn names s.1.name s.2
  small : secs.length < 2 ^ 24 ∧ segs.length < 2 ^ 24

end Verif.Elf

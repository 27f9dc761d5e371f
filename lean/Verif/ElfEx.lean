import Verif.ElfSeg
import Verif.Addr2Line

/-! # C65 to C68 from the bytes of a file: inline stacks of an ELF file, concrete cases, departures

`prepareFile` is `Google3Addr2line::Prepare` (legacy_addr2line.cc:79-186) with the reading of the sections (79-103, 128-130). -/
namespace Verif.Elf
open Verif Verif.ByteReader
open Verif.Addr2Line
open Verif.DwarfLine (cstr encodeFixed_len cstr_spec)
open Verif.DwarfInfo (StrIn)
open Verif.AddrLookup (AddrMap Seg W)

/-- The sections and the first load segment (legacy_addr2line.cc:80-103, 128-130); `some none`: not an ELF file. -/
def binaryOf (path : List Nat) (disk : Option (List Nat)) : Option (Option Binary) :=
  match (openFile path disk).bind width with
  | none => some none
  | some w => do
    let line ← sectionByName path disk (str ".debug_line")
    let abbr ← sectionByName path disk (str ".debug_abbrev")
    let info ← sectionByName path disk (str ".debug_info")
    let dstr ← sectionByName path disk (str ".debug_str")
    let ranges ← sectionByName path disk (str ".debug_ranges")
    let addr ← sectionByName path disk (str ".debug_addr")
    let rnglists ← sectionByName path disk (str ".debug_rnglists")
    let lineStr ← sectionByName path disk (str ".debug_line_str")
    let vaddr ← vaddrOfFirstLoad path disk
    some (some ⟨w, vaddr, line, abbr, info, dstr, ranges, addr, rnglists, lineStr⟩)

/-- `Prepare` of a file; `some none`: it returns false. -/
def prepareFile (path : List Nat) (disk : Option (List Nat)) : Option (Option Prepared) :=
  (binaryOf path disk).bind fun
    | none => some none
    | some b => (prepare b).map some

/-- The section with a name has the contents `o` (`none`: there is no such section). -/
def HasSection (dwp : Bool) (bs : List Nat) (secs : List (Shdr × List Nat)) (name : List Nat) : Option (List Nat) → Prop
  | some c => ∃ i s, Chosen dwp secs name i s ∧ Contents bs s c
  | none => ∀ s ∈ secs, ¬ Named name s.2

/-- `v` is the address of the first load segment; 0 if there is none or the file is relocatable. -/
def FirstLoad (eh : Ehdr) (segs : List Phdr) (v : Nat) : Prop :=
  (eh.type = 1 ∧ v = 0) ∨ (eh.type ≠ 1 ∧ ∃ pre p post, segs = pre ++ p :: post ∧ p.type = 1 ∧ (∀ q ∈ pre, q.type ≠ 1) ∧ v = p.vaddr) ∨
  ((∀ p ∈ segs, p.type ≠ 1) ∧ v = 0)

/-- The debugging sections of a file are those of `b`. -/
structure DebugOf (bs : List Nat) (w : Nat) (eh : Ehdr) (secs : List (Shdr × List Nat)) (segs : List Phdr) (dwp : Bool)
    (b : Binary) : Prop where
  width : b.addrSize = w
  vaddr : FirstLoad eh segs b.vaddr
  line : HasSection dwp bs secs (str ".debug_line") b.line
  abbr : HasSection dwp bs secs (str ".debug_abbrev") b.abbr
  info : HasSection dwp bs secs (str ".debug_info") b.info
  dstr : HasSection dwp bs secs (str ".debug_str") b.str
  ranges : HasSection dwp bs secs (str ".debug_ranges") b.ranges
  addr : HasSection dwp bs secs (str ".debug_addr") b.addr
  rnglists : HasSection dwp bs secs (str ".debug_rnglists") b.rnglists
  lineStr : HasSection dwp bs secs (str ".debug_line_str") b.lineStr

variable {bs : List Nat} {w : Nat} {eh : Ehdr} {secs : List (Shdr × List Nat)} {segs : List Phdr} {k : Nat} {names : List Nat}

theorem sectionByName_has (h : IsElf bs w eh secs segs k names) (path : List Nat) (ho : Opens path) (dwp : Bool)
    (hd : dwp = true ↔ ∃ x, path = x ++ str ".dwp") (name : List Nat) (o : Option (List Nat)) (hs : HasSection dwp bs secs name o) :
    sectionByName path (some bs) name = some o := by
  obtain ⟨h1, h2⟩ := section_by_name h path ho dwp hd name
  cases o with
  | some c =>
    obtain ⟨i, s, hc, hcc⟩ := hs
    exact h1 i s c hc hcc
  | none => exact h2 hs

/-- **C66, all debugging sections.** -/
theorem sections_of_file (h : IsElf bs w eh secs segs k names) (path : List Nat) (ho : Opens path) (dwp : Bool)
    (hd : dwp = true ↔ ∃ x, path = x ++ str ".dwp") (b : Binary) (hb : DebugOf bs w eh secs segs dwp b) :
    binaryOf path (some bs) = some (some b) := by
  have hs := sectionByName_has h path ho dwp hd
  have hv : vaddrOfFirstLoad path (some bs) = some b.vaddr := by
    obtain ⟨g1, g2, g3⟩ := first_load_vaddr h path ho
    rcases hb.vaddr with ⟨e1, e2⟩ | ⟨e1, pre, p, post, e2, e3, e4, e5⟩ | ⟨e1, e2⟩
    · rw [g1 e1, e2]
    · rw [g2 e1 pre p post e2 e3 e4, e5]
    · rw [g3 e1, e2]
  unfold binaryOf
  rw [openFile_ok ho, Option.bind_some, h.width_eq]
  simp only [Option.bind_eq_bind]
  rw [hs _ _ hb.line, hs _ _ hb.abbr, hs _ _ hb.info, hs _ _ hb.dstr, hs _ _ hb.ranges, hs _ _ hb.addr, hs _ _ hb.rnglists,
    hs _ _ hb.lineStr, hv, ← hb.width]
  rfl

open Verif.Inline (Sub StackOk InsideOut IsStack) in
/-- **C65, from the file.** For every ELF file whose debugging sections are well-formed (as in `binary_stacks`), the inline stacks
are those of `binary_stacks`: read from the bytes of the file alone. -/
theorem file_stacks (h : IsElf bs w eh secs segs k names) (path : List Nat) (ho : Opens path) (dwp : Bool)
    (hdwp : dwp = true ↔ ∃ x, path = x ++ str ".dwp") (b : Binary) (hb : DebugOf bs w eh secs segs dwp b)
    (hi : Nat) (m : RngLists.RngMap) (hm : b.rsecs.headers = some m) (us : List (DwarfInfo.IUnit × List Nat)) (sc : DwarfInfo.Secs)
    (hsecs : sc = ⟨us.flatMap Prod.snd, b.abbr, b.str, b.lineStr, none, b.addr⟩)
    (hat : DwarfInfo.UnitsAt .little sc InlineHandler.wanted us 0) (hinfo : b.info = some (us.flatMap Prod.snd))
    (hpos : us.flatMap Prod.snd ≠ []) (D : Nat → Sub) (code : Nat → Bool) (lives : List (Option LineMap.LSeq))
    (hd : InlineHandler.SecDesc (b.env m) .little b.addrSize hi sc D code us 0 lives)
    (hok : StackOk b.vaddr (InlineHandler.infoOf (InlineHandler.secKept code us) (InlineHandler.secFns us) D))
    (hap : (lives.flatMap Option.toList).Pairwise LineMap.Disj) :
    ∃ p, prepareFile path (some bs) = some (some p) ∧
      p.info = InlineHandler.infoOf (InlineHandler.secKept code us) (InlineHandler.secFns us) D ∧
      ∀ a, a < hi →
        ((∀ id, id.line ≠ 0 → ¬ LineMap.Found (lives.flatMap Option.toList) a id) → p.stack a = some []) ∧
        ∀ id, id.line ≠ 0 → LineMap.Found (lives.flatMap Option.toList) a id →
          ((∀ i t, Inline.Kept b.vaddr p.info.order i t → ¬ t.Has a) → p.stack a = some [
            { func := none, dir := id.dir, file := id.file, start := 0, line := id.line, discr := id.discr }]) ∧
          (∀ i t, Inline.Kept b.vaddr p.info.order i t → t.Has a → ∃ cs fs, p.stack a = some fs ∧
            InsideOut b.vaddr p.info.order a cs ∧ IsStack p.info id cs fs) := by
  obtain ⟨p, h1, h2, h3⟩ := binary_stacks b hi m hm us sc hsecs hat hinfo hpos D code lives hd hok hap
  refine ⟨p, ?_, h2, h3⟩
  unfold prepareFile
  rw [sections_of_file h path ho dwp hdwp b hb, Option.bind_some]
  simp only
  rw [h1]
  rfl

/-! ## A concrete file -/

theorem at_iff (bs : List Nat) (off : Nat) (xs : List Nat) :
    At bs off xs ↔ (off ≤ bs.length ∧ (bs.drop off).take xs.length = xs) := by
  constructor
  · intro h
    exact ⟨by have := h.bound; omega, h.take rfl⟩
  · rintro ⟨h1, h2⟩
    refine ⟨bs.take off, (bs.drop off).drop xs.length, ?_, by rw [List.length_take]; omega⟩
    conv_lhs => rw [← List.take_append_drop off bs, ← List.take_append_drop xs.length (bs.drop off), h2]

instance (bs : List Nat) (off : Nat) (xs : List Nat) : Decidable (At bs off xs) := decidable_of_iff _ (at_iff bs off xs).symm

theorem strIn_of {buf : List Nat} {off : Nat} {s : List Nat} (h : At buf off (s ++ [0])) (hz : ∀ c ∈ s, c ≠ 0) : StrIn buf off s := by
  obtain ⟨pre, post, rfl, rfl⟩ := h
  exact ⟨pre, post, by simp, rfl, hz⟩

instance (w : Nat) (s : Shdr) : Decidable (s.Fits w) :=
  decidable_of_iff ((s.name < 2 ^ 32 ∧ s.type < 2 ^ 32 ∧ s.link < 2 ^ 32 ∧ s.info < 2 ^ 32) ∧ s.flags < 256 ^ w ∧ s.addr < 256 ^ w ∧
    s.offset < 256 ^ w ∧ s.size < 256 ^ w ∧ s.align < 256 ^ w ∧ s.entsize < 256 ^ w) ⟨fun h => ⟨h.1, h.2⟩, fun h => ⟨h.word, h.addr⟩⟩

instance (w : Nat) (p : Phdr) : Decidable (p.Fits w) :=
  decidable_of_iff ((p.type < 2 ^ 32 ∧ p.flags < 2 ^ 32) ∧ p.offset < 256 ^ w ∧ p.vaddr < 256 ^ w ∧ p.paddr < 256 ^ w ∧
    p.filesz < 256 ^ w ∧ p.memsz < 256 ^ w ∧ p.align < 256 ^ w) ⟨fun h => ⟨h.1, h.2⟩, fun h => ⟨h.word, h.addr⟩⟩

instance (w : Nat) (s : Sym) : Decidable (s.Fits w) :=
  decidable_of_iff (s.name < 2 ^ 32 ∧ (s.info < 256 ∧ s.other < 256) ∧ s.shndx < 65536 ∧ s.value < 256 ^ w ∧ s.size < 256 ^ w)
    ⟨fun h => ⟨h.1, h.2.1, h.2.2.1, h.2.2.2⟩, fun h => ⟨h.name, h.byte, h.half, h.addr⟩⟩

theorem forall_get {α : Type} {P : Nat → α → Prop} (xs : List α) (h : ∀ i, (hi : i < xs.length) → P i xs[i]) (i : Nat) (x : α)
    (hx : xs[i]? = some x) : P i x := by
  obtain ⟨hi, rfl⟩ := List.getElem?_eq_some_iff.1 hx
  exact h i hi

/-- Section names and their string table. -/
def exNames : List (List Nat) :=
  [str "", str ".shstrtab", str ".debug_line", str ".debug_abbrev", str ".debug_info", str ".symtab", str ".strtab",
   str ".note.gnu.build-id"]
def exShstr : List Nat := exNames.flatMap fun n => n ++ [0]

/-- Symbol names: `main`, `foo.cold`, `f` (another name of `main`) and `x@plt`. -/
def exStr : List Nat := [0] ++ (str "main" ++ [0]) ++ (str "foo.cold" ++ [0]) ++ (str "f" ++ [0]) ++ (str "x@plt" ++ [0])

def exSyms : List (Sym × List Nat) :=
  [(⟨0, 0, 0, 0, 0, 0⟩, []), (⟨1, 0x12, 0, 1, 0x1000, 10⟩, str "main"), (⟨6, 0, 0, 1, 0x1010, 4⟩, str "foo.cold"),
   (⟨15, 0x22, 0, 1, 0x1000, 10⟩, str "f"), (⟨17, 0x12, 0, 1, 0x1020, 16⟩, str "x@plt")]
def exSymBytes : List Nat := exSyms.flatMap fun y => y.1.encode 8

def exNote : Note := ⟨[71, 78, 85, 0], [], [0xab, 0x01, 0xff], [0], 3⟩

def exLine := DwarfLine.exBytes
def exAbbr := InlineHandler.hxAbbrevBytes
def exInfo := InlineHandler.hxInfoBytes

/-- Contents of the sections, from offset 120 on. -/
def exConts : List (List Nat) := [exShstr, exLine, exAbbr, exInfo, exSymBytes, exStr, exNote.bytes]
def exOff (i : Nat) : Nat := 120 + ((exConts.take i).map List.length).sum

def exSecs : List (Shdr × List Nat) :=
  [(⟨0, 0, 0, 0, 0, 0, 0, 0, 0, 0⟩, str ""),
   (⟨1, 3, 0, 0, exOff 0, exShstr.length, 0, 0, 1, 0⟩, str ".shstrtab"),
   (⟨11, 1, 0, 0, exOff 1, exLine.length, 0, 0, 1, 0⟩, str ".debug_line"),
   (⟨23, 1, 0, 0, exOff 2, exAbbr.length, 0, 0, 1, 0⟩, str ".debug_abbrev"),
   (⟨37, 1, 0, 0, exOff 3, exInfo.length, 0, 0, 1, 0⟩, str ".debug_info"),
   (⟨49, 2, 0, 0, exOff 4, exSymBytes.length, 6, 1, 8, 24⟩, str ".symtab"),
   (⟨57, 3, 0, 0, exOff 5, exStr.length, 0, 0, 1, 0⟩, str ".strtab"),
   (⟨65, 7, 2, 0, exOff 6, exNote.bytes.length, 0, 0, 4, 0⟩, str ".note.gnu.build-id")]

def exSegs : List Phdr := [⟨6, 4, 64, 0x1040, 0x1040, 56, 56, 8⟩, ⟨1, 5, 0, 0x1000, 0x1000, 0x100, 0x100, 0x1000⟩]

def exEh : Ehdr := ⟨2, 62, 1, 0x1000, exOff 7 + 8 * 64, exOff 7, 0, 64, 56, 2, 64, 8, 1⟩

def exFile : List Nat :=
  [0x7f, 0x45, 0x4c, 0x46, 2, 1, 1, 0, 0, 0, 0, 0, 0, 0, 0, 0] ++ (exEh.encode 8 ++ (List.replicate 56 0 ++
  (exConts.flatten ++ (exSecs.flatMap (fun s => s.1.encode 8) ++ exSegs.flatMap fun p => p.encode 8))))

theorem exFile_elf : IsElf exFile 8 exEh exSecs exSegs 1 exShstr where
  class_ := .inr rfl
  ident := by decide +kernel
  header := by decide +kernel
  fits := ⟨by decide +kernel, by decide +kernel, by decide +kernel⟩
  type := by decide +kernel
  shoff := by decide +kernel
  sections := forall_get (P := fun i (s : Shdr × List Nat) =>
    At exFile (exEh.shoff + i * (if 8 = 8 then 64 else 40)) (s.1.encode 8) ∧ s.1.Fits 8) exSecs (by decide +kernel)
  segments := forall_get (P := fun i (p : Phdr) =>
    At exFile (exEh.phoff + i * (if 8 = 8 then 56 else 32)) (p.encode 8) ∧ p.Fits 8) exSegs (by decide +kernel)
  nsecs := .inl (by decide +kernel)
  nsegs := .inl (by decide +kernel)
  nstr := .inl (by decide +kernel)
  strtab := ⟨_, rfl, by decide +kernel, by decide +kernel⟩
  names := by
    have h : ∀ s ∈ exSecs, At exShstr s.1.name (s.2 ++ [0]) ∧ ∀ c ∈ s.2, c ≠ 0 := by decide +kernel
    exact fun s hs => strIn_of (h s hs).1 (h s hs).2
  small := by decide +kernel

def exPath : List Nat := str "a.out"

theorem exPath_opens : Opens exPath := by
  refine ⟨?_, by decide, by decide⟩
  rw [← hasSuffix_iff]
  decide

theorem exPath_dwp : (false : Bool) = true ↔ ∃ x, exPath = x ++ str ".dwp" := by
  rw [← hasSuffix_iff]
  decide

instance (name sh : List Nat) : Decidable (Named name sh) := decidable_of_iff _ (namesMatch_iff name sh)

/-- The debugging sections of the file are those of C65's example. -/
theorem exFile_debug : DebugOf exFile 8 exEh exSecs exSegs false exB where
  width := rfl
  vaddr := .inr (.inl ⟨by decide, [_], _, [], rfl, by decide, by decide, by decide⟩)
  line := ⟨2, _, ⟨⟨_, rfl, by decide⟩, forall_get _ (by decide)⟩, by decide +kernel, by decide +kernel, by decide +kernel⟩
  abbr := ⟨3, _, ⟨⟨_, rfl, by decide⟩, forall_get _ (by decide)⟩, by decide +kernel, by decide +kernel, by decide +kernel⟩
  info := ⟨4, _, ⟨⟨_, rfl, by decide⟩, forall_get _ (by decide)⟩, by decide +kernel, by decide +kernel, by decide +kernel⟩
  dstr := show ∀ s ∈ exSecs, _ from by decide
  ranges := show ∀ s ∈ exSecs, _ from by decide
  addr := show ∀ s ∈ exSecs, _ from by decide
  rnglists := show ∀ s ∈ exSecs, _ from by decide
  lineStr := show ∀ s ∈ exSecs, _ from by decide

/-- So the file has the inline stack of C65's example: `f` inlined in `m` at 0x1006. -/
theorem exFile_stack : ∃ p, prepareFile exPath (some exFile) = some (some p) ∧ ∃ cs fs, p.stack 0x1006 = some fs ∧
    0 ∈ cs ∧ 1 ∈ cs ∧ Inline.IsStack p.info ⟨[], [99, 46, 104], 8, 3⟩ cs fs := by
  obtain ⟨p, h1, cs, fs, h2, h3, h4, _, h5⟩ := exB_stack
  refine ⟨p, ?_, cs, fs, h2, h3, h4, h5⟩
  unfold prepareFile
  rw [sections_of_file exFile_elf exPath exPath_opens false exPath_dwp exB exFile_debug, Option.bind_some]
  simp only
  rw [h1]
  rfl

instance (bs : List Nat) (s : Shdr) (c : List Nat) : Decidable (Contents bs s c) := by unfold Contents; infer_instance

deriving instance DecidableEq for SymMap, Note

theorem exSyms_of : SymsOf exFile 8 exSecs 2 exSyms exStr := by
  refine .inl ⟨5, _, exSymBytes, rfl, by decide, forall_get _ (by decide), by decide +kernel, by decide, by decide +kernel, by decide +kernel,
    by decide, ⟨_, by decide, rfl, by decide +kernel⟩, ?_⟩
  have h : ∀ i, (hi : i < exSyms.length) → At exSymBytes (i * 24) (exSyms[i].1.encode 8) ∧ exSyms[i].1.Fits 8 ∧
      (exSyms[i].1.name ≠ 0 → At exStr exSyms[i].1.name (exSyms[i].2 ++ [0]) ∧ ∀ c ∈ exSyms[i].2, c ≠ 0) := by decide +kernel
  exact forall_get _ fun i hi => ⟨(h i hi).1, (h i hi).2.1, fun hz => strIn_of ((h i hi).2.2 hz).1 ((h i hi).2.2 hz).2⟩

theorem exDyn_of : SymsOf exFile 8 exSecs 11 [] [] := .inr ⟨by decide, rfl⟩

theorem exShort : ShortOk exStr exSyms := by
  unfold ShortOk
  decide

/-- The symbol map of the file: `main` with the other name `f`, and `foo.cold`. -/
theorem exFile_symbols : ∃ m, buildSymbolMap exPath (some exFile) = some m ∧
    m.map = [(0x1000, toName (str "main"), 10), (0x1010, toName (str "foo.cold"), 4)] ∧
    m.aliases = [(toName (str "main"), toName (str "f"))] := by
  refine ⟨⟨[(0x1000, toName (str "main"), 10), (0x1010, toName (str "foo.cold"), 4)], [(toName (str "main"), toName (str "f"))]⟩, ?_, rfl, rfl⟩
  decide +kernel

/-- `symbol_map_built_partial` applies to the file, and says the same. -/
theorem exFile_symbols_spec : ∃ m, buildSymbolMap exPath (some exFile) = some m ∧
    (0x1000, toName (str "main"), 10) ∈ m.map ∧ (toName (str "main"), toName (str "f")) ∈ m.aliases := by
  obtain ⟨m, h1, _, h3, h4⟩ := symbol_map_built_partial exFile_elf exPath exPath_opens exSyms [] exStr [] exSyms_of exDyn_of exShort
    (fun y hy => by cases hy)
  have hmain : Kept (⟨1, 0x12, 0, 1, 0x1000, 10⟩, str "main") := by
    refine ⟨by decide, .inr ⟨by decide, .inl (by decide), ?_⟩⟩
    rw [← hasSuffix_iff]
    decide
  have hf : Kept (⟨15, 0x22, 0, 1, 0x1000, 10⟩, str "f") := by
    refine ⟨by decide, .inr ⟨by decide, .inl (by decide), ?_⟩⟩
    rw [← hasSuffix_iff]
    decide
  have hfirst : FirstAt exEh [(⟨0, 0, 0, 0, 0, 0⟩, [])] (⟨1, 0x12, 0, 1, 0x1000, 10⟩, str "main") := by
    intro z hz hk
    rw [List.mem_singleton] at hz
    subst hz
    exact absurd rfl hk.1
  refine ⟨m, h1, (h3 _ _ _).2 ⟨[_], _, _, rfl, hmain, hfirst, by decide, rfl, rfl⟩,
    (h4 _ _).2 ⟨[_], _, [_], _, [_], rfl, hmain, hf, hfirst, by decide, rfl, rfl⟩⟩

/-- The functions of the file do not overlap: `function_at_partial` applies. -/
theorem exFile_function : ∃ m, buildSymbolMap exPath (some exFile) = some m ∧
    AddrLookup.symbolInfo m.map 0x1006 = some (toName (str "main"), 0x1000, 0x100a) := by
  have hno : ∀ y ∈ exSyms ++ [], ∀ z ∈ exSyms ++ [], Kept y → Kept z → addrOf exEh y.1 < addrOf exEh z.1 →
      addrOf exEh y.1 + y.1.size ≤ addrOf exEh z.1 := by
    have h : ∀ y ∈ exSyms ++ [], ∀ z ∈ exSyms ++ [], addrOf exEh y.1 < addrOf exEh z.1 →
      addrOf exEh y.1 + y.1.size ≤ addrOf exEh z.1 := by decide +kernel
    exact fun y hy z hz _ _ => h y hy z hz
  obtain ⟨m, h1, h2⟩ := function_at_partial exFile_elf exPath exPath_opens exSyms [] exStr [] exSyms_of exDyn_of exShort
    (fun y hy => by cases hy) hno
  refine ⟨m, h1, (h2 _ _ _ _).2 ⟨[_], (⟨1, 0x12, 0, 1, 0x1000, 10⟩, str "main"), _, rfl, ⟨by decide, .inr ⟨by decide, .inl (by decide), ?_⟩⟩,
    ?_, rfl, by decide, by decide, by decide, by decide⟩⟩
  · rw [← hasSuffix_iff]
    decide
  · intro z hz hk
    rw [List.mem_singleton] at hz
    subst hz
    exact absurd rfl hk.1

/-- The executable segment of the file. -/
theorem exFile_segments : ∃ l, loadableSegs exPath (some exFile) false = some l ∧ AddrLookup.staticVaddr l (0 + 5) = some (0x1000 + 5) ∧
    AddrLookup.fileOffset l (0x1000 + 5) none = some (0 + 5) :=
  exec_addresses exFile_elf exPath exPath_opens (by decide) (by decide) ⟨1, 5, 0, 0x1000, 0x1000, 0x100, 0x100, 0x1000⟩ (by decide)
    (by decide) 5 (by decide)

theorem exFile_notes : NotesOf exFile exSecs [[], [], [], [], [], [], [], [exNote]] := by
  have hn : (∀ n ∈ ([] : List Note), n.Ok) := fun n h => by cases h
  have hone : ∀ n ∈ [exNote], n.Ok := by
    intro n h
    rw [List.mem_singleton] at h
    subst h
    exact ⟨by decide, by decide, by decide⟩
  unfold NotesOf exSecs
  repeat' first
    | exact List.Forall₂.nil
    | refine List.Forall₂.cons ⟨fun h => absurd h (by decide), fun _ => rfl, hn⟩ ?_
    | refine List.Forall₂.cons ⟨fun _ => ?_, fun h => absurd rfl h, hone⟩ ?_
  exact ⟨by decide +kernel, by decide +kernel, by decide +kernel⟩

/-- The build id of the file. -/
theorem exFile_build_id : buildId exPath (some exFile) = some (str "ab01ff") ∧
    ∃ s, buildId exPath (some exFile) = some s ∧ s.length = 6 := by
  refine ⟨by decide +kernel, ?_⟩
  obtain ⟨s, h1, h2, _⟩ := (build_id_read exFile_elf exPath exPath_opens _ exFile_notes).1 [] exNote [] (by decide) (by decide) (by simp) (by decide)
  exact ⟨s, h1, h2⟩

/-! ## Departures -/

/-- An empty section at a page boundary cannot be asked for: `mmap` of nothing is fatal. -/
theorem empty_section_fatal (h : IsElf bs w eh secs segs k names) (path : List Nat) (ho : Opens path) (dwp : Bool)
    (hd : dwp = true ↔ ∃ x, path = x ++ str ".dwp") (name : List Nat) (i : Nat) (s : Shdr) (hc : Chosen dwp secs name i s)
    (hik : i ≠ k) (hz : s.size = 0 ∧ s.offset % 4096 = 0) : sectionByName path (some bs) name = none := by
  have hdwp : hasSuffix path (str ".dwp") = dwp := by
    rw [Bool.eq_iff_iff, hasSuffix_iff, hd]
  obtain ⟨first, h1, h2, _, h3⟩ := h.reader_ok path
  rw [hdwp] at h1
  have hf := find_good (dwp := dwp) h h2 h3 name _ (order_lt (dwp := dwp))
  have he : sectionByName path (some bs) name =
      (Reader.good bs w dwp eh secs segs first).contentsByName name := by
    unfold sectionByName
    rw [openFile_ok ho]
    simp only
    rw [h1]
    rfl
  rw [he]
  unfold Reader.contentsByName
  rw [order_eq h2, hf, find_chosen hc, Option.bind_some]
  obtain ⟨⟨n, hi, _⟩, _⟩ := hc
  simp only
  unfold Reader.section
  show Option.map some (if i < numSecs eh first then _ else none) = none
  rw [h2, if_pos (List.getElem?_eq_some_iff.1 hi).1, shdr_good, hi, Option.map_some, Option.bind_some]
  show Option.map some (if i = strIdx eh first then _ else _) = none
  rw [if_neg (by rw [h3]; exact hik), h.strtab_ok h2 h3, Option.bind_some]
  have : (Reader.good bs w dwp eh secs segs first).mapped s = none := by
    unfold Reader.mapped
    rw [if_pos (by omega)]
  split
  · rw [this]; rfl
  · rfl

/-- A file with segments but no section headers (as `sstrip` leaves it): asking for the segments dereferences a null pointer. -/
def exNoSections : List Nat :=
  [0x7f, 0x45, 0x4c, 0x46, 2, 1, 1, 0, 0, 0, 0, 0, 0, 0, 0, 0] ++ (Ehdr.encode 8 ⟨2, 62, 1, 0x1000, 64, 0, 0, 64, 56, 1, 64, 0, 0⟩ ++
  Phdr.encode 8 ⟨1, 5, 0, 0x1000, 0x1000, 0x100, 0x100, 0x1000⟩)

theorem no_sections_null : segmentInfo exPath (some exNoSections) = none ∧ vaddrOfFirstLoad exPath (some exNoSections) = none ∧
    sectionByName exPath (some exNoSections) (str ".text") = some none := by decide +kernel

/-- With more than 65534 program headers but less than 65280 sections the number of program headers is taken to be 65535. -/
theorem many_segments_violated (eh : Ehdr) (first : Shdr) (h : eh.shnum ≠ 0) (hp : eh.phnum = 0xffff) : numPhs eh first = 65535 := by
  unfold numPhs
  rw [if_neg (by omega), hp]

/-- A function named `f` at the very start of the string table: the comparison with `@plt` starts before the table. -/
theorem short_name_violated : wanted ⟨[0] ++ str "f" ++ [0], 1, 0x1000, 8, 1, 2, 1⟩ = none := by decide +kernel

/-- A function named `t` that shares its name with the end of `x@plt` is dropped. -/
theorem shared_name_violated : wanted ⟨[0] ++ str "x@plt" ++ [0], 5, 0x1000, 8, 1, 2, 1⟩ = some false ∧
    Kept (⟨5, 0x12, 0, 1, 0x1000, 8⟩, str "t") := by
  refine ⟨by decide +kernel, by decide, .inr ⟨by decide, .inl (by decide), ?_⟩⟩
  rw [← hasSuffix_iff]
  decide

/-- In a symbol table of more than 4 GiB, symbols are read at an offset without its upper half. -/
theorem big_symtab_violated (r : Reader) (filter : View → Option Bool) (bind type : Option Nat) (raw : Bool) (c t : List Nat) :
    r.visitOne filter bind type raw c t 24 178956971 = r.visitOne filter bind type raw c t 8 1 := by
  unfold Reader.visitOne
  rfl

/-- A build id of more than 20 bytes is ignored. -/
theorem long_build_id_ignored (n : Note) (h : 20 < n.desc.length) (hok : n.Ok) : noteIds n.bytes.length n.bytes = some [] := by
  have := noteIds_ok [n] (by simpa using hok) n.bytes.length (by simp)
  simp only [List.flatMap_cons, List.flatMap_nil, List.append_nil] at this
  rw [this, List.filter_cons_of_neg]
  · rfl
  · simp only [decide_eq_true_eq]
    rintro ⟨_, _, h3⟩
    omega

end Verif.Elf

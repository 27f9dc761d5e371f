import Verif.DwarfLine

/-! # C62: debugging information entries (util/symbolize/dwarf2reader.cc, class `CompilationUnit`)

Bytes are natural numbers below 256.  A position is modelled by the list of bytes from the position to the end
of the section.  `none` stands for a failed `CHECK`, a `LOG(FATAL)`, an exception and undefined behaviour
(reading past the end of a section).  Not modelled: split DWARF (`.dwo` and `.dwp` files), that is
`is_split_dwarf_ = false` and lines 591-599 are left out; the handler does not change the address and offset
sizes of the shared `ByteReader`.  (It reads the line table of the unit with it, and DWARF forbids mixing the
32-bit and 64-bit formats within a unit.) -/
namespace Verif.DwarfInfo
open Verif.ByteReader
open Verif.DwarfLine (cstr)

/-- `struct AttributeSpec` (dwarf2reader.h:47-52). -/
structure Spec where
  name : Nat
  form : Nat
  value : Nat
deriving DecidableEq, Repr

/-- `struct Abbrev` (dwarf2reader.h:522-527); the number is the position in the table. -/
structure Abbrev where
  tag : Nat
  children : Bool
  attrs : List Spec
deriving DecidableEq, Repr

/-- The attributes of an abbreviation (dwarf2reader.cc:134-158) and what follows them. -/
def readSpecs (bs : List Nat) : Option (List Spec × List Nat) := do
  let (n, l1) ← readU bs
  let (f, l2) ← readU (bs.drop l1)
  let rest := (bs.drop l1).drop l2
  if n % 2 ^ 32 = 0 ∧ f % 2 ^ 32 = 0 then some ([], rest)
  else if f % 2 ^ 32 = 0x21 then
    let (v, l3) ← readU rest
    let (ss, rest) ← readSpecs (rest.drop l3)
    some ({ name := n % 2 ^ 32, form := f % 2 ^ 32, value := v % 2 ^ 32 } :: ss, rest)
  else
    let (ss, rest) ← readSpecs rest
    some ({ name := n % 2 ^ 32, form := f % 2 ^ 32, value := 0 } :: ss, rest)
partial_fixpoint

/-- `ReadAbbrevs` (dwarf2reader.cc:93-164) from the position of the unit's abbreviations; `next` is the number
that the next abbreviation must have (line 160).  The result starts with number `next`. -/
def readAbbrevs (next : Nat) (bs : List Nat) : Option (List Abbrev) := do
  let (n, l1) ← readU bs
  if n % 2 ^ 32 = 0 then some []
  else
    let (t, l2) ← readU (bs.drop l1)
    let c ← ((bs.drop l1).drop l2).head?
    let (ss, rest) ← readSpecs (((bs.drop l1).drop l2).drop 1)
    if n % 2 ^ 32 = next then
      let as ← readAbbrevs (next + 1) rest
      some ({ tag := t % 2 ^ 32, children := decide (c ≠ 0), attrs := ss } :: as)
    else none
partial_fixpoint

/-- What a `CompilationUnit` knows while it reads entries: byte order, address and offset size of the reader,
`header_.version`, and the sections for strings and addresses (`none`: NULL). -/
structure Ctx where
  endian : Endian
  addrSize : Nat
  offSize : Nat
  version : Nat
  str : Option (List Nat)
  lineStr : Option (List Nat)
  strOffsets : Option (List Nat)
  addr : Option (List Nat)

/-- The value of an attribute as the handler gets it: the calls `ProcessAttributeUnsigned`,
`ProcessAttributeSigned`, `ProcessAttributeString` and `ProcessAttributeBuffer`.  A string can be NULL. -/
inductive Val where
  | u (v : Nat)
  | s (v : Int)
  | str (v : Option (List Nat))
  | block (v : List Nat)
deriving DecidableEq, Repr

/-- `class Dwarf2Handler` (dwarf2reader.h:346-446) with its state `σ`. -/
structure Handler (σ : Type) where
  /-- `StartCompilationUnit`: offset, address size, offset size, length, version. -/
  startUnit : σ → Nat → Nat → Nat → Nat → Nat → Option (σ × Bool)
  /-- `StartDIE`: offset, tag, attributes. -/
  startDie : σ → Nat → Nat → List Spec → Option (σ × Bool)
  /-- `ProcessAttribute*`: offset, attribute, form, value. -/
  attr : σ → Nat → Nat → Nat → Val → Option σ
  /-- `EndDIE`: offset. -/
  endDie : σ → Nat → Option σ
  /-- `get_str_offset_base`, `get_addr_base`, `set_str_offset_base`, `set_addr_base`. -/
  strBase : σ → Nat
  addrBase : σ → Nat
  setStrBase : σ → Nat → σ
  setAddrBase : σ → Nat → σ

/-- `DW_FORM_indirect` (dwarf2reader.cc:183-187 and 615-619): the form that remains and the bytes read. -/
def resolveForm (form : Nat) (bs : List Nat) : Option (Nat × Nat) :=
  if form = 0x16 then do
    let (f, l) ← readU bs
    let (f', n) ← resolveForm (f % 2 ^ 32) (bs.drop l)
    some (f', l + n)
  else some (form, 0)
partial_fixpoint

/-- `SkipAttribute` (dwarf2reader.cc:178-279) for a form that is not indirect: the bytes skipped. -/
def skipForm (cx : Ctx) (form : Nat) (bs : List Nat) : Option Nat :=
  if form ∈ [0x21, 0x19] then some 0
  else if form ∈ [0x0b, 0x0c, 0x11, 0x25, 0x29] then some 1
  else if form ∈ [0x12, 0x05, 0x26, 0x2a] then some 2
  else if form ∈ [0x27, 0x2b] then some 3
  else if form ∈ [0x13, 0x06, 0x28, 0x2c, 0x1c] then some 4
  else if form ∈ [0x14, 0x20, 0x07, 0x24] then some 8
  else if form = 0x1e then some 16
  else if form = 0x08 then (cstr bs).map fun r => r.1.length + 1
  else if form ∈ [0x0f, 0x15, 0x1f02, 0x1f01, 0x1a, 0x1b, 0x22, 0x23] then (readU bs).map fun r => r.2
  else if form = 0x0d then (readS bs).map fun r => r.2
  else if form = 0x01 then some cx.addrSize
  else if form = 0x10 then some (if cx.version = 2 then cx.addrSize else cx.offSize)
  else if form = 0x0a then (readFixed cx.endian 1 bs).map fun n => 1 + n
  else if form = 0x03 then (readFixed cx.endian 2 bs).map fun n => 2 + n
  else if form = 0x04 then (readFixed cx.endian 4 bs).map fun n => 4 + n
  else if form ∈ [0x09, 0x18] then (readU bs).map fun r => r.1 + r.2
  else if form ∈ [0x0e, 0x1d, 0x17] then some cx.offSize
  else none

/-- `SkipAttribute` (dwarf2reader.cc:178-279). -/
def skipAttr (cx : Ctx) (form : Nat) (bs : List Nat) : Option Nat := do
  let (f, l) ← resolveForm form bs
  let n ← skipForm cx f (bs.drop l)
  some (l + n)

/-- `SkipDIE` (dwarf2reader.cc:167-175): the position after the attributes and the bytes skipped. -/
def skipAttrs (cx : Ctx) : List Spec → List Nat → Option Nat
  | [], _ => some 0
  | a :: as, bs => do
    let n ← skipAttr cx a.form bs
    let m ← skipAttrs cx as (bs.drop n)
    some (n + m)

/-- `get_string_with_offsets` (index_helper.cc:7-16) and reading the string at the pointer; NULL when the offset
is outside the section. -/
def strAt (buf : List Nat) (off : Nat) : Option (Option (List Nat)) :=
  if buf.length ≤ off then some none else (cstr (buf.drop off)).map fun r => some r.1

/-- The string with an index (dwarf2reader.cc:753-792): the entry of the table of offsets
(`get_offset_pointer_in_str_offsets_table`, index_helper.cc:18-35), then the string. -/
def strIndex (cx : Ctx) (base i : Nat) : Option (Option (List Nat)) := do
  let str ← cx.str
  let tab ← cx.strOffsets
  let pos := if cx.version < 5 then i * cx.offSize % 2 ^ 64 else (base + i * cx.offSize) % 2 ^ 64
  let off ← readFixed cx.endian cx.offSize (tab.drop pos)
  strAt str off

/-- The address with an index (dwarf2reader.cc:838-843, `get_address_pointer_from_address_table`,
index_helper.cc:37-42). -/
def addrIndex (cx : Ctx) (base i : Nat) : Option Nat := do
  let tab ← cx.addr
  readFixed cx.endian cx.addrSize (tab.drop ((base + i * cx.addrSize) % 2 ^ 64))

/-- A block of data of a given length at a position. -/
def blockAt (n : Nat) (bs : List Nat) : Option Val := if n ≤ bs.length then some (.block (bs.take n)) else none

/-- `ProcessAttribute` (dwarf2reader.cc:607-859) for a form that is not indirect: the value the handler is
called with (`none`: no call) and the bytes consumed.  `value` is the constant of the abbreviation, `sb` and
`ab` are the handler's bases.  In the `addrx` forms the pointer is always advanced by one (line 845), and in
`addrx2` the index read is lost in a variable of the inner block (line 819). -/
def formVal (cx : Ctx) (sb ab form value : Nat) (bs : List Nat) : Option (Option Val × Nat) :=
  let num (n : Nat) : Option (Option Val × Nat) := (readFixed cx.endian n bs).map fun v => (some (.u v), n)
  if form = 0x19 then some (some (.u 1), 0)
  else if form ∈ [0x0b, 0x0c, 0x11] then num 1
  else if form ∈ [0x12, 0x05] then num 2
  else if form ∈ [0x13, 0x06] then num 4
  else if form ∈ [0x14, 0x20, 0x07] then num 8
  else if form = 0x1e then some (none, 16)
  else if form = 0x08 then (cstr bs).map fun r => (some (.str (some r.1)), r.1.length + 1)
  else if form ∈ [0x0f, 0x15] then (readU bs).map fun r => (some (.u r.1), r.2)
  else if form = 0x0d then (readS bs).map fun r => (some (.s r.1), r.2)
  else if form = 0x01 then num cx.addrSize
  else if form = 0x10 then if cx.version = 2 then num cx.addrSize else num cx.offSize
  else if form = 0x17 then num cx.offSize
  else if form = 0x0a then do
    let n ← readFixed cx.endian 1 bs
    let b ← blockAt n (bs.drop 1)
    some (some b, 1 + n)
  else if form = 0x03 then do
    let n ← readFixed cx.endian 2 bs
    let b ← blockAt n (bs.drop 2)
    some (some b, 2 + n)
  else if form = 0x04 then do
    let n ← readFixed cx.endian 4 bs
    let b ← blockAt n (bs.drop 4)
    some (some b, 4 + n)
  else if form ∈ [0x09, 0x18] then do
    let (n, l) ← readU bs
    let b ← blockAt n (bs.drop l)
    some (some b, n + l)
  else if form = 0x1f then do
    let buf ← cx.lineStr
    let off ← readFixed cx.endian cx.offSize bs
    let s ← strAt buf off
    some (some (.str s), cx.offSize)
  else if form = 0x0e then do
    let buf ← cx.str
    let off ← readFixed cx.endian cx.offSize bs
    let s ← strAt buf off
    some (some (.str s), cx.offSize)
  else if form = 0x25 then do
    let i ← readFixed cx.endian 1 bs
    let s ← strIndex cx sb i
    some (some (.str s), 1)
  else if form = 0x26 then do
    let i ← readFixed cx.endian 2 bs
    let s ← strIndex cx sb i
    some (some (.str s), 2)
  else if form = 0x27 then do
    let i ← readFixed cx.endian 3 bs
    let s ← strIndex cx sb i
    some (some (.str s), 3)
  else if form = 0x28 then do
    let i ← readFixed cx.endian 4 bs
    let s ← strIndex cx sb i
    some (some (.str s), 4)
  else if form ∈ [0x1a, 0x1f02] then do
    let (i, l) ← readU bs
    let s ← strIndex cx sb i
    some (some (.str s), l)
  else if form = 0x23 then (readU bs).map fun r => (some (.u r.1), r.2)
  else if form = 0x29 then do
    let i ← readFixed cx.endian 1 bs
    let a ← addrIndex cx ab i
    some (some (.u a), 1)
  else if form = 0x2a then do
    let a ← addrIndex cx ab 0
    some (some (.u a), 1)
  else if form = 0x2b then do
    let i ← readFixed cx.endian 3 bs
    let a ← addrIndex cx ab i
    some (some (.u a), 1)
  else if form = 0x2c then do
    let i ← readFixed cx.endian 4 bs
    let a ← addrIndex cx ab i
    some (some (.u a), 1)
  else if form ∈ [0x1b, 0x1f01] then do
    let (i, _) ← readU bs
    let a ← addrIndex cx ab i
    some (some (.u a), 1)
  else if form = 0x21 then if cx.version = 5 then some (some (.s value), 0) else none
  else none

/-- `ProcessAttribute` (dwarf2reader.cc:607-859): the new state of the handler and the bytes consumed.  The
constant is not passed through an indirect form (line 619). -/
def processAttr {σ : Type} (H : Handler σ) (cx : Ctx) (off : Nat) (a : Spec) (bs : List Nat) (s : σ) :
    Option (σ × Nat) := do
  let (f, l) ← resolveForm a.form bs
  let (v, n) ← formVal cx (H.strBase s) (H.addrBase s) f (if a.form = 0x21 then a.value else 0) (bs.drop l)
  match v with
  | none => some (s, l + n)
  | some v =>
    let s ← H.attr s off a.name f v
    some (s, l + n)

/-- `ProcessDIE` (dwarf2reader.cc:870-896). -/
def processAttrs {σ : Type} (H : Handler σ) (cx : Ctx) (off : Nat) : List Spec → List Nat → σ → Option (σ × Nat)
  | [], _, s => some (s, 0)
  | a :: as, bs, s => do
    let (s, n) ← processAttr H cx off a bs s
    let (s, m) ← processAttrs H cx off as (bs.drop n) s
    some (s, n + m)

/-- The attributes of an entry, processed or skipped (dwarf2reader.cc:937-946). -/
def dieAttrs {σ : Type} (H : Handler σ) (cx : Ctx) (off : Nat) (wanted : Bool) (as : List Spec) (bs : List Nat)
    (s : σ) : Option (σ × Nat) :=
  if wanted then processAttrs H cx off as bs s else (skipAttrs cx as bs).map fun n => (s, n)

/-- `ProcessDIEs` (dwarf2reader.cc:898-953): `rem` bytes up to the end of the unit, at offset `off` of the section,
`open_` is `die_stack`.  The result is the state of the handler; entries still open are never ended. -/
def dies {σ : Type} (H : Handler σ) (cx : Ctx) (abbrevs : List Abbrev) (rem off : Nat) (bs : List Nat)
    (open_ : List Nat) (s : σ) : Option σ :=
  if rem = 0 then some s
  else
    match readU bs with
    | none => none
    | some (num, len) =>
      if num = 0 then
        match open_ with
        | [] => dies H cx abbrevs (rem - len) (off + len) (bs.drop len) [] s
        | o :: os =>
          match H.endDie s o with
          | none => none
          | some s => dies H cx abbrevs (rem - len) (off + len) (bs.drop len) os s
      else
        match abbrevs[num - 1]? with
        | none => none
        | some a =>
          match H.startDie s off a.tag a.attrs with
          | none => none
          | some (s, w) =>
            match dieAttrs H cx off w a.attrs (bs.drop len) s with
            | none => none
            | some (s, n) =>
              if a.children then
                dies H cx abbrevs (rem - (len + n)) (off + (len + n)) ((bs.drop len).drop n) (off :: open_) s
              else
                match H.endDie s off with
                | none => none
                | some s => dies H cx abbrevs (rem - (len + n)) (off + (len + n)) ((bs.drop len).drop n) open_ s
partial_fixpoint

/-- The fields of `struct CompilationUnitHeader` (dwarf2reader.h:532-541), the offset size of the reader, and the
number of bytes of the header. -/
structure UHdr where
  length : Nat
  version : Nat
  abbrevOff : Nat
  addrSize : Nat
  offSize : Nat
  size : Nat
deriving DecidableEq, Repr

/-- `ReadHeader` (dwarf2reader.cc:361-437) with `ReadAddressSize` (439-452) and `ReadAbbrevOffset` (454-462);
`some none`: malformed. -/
def readHeader (e : Endian) (buf : List Nat) : Option (Option UHdr) :=
  if buf.length ≤ 4 then some none
  else
    match readInitialLength e buf with
    | none => none
    | some (length, il, offSize) =>
      if length = 0 ∨ buf.length ≤ il + 2 then some none
      else
        match readFixed e 2 (buf.drop il) with
        | none => none
        | some version =>
          if version < 2 ∨ 5 < version then some none
          else if version = 5 then
            if buf.length ≤ il + 3 then some none
            else
              match (buf.drop (il + 2)).head? with
              | none => none
              | some ut =>
                if ut ∉ [0x01, 0x04, 0x05] then some none
                else if buf.length ≤ il + 4 then some none
                else
                  match (buf.drop (il + 3)).head? with
                  | none => none
                  | some addrSize =>
                    if addrSize ≠ 4 ∧ addrSize ≠ 8 then some none
                    else if buf.length ≤ il + 4 + offSize then some none
                    else
                      match readFixed e offSize (buf.drop (il + 4)) with
                      | none => none
                      | some ao =>
                        if buf.length < il + length then some none
                        else some (some ⟨length, version, ao, addrSize, offSize,
                          il + 4 + offSize + (if ut = 0x04 ∨ ut = 0x05 then 8 else 0)⟩)
          else if buf.length ≤ il + 2 + offSize then some none
          else
            match readFixed e offSize (buf.drop (il + 2)) with
            | none => none
            | some ao =>
              if buf.length ≤ il + 3 + offSize then some none
              else
                match (buf.drop (il + 2 + offSize)).head? with
                | none => none
                | some addrSize =>
                  if addrSize ≠ 4 ∧ addrSize ≠ 8 then some none
                  else if buf.length < il + length then some none
                  else some (some ⟨length, version, ao, addrSize, offSize, il + 3 + offSize⟩)

/-- The sections of the file that are used (legacy_addr2line.cc:94-97); `none`: absent. -/
structure Secs where
  info : List Nat
  abbr : Option (List Nat)
  str : Option (List Nat)
  lineStr : Option (List Nat)
  strOffsets : Option (List Nat)
  addr : Option (List Nat)

/-- `ReadDebugOffsetTableHeader` (dwarf2reader.cc:282-313): the base and the offset size the reader is left with;
`some none`: malformed.  It also reads past the end of a section shorter than the header. -/
def strOffsetsHeader (e : Endian) (version : Nat) (tab : List Nat) : Option (Option (Nat × Nat)) :=
  if tab.length ≤ 4 then some none
  else
    match readInitialLength e tab with
    | none => none
    | some (_, il, offSize) =>
      match readFixed e 2 (tab.drop il) with
      | none => none
      | some v => if v ≠ version then some none else some (some (il + 4, offSize))

/-- `ReadDebugAddressTableHeader` (dwarf2reader.cc:315-354), likewise. -/
def addrHeader (e : Endian) (version addrSize : Nat) (tab : List Nat) : Option (Option (Nat × Nat)) :=
  if tab.length ≤ 4 then some none
  else
    match readInitialLength e tab with
    | none => none
    | some (_, il, offSize) =>
      match readFixed e 2 (tab.drop il) with
      | none => none
      | some v =>
        if v ≠ version then some none
        else
          match (tab.drop (il + 2)).head? with
          | none => none
          | some w => if w ≠ addrSize then some none else some (some (il + 4, offSize))

/-- The string offsets section (dwarf2reader.cc:557-571): the state of the handler and the offset size;
`some none`: malformed. -/
def useStrOffsets {σ : Type} (H : Handler σ) (e : Endian) (version offSize : Nat) (tab : Option (List Nat)) (s : σ) :
    Option (Option (σ × Nat)) :=
  match tab with
  | none => some (some (s, offSize))
  | some tab =>
    if version = 5 then
      match strOffsetsHeader e version tab with
      | none => none
      | some none => some none
      | some (some (b, o)) => some (some (H.setStrBase s b, o))
    else some (some (s, offSize))

/-- The address section (dwarf2reader.cc:573-587), likewise. -/
def useAddr {σ : Type} (H : Handler σ) (e : Endian) (version addrSize offSize : Nat) (tab : Option (List Nat)) (s : σ) :
    Option (Option (σ × Nat)) :=
  match tab with
  | none => some (some (s, offSize))
  | some tab =>
    if version = 5 then
      match addrHeader e version addrSize tab with
      | none => none
      | some none => some none
      | some (some (b, o)) => some (some (H.setAddrBase s b, o))
    else some (some (s, offSize))

/-- `Start` (dwarf2reader.cc:494-602): reads the unit at an offset.  The result is the state of the handler and
the length of the unit (`none`: malformed). -/
def readUnit {σ : Type} (H : Handler σ) (e : Endian) (secs : Secs) (off : Nat) (s : σ) : Option (σ × Option Nat) :=
  match readHeader e (secs.info.drop off) with
  | none => none
  | some none => some (s, none)
  | some (some h) =>
    match H.startUnit s off h.addrSize h.offSize h.length h.version with
    | none => none
    | some (s, wanted) =>
      let ours := h.length + (if h.offSize = 8 then 12 else 4)
      if !wanted then some (s, some ours)
      else
        match secs.abbr with
        | none => none
        | some ab =>
          match readAbbrevs 1 (ab.drop h.abbrevOff) with
          | none => none
          | some abbrevs =>
            match useStrOffsets H e h.version h.offSize secs.strOffsets s with
            | none => none
            | some none => some (s, none)
            | some (some (s, o1)) =>
              match useAddr H e h.version h.addrSize o1 secs.addr s with
              | none => none
              | some none => some (s, none)
              | some (some (s, o2)) =>
                let cx : Ctx := ⟨e, h.addrSize, o2, h.version, secs.str, secs.lineStr, secs.strOffsets, secs.addr⟩
                match dies H cx abbrevs ((if o2 = 8 then 12 else 4) + h.length - h.size) (off + h.size)
                    (secs.info.drop (off + h.size)) [] s with
                | none => none
                | some s => some (s, some ours)

/-- The loop over the units of `.debug_info` (legacy_addr2line.cc:140-160). -/
def readInfo {σ : Type} (H : Handler σ) (e : Endian) (secs : Secs) (pos : Nat) (s : σ) : Option σ :=
  if secs.info.length ≤ pos then some s
  else
    match readUnit H e secs pos s with
    | none => none
    | some (s, none) => some s
    | some (s, some n) => readInfo H e secs (pos + n) s
partial_fixpoint

end Verif.DwarfInfo

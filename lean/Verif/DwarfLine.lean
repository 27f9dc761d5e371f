import Verif.ByteReader

/-! # C58: DWARF line number programs (util/symbolize/dwarf2reader.cc, class `LineInfo`)

Bytes are natural numbers below 256.  Positions are modelled by the list of bytes from the position to the
end of the buffer.  The experimental two-level line tables (version 0xf006) are in `TwoLevelProg`; here the
`logicals` argument is always NULL; pointers do not wrap around. -/
namespace Verif.DwarfLine
open Verif.ByteReader

/-- `struct LineStateMachine` (line_state_machine.h:21-47) without `context` and `subprog_num`, which are
only used by two-level tables.  `address` and `line` are 64-bit, `file`, `column` and `discr` 32-bit. -/
structure Lsm where
  address : Nat
  line : Nat
  file : Nat
  column : Nat
  discr : Nat
  isStmt : Bool
  basicBlock : Bool
  endSeq : Bool
deriving DecidableEq, Repr

/-- `LineStateMachine::Reset` (line_state_machine.h:22-33). -/
def Lsm.reset (defaultIsStmt : Bool) : Lsm :=
  { address := 0, line := 1, file := 1, column := 0, discr := 0, isStmt := defaultIsStmt,
    basicBlock := false, endSeq := false }

/-- The fields of `struct LineInfoHeader` (dwarf2reader.h:69-100) that the line program depends on, with
the byte order and address size of the reader.  `stdLens` is `std_opcode_lengths`, indexed by opcode
(entry 0 is unused). -/
structure Hdr where
  endian : Endian
  addrSize : Nat
  minInsn : Nat
  defaultIsStmt : Bool
  lineBase : Int
  lineRange : Nat
  opcodeBase : Nat
  stdLens : List Nat
deriving DecidableEq

/-- Calls of the handler: `AddLine` (all arguments but the address are `uint32`), `DefineDir`,
`DefineFile`; `index` is the third argument of `DefineFile` (-1 from a line program). -/
inductive Ev where
  | line (address file line column discr : Nat) (endSeq : Bool)
  | dir (name : List Nat) (index : Nat)
  | file (name : List Nat) (index : Int) (dirIndex mtime length : Nat)
deriving DecidableEq, Repr

/-- Adding a signed amount to an unsigned 64-bit word. -/
def addInt64 (w : Nat) (d : Int) : Nat := (((w : Int) + d) % 2 ^ 64).toNat

/-- The bytes of a NUL-terminated string at a position and what follows it (`none`: no terminator). -/
def cstr : List Nat → Option (List Nat × List Nat)
  | [] => none
  | b :: bs => if b = 0 then some ([], bs) else (cstr bs).map fun r => (b :: r.1, r.2)

/-- The loop that skips the operands of an unknown opcode (dwarf2reader.cc:2064-2071): total length of
`n` LEB128 numbers. -/
def skipLebs : Nat → List Nat → Option Nat
  | 0, _ => some 0
  | n + 1, bs => do
    let (_, len) ← readU bs
    let rest ← skipLebs n (bs.drop len)
    some (len + rest)

/-- The extended opcodes (dwarf2reader.cc:2009-2060): `start` is the position after the length, `oplen` the
length of the whole instruction.  Returns whether a row is added, the state, the instruction's length and
the handler calls. -/
def extendedOp (h : Hdr) (start : List Nat) (oplen : Nat) (s : Lsm) : Option (Bool × Lsm × Nat × List Ev) :=
  match start with
  | [] => none
  | op :: start =>
    if op = 1 then some (true, { s with endSeq := true }, oplen, [])
    else if op = 2 then do
      let a ← readFixed h.endian h.addrSize start
      some (false, { s with address := a }, oplen, [])
    else if op = 3 then do
      let (name, r1) ← cstr start
      let (dir, n1) ← readU r1
      let r2 := r1.drop n1
      let (mtime, n2) ← readU r2
      let r3 := r2.drop n2
      let (len, _) ← readU r3
      some (false, s, oplen, [.file name (-1) (dir % 2 ^ 32) mtime len])
    else if op = 4 then do
      let (d, _) ← readU start
      some (false, { s with discr := d % 2 ^ 32 }, oplen, [])
    else some (false, s, oplen, [])

/-- `LineInfo::ProcessOneOpcode` (dwarf2reader.cc:1861-2077) for normal line tables.  `none`: reading
outside the buffer, division by zero, or an overlong LEB128 number. -/
def processOp (h : Hdr) (bs : List Nat) (s : Lsm) : Option (Bool × Lsm × Nat × List Ev) :=
  match bs with
  | [] => none
  | op :: start =>
    if h.opcodeBase ≤ op then
      if h.lineRange = 0 then none
      else
        let adj := op - h.opcodeBase
        some (true, { s with address := (s.address + adj / h.lineRange * h.minInsn) % 2 ^ 64
                             line := addInt64 s.line ((adj % h.lineRange : Nat) + h.lineBase)
                             basicBlock := true }, 1, [])
    else if op = 1 then some (true, { s with basicBlock := false }, 1, [])
    else if op = 2 then do
      let (a, n) ← readU start
      some (false, { s with address := (s.address + h.minInsn * a) % 2 ^ 64 }, 1 + n, [])
    else if op = 3 then do
      let (l, n) ← readS start
      some (false, { s with line := addInt64 s.line l }, 1 + n, [])
    else if op = 4 then do
      let (f, n) ← readU start
      some (false, { s with file := f % 2 ^ 32 }, 1 + n, [])
    else if op = 5 then do
      let (c, n) ← readU start
      some (false, { s with column := c % 2 ^ 32 }, 1 + n, [])
    else if op = 6 then some (false, { s with isStmt := !s.isStmt }, 1, [])
    else if op = 7 then some (false, { s with basicBlock := true }, 1, [])
    else if op = 8 then
      if h.lineRange = 0 then none
      else some (false, { s with
        address := (s.address + h.minInsn * ((255 - h.opcodeBase) / h.lineRange)) % 2 ^ 64 }, 1, [])
    else if op = 9 then do
      let a ← readFixed h.endian 2 start
      some (false, { s with address := (s.address + a) % 2 ^ 64 }, 3, [])
    else if op = 13 then do
      let (_, n) ← readS start
      some (false, s, 1 + n, [])
    else if op = 14 then do
      let (_, n) ← readS start
      let (_, n') ← readU (start.drop n)
      some (false, s, 1 + n + n', [])
    else if op = 15 then some (false, s, 1, [])
    else if op = 0 then do
      let (len, n) ← readU start
      extendedOp h (start.drop n) (1 + n + len) s
    else do
      let cnt ← h.stdLens[op]?
      let n ← skipLebs cnt start
      some (false, s, 1 + n, [])

/-- The call of `AddLine` for the current state (dwarf2reader.cc:2163-2165): `line_num` is narrowed to
`uint32`. -/
def Lsm.row (s : Lsm) : Ev :=
  .line s.address s.file (s.line % 2 ^ 32) s.column s.discr s.endSeq

/-- The inner loop of `ReadLines` (dwarf2reader.cc:2157-2170): one sequence.  `bs` is the rest of the
buffer.  Returns the number of bytes consumed and the handler calls.  Every instruction has at least one
byte, so the length of the buffer bounds the number of iterations. -/
def readSeq (h : Hdr) : Nat → List Nat → Lsm → Option (Nat × List Ev)
  | 0, _, _ => none
  | fuel + 1, bs, s =>
    if s.endSeq then some (0, [])
    else
      match processOp h bs s with
      | none => none
      | some (add, s', n, evs) =>
        let row := if add then [s'.row] else []
        let s'' := if add then { s' with basicBlock := false, discr := 0 } else s'
        match readSeq h fuel (bs.drop n) s'' with
        | none => none
        | some (m, evs') => some (n + m, evs ++ row ++ evs')

/-- The outer loop of `ReadLines` (dwarf2reader.cc:2155-2171); `rem` is the number of bytes left before
the end of the unit. -/
def readSeqs (h : Hdr) : Nat → Nat → List Nat → Option (List Ev)
  | 0, _, _ => none
  | fuel + 1, rem, bs =>
    if rem = 0 then some []
    else
      match readSeq h (bs.length + 1) bs (Lsm.reset h.defaultIsStmt) with
      | none => none
      | some (n, evs) =>
        match readSeqs h fuel (rem - n) (bs.drop n) with
        | none => none
        | some evs' => some (evs ++ evs')

/-- `ReadLines` (dwarf2reader.cc:2079-2175) for normal line tables: `bs` starts at `after_header_`. -/
def readLines (h : Hdr) (rem : Nat) (bs : List Nat) : Option (List Ev) := readSeqs h (rem + 1) rem bs

/-! ## Reading the header -/

/-- How a step of `ReadHeader` can fail: `malformed_` is set, or undefined behaviour / a failed CHECK. -/
inductive Err where
  | malformed
  | undefined
deriving DecidableEq, Repr

/-- A step with a result that is undefined when the bytes run out. -/
def orUndef {α : Type} : Option α → Except Err α
  | some a => .ok a
  | none => .error .undefined

/-- `AdvanceLinePtr` (dwarf2reader.cc:1301-1314). -/
def advance (n : Nat) (bs : List Nat) : Except Err (List Nat) :=
  if bs.length ≤ n then .error .malformed else .ok (bs.drop n)

/-- Read one byte and advance. -/
def byte (bs : List Nat) : Except Err (Nat × List Nat) := do
  let b ← orUndef bs.head?
  let bs ← advance 1 bs
  .ok (b, bs)

/-- Read an unsigned LEB128 number and advance. -/
def uleb (bs : List Nat) : Except Err (Nat × List Nat) := do
  let (v, n) ← orUndef (readU bs)
  let bs ← advance n bs
  .ok (v, bs)

/-- Read `n` bytes as a number and advance. -/
def fixed (e : Endian) (n : Nat) (bs : List Nat) : Except Err (Nat × List Nat) := do
  let v ← orUndef (readFixed e n bs)
  let bs ← advance n bs
  .ok (v, bs)

/-- Read a NUL-terminated string and advance. -/
def str (bs : List Nat) : Except Err (List Nat × List Nat) := do
  let (s, _) ← orUndef (cstr bs)
  let bs ← advance (s.length + 1) bs
  .ok (s, bs)

/-- `std_opcode_lengths` (dwarf2reader.cc:1549-1557): `n` bytes. -/
def opLens : Nat → List Nat → Except Err (List Nat × List Nat)
  | 0, bs => .ok ([], bs)
  | n + 1, bs => do
    let (b, bs) ← byte bs
    let (l, bs) ← opLens n bs
    .ok (b :: l, bs)

/-- The directory table before version 5 (dwarf2reader.cc:1562-1573), from index `i` on, up to and not
including the terminator.  Each entry consumes bytes, so the length of the buffer bounds the iterations. -/
def dirs4 : Nat → Nat → List Nat → Except Err (List Ev × List Nat)
  | 0, _, _ => .error .undefined
  | fuel + 1, i, bs =>
    match bs with
    | [] => .error .undefined
    | b :: _ =>
      if b = 0 then .ok ([], bs)
      else do
        let (name, bs) ← str bs
        let (evs, bs) ← dirs4 fuel (i + 1) bs
        .ok (.dir name i :: evs, bs)

/-- The file table before version 5 (dwarf2reader.cc:1579-1607), likewise. -/
def files4 : Nat → Nat → List Nat → Except Err (List Ev × List Nat)
  | 0, _, _ => .error .undefined
  | fuel + 1, i, bs =>
    match bs with
    | [] => .error .undefined
    | b :: _ =>
      if b = 0 then .ok ([], bs)
      else do
        let (name, bs) ← str bs
        let (d, bs) ← uleb bs
        let (m, bs) ← uleb bs
        let (l, bs) ← uleb bs
        let (evs, bs) ← files4 fuel (i + 1) bs
        .ok (.file name i (d % 2 ^ 32) m l :: evs, bs)

/-- String sections available to the line table reader. -/
structure Strs where
  lineStr : Option (List Nat)
  str : Option (List Nat)
deriving DecidableEq

/-- `ReadTypesAndForms` (dwarf2reader.cc:1316-1341): at most `k` further pairs. -/
def typesForms : Nat → List Nat → Except Err (List (Nat × Nat) × List Nat)
  | 0, bs => .ok ([], bs)
  | n + 1, bs => do
    let (t, bs) ← uleb bs
    let (f, bs) ← uleb bs
    let (l, bs) ← typesForms n bs
    .ok ((t % 2 ^ 32, f % 2 ^ 32) :: l, bs)

/-- `ReadTypesAndForms` (dwarf2reader.cc:1316-1341) with `max_types = 4`. -/
def formats (bs : List Nat) : Except Err (List (Nat × Nat) × List Nat) := do
  let (c, bs) ← uleb bs
  if c % 2 ^ 32 < 1 ∨ 4 < c % 2 ^ 32 then .error .malformed
  else typesForms (c % 2 ^ 32) bs

/-- `get_string_with_offsets` (index_helper.cc:7-16) and the check of its result: NULL when the offset is
outside the buffer. -/
def strAt (buf : List Nat) (off : Nat) : Except Err (List Nat) :=
  if buf.length ≤ off then .error .malformed else orUndef ((cstr (buf.drop off)).map Prod.fst)

/-- `ReadStringForm` (dwarf2reader.cc:1343-1431).  The `strx` forms are a failed CHECK: the only caller
never loads `.debug_str_offsets` (legacy_addr2line.cc:94-97). -/
def stringForm (e : Endian) (offSize : Nat) (st : Strs) (form : Nat) (bs : List Nat) :
    Except Err (List Nat × List Nat) :=
  if form = 0x08 then str bs
  else if form = 0x1f then do
    let (off, bs) ← fixed e offSize bs
    match st.lineStr with
    | none => .error .malformed
    | some buf => do
      let s ← orUndef ((cstr (buf.drop off)).map Prod.fst)
      .ok (s, bs)
  else if form = 0x25 ∨ form = 0x26 ∨ form = 0x27 ∨ form = 0x28 ∨ form = 0x1a then .error .undefined
  else if form = 0x0e then
    match st.str with
    | none => .error .malformed
    | some buf => do
      let (off, bs) ← fixed e offSize bs
      let s ← strAt buf off
      .ok (s, bs)
  else .error .malformed

/-- `ReadUnsignedForm` (dwarf2reader.cc:1433-1456). -/
def unsignedForm (e : Endian) (form : Nat) (bs : List Nat) : Except Err (Nat × List Nat) :=
  if form = 0x0f then uleb bs
  else if form = 0x0b then fixed e 1 bs
  else if form = 0x05 then fixed e 2 bs
  else .error .malformed

/-- One row of the version 5 directory table (dwarf2reader.cc:1631-1646): the columns in turn. -/
def dirRow (e : Endian) (offSize : Nat) (st : Strs) :
    List (Nat × Nat) → Option (List Nat) → List Nat → Except Err (Option (List Nat) × List Nat)
  | [], name, bs => .ok (name, bs)
  | (t, f) :: cols, _, bs =>
    if t = 1 then do
      let (s, bs) ← stringForm e offSize st f bs
      dirRow e offSize st cols (some s) bs
    else .error .malformed

/-- The version 5 directory table (dwarf2reader.cc:1630-1652): `n` rows, numbered from `i`. -/
def dirs5 (e : Endian) (offSize : Nat) (st : Strs) (fmt : List (Nat × Nat)) :
    Nat → Nat → List Nat → Except Err (List Ev × List Nat)
  | 0, _, bs => .ok ([], bs)
  | n + 1, i, bs => do
    let (name, bs) ← dirRow e offSize st fmt none bs
    match name with
    | none => .error .malformed
    | some name => do
      let (evs, bs) ← dirs5 e offSize st fmt n (i + 1) bs
      .ok (.dir name i :: evs, bs)

/-- One row of the version 5 file table (dwarf2reader.cc:1672-1693). -/
def fileRow (e : Endian) (offSize : Nat) (st : Strs) :
    List (Nat × Nat) → Option (List Nat) → Nat → List Nat →
      Except Err (Option (List Nat) × Nat × List Nat)
  | [], name, d, bs => .ok (name, d, bs)
  | (t, f) :: cols, name, d, bs =>
    if t = 1 then do
      let (s, bs) ← stringForm e offSize st f bs
      fileRow e offSize st cols (some s) d bs
    else if t = 2 then do
      let (d, bs) ← unsignedForm e f bs
      fileRow e offSize st cols name d bs
    else .error .malformed

/-- The version 5 file table (dwarf2reader.cc:1671-1696). -/
def files5 (e : Endian) (offSize : Nat) (st : Strs) (fmt : List (Nat × Nat)) :
    Nat → Nat → List Nat → Except Err (List Ev × List Nat)
  | 0, _, bs => .ok ([], bs)
  | n + 1, i, bs => do
    let (name, d, bs) ← fileRow e offSize st fmt none 0 bs
    match name with
    | none => .error .malformed
    | some name => do
      let (evs, bs) ← files5 e offSize st fmt n (i + 1) bs
      .ok (.file name i (d % 2 ^ 32) 0 0 :: evs, bs)

/-- The tables before version 5 (dwarf2reader.cc:1560-1614): the last step may reach the end of the
buffer. -/
def tables4 (bs : List Nat) : Except Err (List Ev × List Nat) := do
  let (ds, bs) ← dirs4 (bs.length + 1) 1 bs
  let bs ← advance 1 bs
  let (fs, bs) ← files4 (bs.length + 1) 1 bs
  .ok (ds ++ fs, bs.drop 1)

/-- The tables of version 5 (dwarf2reader.cc:1616-1698). -/
def tables5 (e : Endian) (offSize : Nat) (st : Strs) (bs : List Nat) : Except Err (List Ev × List Nat) := do
  let (fmt, bs) ← formats bs
  let (n, bs) ← uleb bs
  let (ds, bs) ← dirs5 e offSize st fmt (n % 2 ^ 32) 1 bs
  let (fmt, bs) ← formats bs
  let (n, bs) ← uleb bs
  let (fs, bs) ← files5 e offSize st fmt (n % 2 ^ 32) 1 bs
  .ok (ds ++ fs, bs)

/-- The two fields only version 5 has, `address_size` and `segment_selector_size`
(dwarf2reader.cc:1496-1507), are skipped. -/
def skipV5 (version : Nat) (bs : List Nat) : Except Err (List Nat) :=
  if version = 5 then do
    let (_, bs) ← byte bs
    let (_, bs) ← byte bs
    .ok bs
  else .ok bs

/-- `max_ops_per_insn` (dwarf2reader.cc:1520-1527) is read and ignored. -/
def skipMaxOps (version : Nat) (bs : List Nat) : Except Err (List Nat) :=
  if 4 ≤ version then do
    let (_, bs) ← byte bs
    .ok bs
  else .ok bs

/-- The directory and file tables (dwarf2reader.cc:1560-1698). -/
def tables (e : Endian) (offSize : Nat) (st : Strs) (version : Nat) (bs : List Nat) :
    Except Err (List Ev × List Nat) :=
  if version = 5 then tables5 e offSize st bs else tables4 bs

/-- `int8` reading of a byte. -/
def int8 (b : Nat) : Int := if b < 128 then b else (b : Int) - 256

/-- `ReadHeader` (dwarf2reader.cc:1462-1858) for versions 2 to 5: the header, the handler calls, the unit
length, the offset size and the bytes from `after_header_` on.  `w` is the address size of the reader.
`header_length` is read and ignored, as in the code.  Simplification: the handler calls made before a
header is found to be malformed are not reported. -/
def readHeader (e : Endian) (w : Nat) (st : Strs) (buf : List Nat) :
    Except Err (Hdr × List Ev × Nat × Nat × List Nat) := do
  let (unitLen, n, offSize) ← orUndef (readInitialLength e buf)
  let bs ← advance n buf
  if buf.length < n + unitLen then .error .malformed else
  if w = 0 then .error .malformed else do
  let (version, bs) ← fixed e 2 bs
  if version < 2 ∨ 5 < version then .error .malformed else do
  let bs ← skipV5 version bs
  let (_, bs) ← fixed e offSize bs
  let (minInsn, bs) ← byte bs
  let bs ← skipMaxOps version bs
  let (isStmt, bs) ← byte bs
  let (lineBase, bs) ← byte bs
  let (lineRange, bs) ← byte bs
  let (opcodeBase, bs) ← byte bs
  let (lens, bs) ← opLens (opcodeBase - 1) bs
  let (evs, bs) ← tables e offSize st version bs
  .ok ({ endian := e, addrSize := w, minInsn := minInsn, defaultIsStmt := isStmt != 0,
         lineBase := int8 lineBase, lineRange := lineRange, opcodeBase := opcodeBase,
         stdLens := 0 :: lens ++ [0] }, evs, unitLen, offSize, bs)

/-- `LineInfo::Start` (dwarf2reader.cc:1288-1299): the handler calls and the value returned.  The end of
the unit is `unit_length` bytes after the initial length. -/
def start (e : Endian) (w : Nat) (st : Strs) (buf : List Nat) : Except Err (List Ev × Nat) := do
  let (h, evs, unitLen, offSize, bs) ← readHeader e w st buf
  let total := (if offSize = 8 then 12 else 4) + unitLen
  let rows ← orUndef (readLines h (total - (buf.length - bs.length)) bs)
  .ok (evs ++ rows, total)

end Verif.DwarfLine

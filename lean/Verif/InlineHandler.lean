import Verif.DwarfInfoUnit
import Verif.InlineStack
import Verif.MergeRanges

/-! # C63: the subprograms of the debugging information (util/symbolize/addr2line_inlinestack.cc)

`InlineStackHandler` as a handler of the `.debug_info` reader.  `none`: a failed `CHECK` or undefined behaviour.
Pointers to `SubprogramInfo` are positions in `heap`, the list of all of them in the order of creation.
Simplifications: no split DWARF (`input_file_index_` is 0 from the first unit on), no two-level line tables
(`have_two_level_line_tables_` is false). -/
namespace Verif.InlineHandler
open Verif Verif.DwarfInfo Verif.Inline
open Verif.LineMap (LMap Tab)
open Verif.DwarfLine (Ev)

/-- A name. -/
abbrev Name := List Nat

/-- What the handler is constructed with: `vaddr_of_first_load_segment_`, `sampled_functions_`, the range lists
(`AddressRangeList::ReadRangeList`: version, offset, base; `GetRngListsElementOffsetByIndex` and
`ReadDwarfRngListwithOffsetArray`: base of the contribution, index, base, base of the addresses) and the line table at
an offset of `.debug_line` as the calls of the line handler. -/
structure Env where
  vaddr : Nat
  sampled : Option (OMap Nat Nat)
  ranges : Nat → Nat → Nat → Option (List Range)
  rangesAt : Nat → Nat → Nat → Nat → Option (List Range)
  line : Nat → Option (List Ev)

/-- `SubprogramInfo` with `used_`; `parent` is a position in the heap. -/
structure Cell where
  sub : Sub
  used : Bool
deriving DecidableEq, Repr

/-- The state of `InlineStackHandler` (addr2line_inlinestack.h:248-289) with the vectors of directories and files, and
the line map.  Stacks have their top first.  `compDir` is the last element of `compilation_unit_comp_dir_`. -/
structure St where
  tags : List Nat := []
  heap : List Cell := []
  stack : List Nat := []
  order : List Nat := []
  byOff : OMap Nat Nat := []
  unitOff : Nat := 0
  base : Nat := 0
  version : Nat := 0
  compDir : Option Name := none
  addrBase : Nat := 0
  strBase : Nat := 0
  rangesBase : Nat := 0
  tab : Tab := Tab.init
  lm : LMap := ⟨[], []⟩

/-- `StartCompilationUnit` (addr2line_inlinestack.cc:98-114), after new vectors for directories and files with their
first entries have been set (legacy_addr2line.cc:142-147, functioninfo.cc:54-61). -/
def startUnit (s : St) (off version : Nat) : Option (St × Bool) :=
  if s.stack.isEmpty then
    some ({ s with unitOff := off, base := 0, version := version, tab := Tab.init }, true)
  else none

/-- Tags of subprograms. -/
def isFn (tag : Nat) : Bool := decide (tag = 0x2e ∨ tag = 0x1d)

/-- Tags of compile units. -/
def isCu (tag : Nat) : Bool := decide (tag = 0x11 ∨ tag = 0x4a)

/-- A new subprogram (addr2line_inlinestack.cc:199-209). -/
def newCell (s : St) (off tag : Nat) : Cell :=
  { sub := { inlined := decide (tag = 0x1d), parent := s.stack.head?, ranges := [], offset := off, fileIndex := 0,
             compDir := s.compDir }
    used := false }

/-- `StartDIE` (addr2line_inlinestack.cc:185-223). -/
def startDie (s : St) (off tag : Nat) : St × Bool :=
  let s := { s with tags := tag :: s.tags }
  if isFn tag then
    ({ s with heap := s.heap ++ [newCell s off tag], stack := s.heap.length :: s.stack,
              byOff := OMap.emplace off s.heap.length s.byOff }, true)
  else (s, isCu tag)

/-- Changes the subprogram at a position. -/
def upd (s : St) (i : Nat) (f : Cell → Cell) : St := { s with heap := s.heap.modify i f }

/-- `used()` of the subprogram at the bottom of the stack (addr2line_inlinestack.cc:235). -/
def rootUsed (s : St) : Bool := ((s.stack.getLast?.bind fun i => s.heap[i]?).map Cell.used).getD false

/-- `EndDIE` (addr2line_inlinestack.cc:225-243). -/
def endDie (s : St) : Option St :=
  match s.tags with
  | [] => none
  | tag :: tags =>
    let s := { s with tags := tags }
    if isFn tag then
      match s.stack with
      | [] => none
      | i :: st =>
        if rootUsed s then
          some { s with heap := s.heap.modify i fun c => { c with used := true }, order := s.order ++ [i], stack := st }
        else some { s with stack := st }
    else some s

/-- Attributes with a string (addr2line_inlinestack.cc:245-262), on the innermost subprogram. -/
def cellStr (name : Nat) (v : Option Name) (c : Cell) : Option Cell :=
  if name = 0x2007 ∨ name = 0x6e then v.map fun n => { c with sub := { c.sub with name := n } }
  else if name = 0x03 ∧ c.sub.name = [] then v.map fun n => { c with sub := { c.sub with name := n } }
  else some c

/-- The call site's file with a number (addr2line_inlinestack.cc:271-288, 470-488). -/
def cellFile (tab : Tab) (k : Nat) (c : Cell) : Cell :=
  if k = 0 then c
  else
    match tab.files[k]? with
    | none => c
    | some (d, f) => { c with sub := { c.sub with callDir := (tab.dirs[d]?).or c.sub.callDir, callFile := some f } }

/-- Whether a start address makes the top level subprogram used (addr2line_inlinestack.cc:336-344, 362-378). -/
def marks (env : Env) (a : Nat) : Bool :=
  match env.sampled with
  | some m => (OMap.find? m a).isSome
  | none => decide (a ≠ 0)

/-- A reference to another entry (addr2line_inlinestack.cc:311-328). -/
def refTo (unitOff form v : Nat) : Option Nat :=
  if form = 0x10 then some v else if form = 0x13 then some ((unitOff + v) % 2 ^ 64) else none

/-- The ranges of a list (addr2line_inlinestack.cc:350-360). -/
def readRanges (env : Env) (s : St) (form v : Nat) : Option (List Range) :=
  if form ∈ [0x17, 0x06, 0x07] then env.ranges s.version v s.base
  else if form = 0x23 then env.rangesAt s.rangesBase v s.base s.addrBase
  else none

/-- Attributes with an unsigned value on the innermost subprogram (addr2line_inlinestack.cc:269-393).  `top`: it is the
only one on the stack; `tag`: the tag of the entry. -/
def cellU (env : Env) (s : St) (top : Bool) (tag name form v : Nat) (c : Cell) : Option Cell :=
  if name = 0x58 then some (cellFile s.tab v c)
  else if name = 0x59 then
    if form ∈ [0x0b, 0x05, 0x06] then some { c with sub := { c.sub with callLine := v % 2 ^ 32 } } else none
  else if name = 0x2136 then
    if form ∈ [0x0b, 0x05, 0x06] then some { c with sub := { c.sub with callDiscr := v % 2 ^ 32 } } else none
  else if name = 0x31 then
    (refTo s.unitOff form v).map fun r => { c with sub := { c.sub with origin := r } }
  else if name = 0x47 then
    (refTo s.unitOff form v).map fun r => { c with sub := { c.sub with spec := r } }
  else if name = 0x11 then
    (setLow c.sub.ranges v).map fun rs =>
      { sub := { c.sub with ranges := rs }, used := c.used || (top && marks env v) }
  else if name = 0x12 then
    (setHigh c.sub.ranges v (form != 0x01)).map fun rs => { c with sub := { c.sub with ranges := rs } }
  else if name = 0x55 then
    if c.sub.ranges.isEmpty then
      (readRanges env s form v).map fun rs =>
        { sub := { c.sub with ranges := sortAndMerge rs }, used := c.used || (top && rs.any fun r => marks env r.1) }
    else none
  else if name = 0x3b then
    if tag = 0x2e then some { c with sub := { c.sub with callLine := v % 2 ^ 32 } } else some c
  else some c

/-- Attributes with a signed value (addr2line_inlinestack.cc:459-500). -/
def cellS (tab : Tab) (name form : Nat) (v : Int) (c : Cell) : Option Cell :=
  if name = 0x58 then
    if form = 0x21 then some (if v < 0 then c else cellFile tab v.toNat c) else none
  else if name = 0x59 then
    if form = 0x21 then some { c with sub := { c.sub with callLine := (v % 2 ^ 32).toNat } } else none
  else some c

/-- Changes the innermost subprogram. -/
def onTop (s : St) (i : Nat) (f : Cell → Option Cell) : Option St := do
  let c ← s.heap[i]?
  let c ← f c
  some (upd s i fun _ => c)

/-- Attributes of a compile unit with an unsigned value (addr2line_inlinestack.cc:394-459). -/
def cuU (env : Env) (s : St) (name form v : Nat) : Option St :=
  if name = 0x11 then some { s with base := v }
  else if name = 0x10 then do
    let evs ← env.line v
    let (tab, lm) ← evs.foldlM (LineMap.handle env.vaddr none) (s.tab, s.lm)
    some { s with tab := tab, lm := lm }
  else if name = 0x72 then some { s with strBase := v }
  else if name = 0x55 then if form ∈ [0x17, 0x06, 0x07] then some { s with rangesBase := v } else none
  else if name = 0x2132 ∨ name = 0x74 then some { s with rangesBase := v }
  else if name = 0x2133 ∨ name = 0x73 then some { s with addrBase := v }
  else some s

/-- `ProcessAttributeUnsigned` (addr2line_inlinestack.cc:264-459). -/
def attrU (env : Env) (s : St) (name form v : Nat) : Option St :=
  match s.stack with
  | i :: st =>
    if name = 0x2133 ∨ name = 0x73 then some { s with addrBase := v }
    else if name = 0x2132 ∨ name = 0x74 then some { s with rangesBase := v }
    else onTop s i (cellU env s st.isEmpty (s.tags.head?.getD 0) name form v)
  | [] => if isCu (s.tags.head?.getD 0) then cuU env s name form v else some s

/-- `ProcessAttributeString` (addr2line_inlinestack.cc:245-262). -/
def attrStr (s : St) (name : Nat) (v : Option Name) : Option St :=
  let s' : Option St := if name = 0x1b then v.map fun d => { s with compDir := some d } else some s
  match s' with
  | none => none
  | some s =>
    match s.stack with
    | [] => some s
    | i :: _ => onTop s i (cellStr name v)

/-- `ProcessAttributeSigned` (addr2line_inlinestack.cc:459-500).  Nothing happens for other attributes; these need a
subprogram. -/
def attrS (s : St) (name form : Nat) (v : Int) : Option St :=
  if name = 0x58 ∨ name = 0x59 then
    match s.stack with
    | [] => none
    | i :: _ => onTop s i (cellS s.tab name form v)
  else some s

/-- The handler. -/
def handler (env : Env) : Handler St where
  startUnit s off _ _ _ version := startUnit s off version
  startDie s off tag _ := some (startDie s off tag)
  attr s _ name form v :=
    match v with
    | .u v => attrU env s name form v
    | .s v => attrS s name form v
    | .str v => attrStr s name v
    | .block _ => some s
  endDie s _ := endDie s
  strBase s := s.strBase
  addrBase s := s.addrBase
  setStrBase s b := { s with strBase := b }
  setAddrBase s b := { s with addrBase := b }

/-- A subprogram with its parent as a position in the insert order. -/
def St.sub (s : St) (c : Cell) : Sub := { c.sub with parent := c.sub.parent.bind fun p => s.order.idxOf? p }

/-- What is known after reading: `subprogram_insert_order_` and the map of subprograms by offset. -/
def St.info (s : St) : Info :=
  { order := s.order.filterMap fun i => (s.heap[i]?).map s.sub
    byOffset := [s.byOff.filterMap fun e => (s.heap[e.2]?).map fun c => (e.1, s.sub c)] }

end Verif.InlineHandler

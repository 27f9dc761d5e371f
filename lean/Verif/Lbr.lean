import Verif.Sample

/-!
# Branch stacks to counts: model of `PerfDataSampleReader::Append` (sample_reader.cc:269-360)

Parsing of the perf file (quipper) and `MatchBinary` (a cached pure predicate on the DSO) are
inputs of the model: each endpoint carries its offset and whether it matches the profiled binary.
-/
namespace Verif.Lbr
open Verif.Sample

/-- One entry of `event.branch_stack`; newest branch first. -/
structure Entry where
  /-- `from.offset()` -/
  src : Nat
  /-- `to.offset()` -/
  dst : Nat
  /-- `MatchBinary(from)` -/
  srcOk : Bool
  /-- `MatchBinary(to)` -/
  dstOk : Bool
  /-- `spec == PERF_BR_SPEC_WRONG_PATH` -/
  wrong : Bool
deriving DecidableEq, Inhabited

/-- One `PERF_RECORD_SAMPLE` event: matched sample address (if any) and branch stack. -/
structure Event where
  addr : Option Nat
  stack : List Entry

/-- Unsigned 64-bit subtraction. -/
def sub64 (a b : Nat) : Nat := (a + (2 ^ 64 - b)) % 2 ^ 64

/-- `start_index` (sample_reader.cc:303-308). -/
def startIndex : List Entry → Nat
  | [] => 0
  | e :: t => if e.wrong then startIndex t + 1 else 0

/-- The branch recorded for the newest non-speculative entry (sample_reader.cc:309-314). -/
def firstBranch (st : List Entry) : List Pair :=
  match st[startIndex st]? with
  | none => []
  | some e => if e.dstOk && e.srcOk then [toLex (e.src, e.dst)] else []

/-- Duplicated-top-entry heuristic (sample_reader.cc:331-341); `limit` is
`--strip_dup_backedge_stride_limit`. -/
def dupTop (limit : Nat) (st : List Entry) (i : Nat) : Bool :=
  match st[0]?, st[1]? with
  | some a, some b =>
    i == 1 && a.src == b.src && a.dst == b.dst && decide (limit < sub64 a.src a.dst)
  | _, _ => false

/-- Increments caused by one iteration of the loop body: a range and possibly a branch. -/
structure Inc where
  range : Pair
  branch : Option Pair
deriving DecidableEq

/-- Loop body for index `i` (sample_reader.cc:316-356). -/
def step (limit : Nat) (st : List Entry) (i : Nat) : Option Inc :=
  match st[i]?, st[i - 1]? with
  | some e, some prev =>
    if e.wrong then none
    else if !e.dstOk then none
    else if dupTop limit st i then none
    else
      let b := e.dst
      let f := prev.src
      if f < b ∨ f - b > 2 ^ 20 then none
      else some ⟨toLex (b, f), if e.srcOk then some (toLex (e.src, e.dst)) else none⟩
  | _, _ => none

/-- All iterations `i = start_index+1, …, size-1` (sample_reader.cc:315). -/
def incs (limit : Nat) (st : List Entry) : List Inc :=
  (List.range' (startIndex st + 1) (st.length - (startIndex st + 1))).filterMap (step limit st)

/-- Ranges incremented for one event, in order. -/
def eventRanges (limit : Nat) (e : Event) : List Pair := (incs limit e.stack).map Inc.range

/-- Branches incremented for one event, in order. -/
def eventBranches (limit : Nat) (e : Event) : List Pair :=
  firstBranch e.stack ++ (incs limit e.stack).filterMap Inc.branch

/-- Body of the event loop (sample_reader.cc:292-358) on the three maps. -/
def appendEvent (limit : Nat) (m : Maps) (e : Event) : Maps :=
  ⟨OMap.addAll m.range ((eventRanges limit e).map (·, 1)),
   OMap.addAll m.addr (e.addr.toList.map (·, 1)),
   OMap.addAll m.branch ((eventBranches limit e).map (·, 1))⟩

/-- `PerfDataSampleReader::Append` on the parsed events (sample_reader.cc:292-359). -/
def append (limit : Nat) (m : Maps) (es : List Event) : Maps := es.foldl (appendEvent limit) m

end Verif.Lbr

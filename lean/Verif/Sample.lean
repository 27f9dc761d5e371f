import Verif.OMap
import Mathlib.Data.Prod.Lex

/-!
# Sample profiles: model of `sample_reader.{h,cc}`

Counts and addresses are `Nat`; 64-bit wrap-around of accumulated counts is not modelled.
-/
namespace Verif.Sample

/-- `std::pair<uint64_t,uint64_t>` with its lexicographic order (sample_reader.h:30,32). -/
abbrev Pair := Lex (Nat × Nat)

/-- The three count maps of `SampleReader` (sample_reader.h:81-85).
`address_timestamp_map_` and `is_kernel_` are in `Verif.PerfRead`. -/
structure Maps where
  /-- `range_count_map_` -/
  range : OMap Pair Nat
  /-- `address_count_map_` -/
  addr : OMap Nat Nat
  /-- `branch_count_map_` -/
  branch : OMap Pair Nat
deriving DecidableEq

/-- Freshly constructed reader. -/
def Maps.empty : Maps := ⟨[], [], []⟩

/-- Representation invariant of the three `std::map`s. -/
def Maps.Ok (m : Maps) : Prop := OMap.Sorted m.range ∧ OMap.Sorted m.addr ∧ OMap.Sorted m.branch

/-- `TextSampleReaderWriter::Merge` (sample_reader.cc:221-231). -/
def Maps.merge (m o : Maps) : Maps :=
  ⟨OMap.addAll m.range o.range, OMap.addAll m.addr o.addr, OMap.addAll m.branch o.branch⟩

/-- `SampleReader::ReadAndSetTotalCount` after a successful read, starting from
`total_count_ = total0` (sample_reader.cc:146-154).  This computation *is* modelled in `uint64_t`
arithmetic, including the wrap-around of `1 + range.second - range.first`. -/
def Maps.totalCountFrom (total0 : Nat) (m : Maps) : Nat :=
  match m.range with
  | [] => m.addr.foldl (fun acc p => (acc + p.2) % 2 ^ 64) total0
  | _ :: _ => m.range.foldl
      (fun acc p => (acc + p.2 * ((1 + (ofLex p.1).2 + (2 ^ 64 - (ofLex p.1).1)) % 2 ^ 64)) % 2 ^ 64)
      total0

/-- `SampleReader::GetTotalSampleCount` (sample_reader.cc:127-140). -/
def Maps.totalSampleCount (m : Maps) : Nat :=
  match m.range with
  | [] => m.addr.foldl (fun acc p => acc + p.2) 0
  | _ :: _ => m.range.foldl (fun acc p => acc + p.2) 0

/-- `SampleReader::GetSampleCountOrZero` (sample_reader.cc:119-125). -/
def Maps.sampleCountOrZero (m : Maps) (a : Nat) : Nat :=
  match OMap.find? m.addr a with
  | none => 0
  | some c => c

/-- One iteration of the loop of `MergeSample` (profile_creator.cc:287-295); `none` is an input with
an empty file name, which is skipped. -/
def mergeStep (w : Maps) : Option Maps → Maps
  | none => w
  | some r => w.merge r

/-- `MergeSample` (profile_creator.cc:274-299): the existing output (if any) is read first, then
each successfully read input is merged in order, skipping inputs with an empty file name
(`none`).  Reading itself is `readText` below / `Lbr`; failures abort before anything is written
and are not modelled here. -/
def mergeSample (existing : Option Maps) (inputs : List (Option Maps)) : Maps :=
  inputs.foldl mergeStep (existing.getD Maps.empty)

end Verif.Sample

import Verif.LbrProps

/-!
# C78: the samples of a perf file that belong to the profiled binary
Model of `PerfDataSampleReader` (sample_reader.cc:35-103, 269-360) with its cache of decisions, and of the choice of the build id
(profile_creator.cc:160-187).  The parsed events are inputs (quipper); a `DSOInfo*` is a number.
-/
namespace Verif.PerfRead
open Verif Verif.Sample Verif.Lbr

/-- A file name. -/
abbrev Name := List Nat

/-- The characters of a string. -/
def str (s : String) : Name := s.toList.map Char.toNat

/-- `ParsedEvent::DSOAndOffset`: the pointer `dso_info_`, `dso_name()` and `offset()`. -/
structure Loc where
  dso : Nat
  name : Name
  offset : Nat
deriving DecidableEq, Inhabited

/-- One entry of the branch stack. -/
structure BranchEntry where
  src : Loc
  dst : Loc
  /-- `spec == PERF_BR_SPEC_WRONG_PATH` -/
  wrong : Bool
deriving DecidableEq, Inhabited

/-- One element of `parser.parsed_events()`. -/
structure PEvent where
  /-- `event_ptr` is set and its type is `PERF_RECORD_SAMPLE` (sample_reader.cc:293-296) -/
  isSample : Bool
  loc : Loc
  time : Nat
  stack : List BranchEntry
deriving DecidableEq, Inhabited

/-- What is read from one file: the map of `GetFilenamesToBuildIDs` and the events. -/
structure PerfFile where
  buildIds : List (Name × Name)
  events : List PEvent
deriving DecidableEq, Inhabited

/-- The options of the reader: `build_id_` and `regex_search(·, re_)` (sample_reader.cc:35-38). -/
structure Opts where
  buildId : Name
  re : Name → Bool
  /-- `--strip_dup_backedge_stride_limit` -/
  limit : Nat

/-- The members of the reader: the count maps, `address_timestamp_map_`, `is_kernel_`, `focus_bins_`, `match_cache_`. -/
structure Reader where
  maps : Maps
  times : OMap Nat Nat
  kernel : Bool
  focus : List Name
  cache : List (Nat × Bool)
deriving DecidableEq

/-- A fresh reader. -/
def Reader.new : Reader := ⟨Maps.empty, [], false, [], []⟩

/-- The part of `MatchBinary` after a miss in the cache (sample_reader.cc:52-65). -/
def decideName (o : Opts) (focus : List Name) (n : Name) : Bool :=
  if focus.isEmpty then o.re n
  else if n.isEmpty then false
  else focus.any fun f => decide (n = f)

/-- `MatchBinary` (sample_reader.cc:44-68): the answer and the new cache. -/
def matchBinary (o : Opts) (focus : List Name) (cache : List (Nat × Bool)) (l : Loc) : Bool × List (Nat × Bool) :=
  match cache.lookup l.dso with
  | some b => (b, cache)
  | none => (decideName o focus l.name, (l.dso, decideName o focus l.name) :: cache)

/-- "[kernel.kallsyms]" or a name that ends in "vmlinux" (sample_reader.cc:86-89). -/
def isKernelName (n : Name) : Bool := decide (n = str "[kernel.kallsyms]") || (str "vmlinux").isSuffixOf n

/-- The names under which the kernel is mapped (sample_reader.cc:90-92). -/
def kernelNames : List Name := [str "[kernel.kallsyms]", str "[kernel.kallsyms]_stext", str "[kernel.kallsyms]_text"]

/-- `GetFileNameFromBuildID` (sample_reader.cc:71-103); `focus_bins_` is a set, here a list. -/
def focusBins (o : Opts) (kernel : Bool) (f : PerfFile) : List Name × Bool :=
  f.buildIds.foldl (fun s p =>
    if p.2 = o.buildId then
      if isKernelName p.1 then (s.1 ++ kernelNames, true) else (s.1 ++ [p.1], s.2)
    else s) ([], kernel)

/-- `start_index` (sample_reader.cc:303-308). -/
def startIndexP : List BranchEntry → Nat
  | [] => 0
  | e :: t => if e.wrong then startIndexP t + 1 else 0

/-- The branch of the newest entry that is not speculative (sample_reader.cc:309-314); `to` is asked before `from`. -/
def firstBranchP (o : Opts) (focus : List Name) (cache : List (Nat × Bool)) (st : List BranchEntry) : List Pair × List (Nat × Bool) :=
  match st[startIndexP st]? with
  | none => ([], cache)
  | some e =>
    match matchBinary o focus cache e.dst with
    | (false, c) => ([], c)
    | (true, c) =>
      match matchBinary o focus c e.src with
      | (false, c) => ([], c)
      | (true, c) => ([toLex (e.src.offset, e.dst.offset)], c)

/-- The top entry is duplicated (sample_reader.cc:331-338). -/
def dupTopP (limit : Nat) (st : List BranchEntry) (i : Nat) : Bool :=
  match st[0]?, st[1]? with
  | some a, some b =>
    i == 1 && a.src.offset == b.src.offset && a.dst.offset == b.dst.offset && decide (limit < sub64 a.src.offset a.dst.offset)
  | _, _ => false

/-- The body of the loop over the stack (sample_reader.cc:316-356). -/
def stepP (o : Opts) (focus : List Name) (cache : List (Nat × Bool)) (st : List BranchEntry) (i : Nat) :
    Option Inc × List (Nat × Bool) :=
  match st[i]?, st[i - 1]? with
  | some e, some prev =>
    if e.wrong then (none, cache)
    else
      match matchBinary o focus cache e.dst with
      | (false, c) => (none, c)
      | (true, c) =>
        if dupTopP o.limit st i then (none, c)
        else if prev.src.offset < e.dst.offset ∨ prev.src.offset - e.dst.offset > 2 ^ 20 then (none, c)
        else
          match matchBinary o focus c e.src with
          | (false, c) => (some ⟨toLex (e.dst.offset, prev.src.offset), none⟩, c)
          | (true, c) => (some ⟨toLex (e.dst.offset, prev.src.offset), some (toLex (e.src.offset, e.dst.offset))⟩, c)
  | _, _ => (none, cache)

/-- The iterations over the indices `is`, in order. -/
def loopP (o : Opts) (focus : List Name) (st : List BranchEntry) : List (Nat × Bool) → List Nat → List Inc × List (Nat × Bool)
  | cache, [] => ([], cache)
  | cache, i :: is =>
    let s := stepP o focus cache st i
    let t := loopP o focus st s.2 is
    (s.1.toList ++ t.1, t.2)

/-- The body of the loop over the events (sample_reader.cc:292-358).  The maps are updated at the end of the event; nothing reads them
in between. -/
def eventP (o : Opts) (r : Reader) (e : PEvent) : Reader :=
  if !e.isSample then r
  else
    let a := matchBinary o r.focus r.cache e.loc
    let b := firstBranchP o r.focus a.2 e.stack
    let l := loopP o r.focus e.stack b.2 (List.range' (startIndexP e.stack + 1) (e.stack.length - (startIndexP e.stack + 1)))
    ⟨⟨OMap.addAll r.maps.range (l.1.map fun x => (x.range, 1)),
      OMap.addAll r.maps.addr (if a.1 then [(e.loc.offset, 1)] else []),
      OMap.addAll r.maps.branch ((b.1 ++ l.1.filterMap Inc.branch).map (·, 1))⟩,
     if a.1 then OMap.emplace e.loc.offset e.time r.times else r.times, r.kernel, r.focus, l.2⟩

/-- `PerfDataSampleReader::Append` on a file that could be read (sample_reader.cc:276-360). -/
def appendFile (o : Opts) (r : Reader) (f : PerfFile) : Reader :=
  if o.buildId.isEmpty then f.events.foldl (eventP o) r
  else
    let fb := focusBins o r.kernel f
    let r := { r with focus := fb.1, kernel := fb.2 }
    if fb.1.isEmpty then r else f.events.foldl (eventP o) r

/-- `PerfDataSampleReader::Append` (sample_reader.cc:269-360); `none` is a file that could not be read or parsed.  The answer is the
result of `Append`. -/
def append (o : Opts) (r : Reader) : Option PerfFile → Reader × Bool
  | none => (r, false)
  | some f => (appendFile o r f, true)

/-- Padding of the build id (profile_creator.cc:182-187). -/
def padBuildId (id : Name) : Name := if id.isEmpty then id else id ++ List.replicate (40 - id.length) 48

/-! ## Specification -/

/-- The binary of the file name `n` is the profiled one: by its build id if there is one, else by the expression. -/
def Selected (o : Opts) (f : PerfFile) (n : Name) : Prop :=
  (o.buildId = [] ∧ o.re n = true) ∨
  (o.buildId ≠ [] ∧ n ≠ [] ∧ ∃ p ∈ f.buildIds, p.2 = o.buildId ∧
    if isKernelName p.1 = true then n ∈ kernelNames else n = p.1)

instance (o : Opts) (f : PerfFile) (n : Name) : Decidable (Selected o f n) := by unfold Selected; infer_instance

/-- A branch stack whose entries are marked with whether they are in the profiled binary. -/
def markEntry (o : Opts) (f : PerfFile) (b : BranchEntry) : Entry :=
  ⟨b.src.offset, b.dst.offset, decide (Selected o f b.src.name), decide (Selected o f b.dst.name), b.wrong⟩

/-- The sample of an event. -/
def markEvent (o : Opts) (f : PerfFile) (e : PEvent) : Event :=
  ⟨if Selected o f e.loc.name then some e.loc.offset else none, e.stack.map (markEntry o f)⟩

/-- The samples of a file. -/
def samples (f : PerfFile) : List PEvent := f.events.filter PEvent.isSample

/-- The addresses of a file. -/
def PEvent.locs (e : PEvent) : List Loc := e.loc :: e.stack.flatMap fun b => [b.src, b.dst]

/-- The addresses of the samples of a file. -/
def PerfFile.locs (f : PerfFile) : List Loc := (samples f).flatMap PEvent.locs

/-- A pointer stands for one binary. -/
def PerfFile.Consistent (f : PerfFile) : Prop := ∀ a ∈ f.locs, ∀ b ∈ f.locs, a.dso = b.dso → a.name = b.name

/-- The answers in the cache are right for the file. -/
def CacheOk (o : Opts) (f : PerfFile) (cache : List (Nat × Bool)) : Prop :=
  ∀ l ∈ f.locs, ∀ b, cache.lookup l.dso = some b → b = decide (Selected o f l.name)

end Verif.PerfRead

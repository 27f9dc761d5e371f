import Verif.GcovLemmas
import Verif.AddSource

/-!
# AFDO gcov profiles: model of profile_writer.cc / profile_reader.cc

Bytes are produced and consumed with the primitives of `Verif.Gcov`.  `none` = `CHECK` failure,
thrown `std::out_of_range` or undefined behaviour.  Not modelled: file names of symbols beyond the
tables written (`files`, `fileIdx` are inputs of the writer), the `int` overflow of the length
counters, `strdup`/NUL bytes inside names (a name is assumed NUL-free).
-/
namespace Verif.Afdo
open Verif Verif.Gcov Verif.SymbolMap

/-- A top-level symbol: profile tree and timestamp (symbol_map.h:232-249). -/
structure Top where
  sym : Sym
  ts : Nat

/-- `ProfileSummaryInformation` (profile_writer.h:245-278) as far as written. -/
structure Summary where
  total : Nat
  maxCount : Nat
  maxFunction : Nat
  numCounts : Nat
  numFunctions : Nat
  detailed : List (Nat × Nat × Nat)
deriving DecidableEq

/-- What is written: the emitted entries of `map_` in order, the file tables, the working set. -/
structure Profile where
  syms : List (Name × Top)
  summary : Summary
  files : List Name
  fileIdx : Name → Option Nat
  workingSet : List (Nat × Nat)

/-- `SymbolTraverser::Start` emits only the symbols above the threshold (profile_writer.h:124-132,
symbol_map.h:305). -/
def emitted (threshold : Int) (syms : List (Name × Top)) : List (Name × Top) :=
  syms.filter (fun p => decide ((p.2.sym.data.total : Int) > threshold))

/-! ## String table -/

/-- Names of the call targets (profile_writer.h:223-227). -/
def targetNames (m : PosMap) : List Name := m.flatMap (fun p => p.2.targets.map Prod.fst)

mutual
/-- Names inserted while traversing a symbol (profile_writer.h:213-232). -/
def symNames : Sym → List Name
  | .mk d cs => targetNames d.pos ++ callNames cs
/-- Names inserted for the callsites of a symbol. -/
def callNames : List (Callsite × Sym) → List Name
  | [] => []
  | (k, s) :: t => k.2 :: symNames s ++ callNames t
end

/-- All inserted names in order of insertion (profile_writer.cc:161-164). -/
def profileNames (syms : List (Name × Top)) : List Name :=
  [] :: syms.flatMap (fun p => p.1 :: symNames p.2.sym)

/-- `string_index_map`: a `std::map` keyed by the names; the index is the rank
(profile_writer.cc:159-190). -/
def stringTable (syms : List (Name × Top)) : List Name :=
  ((profileNames syms).foldl (fun m n => OMap.set n () m) ([] : OMap Name Unit)).map Prod.fst

/-- `string_index_map.find(name)->second`. -/
def indexOf (n : Name) : List Name → Option Nat
  | [] => none
  | x :: t => if x = n then some 0 else (indexOf n t).map (· + 1)

/-- `strcmp(c + len - k, suffix) == 0` for a suffix of length `k`. -/
def endsWith (n suffix : Name) : Bool := suffix.isSuffixOf n

/-- "D4Ev" -/
def sD4Ev : Name := [68, 52, 69, 118]
/-- "C4Ev" -/
def sC4Ev : Name := [67, 52, 69, 118]
/-- "C4EPKc" -/
def sC4EPKc : Name := [67, 52, 69, 80, 75, 99]
/-- "C4EPKcRKS2_" -/
def sC4EPKcRKS2 : Name := [67, 52, 69, 80, 75, 99, 82, 75, 83, 50, 95]

/-- The name fix-up when writing the string table (profile_writer.cc:205-217). -/
def fixName (n : Name) : Name :=
  if n.length > 5 ∧ (endsWith n sD4Ev = true ∨ endsWith n sC4Ev = true) then
    n.set (n.length - 3) 50
  else if n.length > 7 ∧ endsWith n sC4EPKc = true then n.set (n.length - 5) 50
  else if n.length > 12 ∧ endsWith n sC4EPKcRKS2 = true then n.set (n.length - 10) 50
  else n

/-! ## Writer -/

/-- GCOV tags and magic (gcov.cc:32-37). -/
def tagSummary : Nat := 0xa8000000
def tagFileNames : Nat := 0xaa000000
def tagFunction : Nat := 0xac000000
def tagModule : Nat := 0xae000000
def tagWorkingSet : Nat := 0xaf000000
def magic : Nat := 0x67636461
/-- `HIST_TYPE_INDIR_CALL_TOPN` (gcov.h:33-42). -/
def histIndirCallTopn : Nat := 7

/-- `gcov_write_unsigned(SourceInfo::GenerateCompressedOffset(value))` (profile_writer.cc:112, 137). -/
def compressWord (off : Nat) : Nat :=
  (SourceOffset.generateCompressedOffset (BitVec.ofNat 64 off)).toNat

/-- The call-target loop (profile_writer.cc:117-121). -/
def writeTargets (strs : List Name) : List (Name × Nat) → Option (List UInt8)
  | [] => some []
  | (n, c) :: t =>
    match indexOf n strs, writeTargets strs t with
    | some i, some r =>
      some (writeUnsigned histIndirCallTopn ++ writeCounter i ++ writeCounter c ++ r)
    | _, _ => none

/-- The location loop (profile_writer.cc:110-122). -/
def writePos (strs : List Name) : List (Nat × PInfo) → Option (List UInt8)
  | [] => some []
  | (off, i) :: t =>
    match writeTargets strs i.targets, writePos strs t with
    | some ts, some r =>
      some (writeUnsigned (compressWord off) ++ writeUnsigned i.targets.length ++
        writeCounter i.count ++ ts ++ r)
    | _, _ => none

mutual
/-- `Visit` followed by the callsites (profile_writer.cc:107-123, profile_writer.h:139-147). -/
def writeSym (strs : List Name) : Sym → Option (List UInt8)
  | .mk d cs =>
    match writePos strs d.pos, writeCalls strs cs with
    | some p, some c => some (writeUnsigned d.pos.length ++ writeUnsigned cs.length ++ p ++ c)
    | _, _ => none
/-- `VisitCallsite` and `Traverse` of each callsite (profile_writer.cc:135-141).  The `CHECK`s:
callee name not empty (symbol_map.h:180-183), index not 0. -/
def writeCalls (strs : List Name) : List (Callsite × Sym) → Option (List UInt8)
  | [] => some []
  | (k, s) :: t =>
    if k.2 = [] then none else
    match indexOf k.2 strs, writeSym strs s, writeCalls strs t with
    | some i, some b, some r =>
      if i = 0 then none else some (writeUnsigned (compressWord k.1) ++ writeUnsigned i ++ b ++ r)
    | _, _, _ => none
end

/-- `VisitTopSymbol` and the traversal of one function (profile_writer.cc:125-133). -/
def writeTop (v : Nat) (strs : List Name) (name : Name) (t : Top) : Option (List UInt8) :=
  if name = [] then none else
  match indexOf name strs, writeSym strs t.sym with
  | some i, some b =>
    if i = 0 then none else
    some (writeCounter t.sym.data.head ++ (if v ≥ 3 then writeCounter t.ts else []) ++
      writeUnsigned i ++ b)
  | _, _ => none

/-- `SourceProfileWriter::Write` (profile_writer.cc:101-104). -/
def writeTops (v : Nat) (strs : List Name) : List (Name × Top) → Option (List UInt8)
  | [] => some []
  | (n, t) :: r =>
    match writeTop v strs n t, writeTops v strs r with
    | some a, some b => some (a ++ b)
    | _, _ => none

mutual
/-- `SourceProfileLengther::Visit` summed over a traversal (profile_writer.cc:77-88). -/
def symLength : Sym → Nat
  | .mk d cs => 3 + d.pos.length * 4 + cs.length +
      (d.pos.map (fun p => p.2.targets.length * 5)).sum + callsLength cs
/-- The lengther on the callsites. -/
def callsLength : List (Callsite × Sym) → Nat
  | [] => 0
  | (_, s) :: t => symLength s + callsLength t
end

/-- `SourceProfileLengther::length()` (profile_writer.cc:69). -/
def functionLength (syms : List (Name × Top)) : Nat :=
  (syms.map (fun p => symLength p.2.sym)).sum + syms.length * 2

/-- Everything written after the length word of the GCOV_TAG_AFDO_FUNCTION section
(profile_writer.cc:234-235). -/
def functionBody (v : Nat) (strs : List Name) (syms : List (Name × Top)) : Option (List UInt8) :=
  (writeTops v strs syms).map (fun b => writeUnsigned syms.length ++ b)

/-- The length word of the GCOV_TAG_AFDO_FUNCTION section (profile_writer.cc:231-233). -/
def functionLengthWord (syms : List (Name × Top)) : Nat := functionLength syms + 1

/-- The GCOV_TAG_AFDO_SUMMARY section, only for version ≥ 3 (profile_writer.cc:166-183). -/
def writeSummary (v : Nat) (s : Summary) : List UInt8 :=
  if v ≥ 3 then
    writeUnsigned tagSummary ++ writeCounter s.total ++ writeCounter s.maxCount ++
      writeCounter s.maxFunction ++ writeCounter s.numCounts ++ writeCounter s.numFunctions ++
      writeCounter s.detailed.length ++
      s.detailed.flatMap (fun d => writeUnsigned d.1 ++ writeCounter d.2.1 ++ writeCounter d.2.2)
  else []

/-- Length word of the names section (profile_writer.cc:185-191). -/
def namesLength (strs : List Name) : Nat := (strs.map (fun n => (n.length + 4) / 4 + 1)).sum + 1

/-- One entry of the string table (profile_writer.cc:204-228); `-1` when there is no file. -/
def writeName (v : Nat) (fileIdx : Name → Option Nat) (n : Name) : List UInt8 :=
  writeString v (fixName n) ++
    (if v ≥ 3 then writeUnsigned ((fileIdx n).getD 0xffffffff) else [])

/-- The GCOV_TAG_AFDO_FILE_NAMES section (profile_writer.cc:193-228). -/
def writeNames (v : Nat) (files : List Name) (fileIdx : Name → Option Nat) (strs : List Name) :
    List UInt8 :=
  writeUnsigned tagFileNames ++ writeUnsigned (namesLength strs) ++
    (if v ≥ 3 then writeUnsigned files.length ++ files.flatMap (writeString v) else []) ++
    writeUnsigned strs.length ++ strs.flatMap (writeName v fileIdx)

/-- `WriteModuleGroup` (profile_writer.cc:238-244). -/
def writeModule : List UInt8 := writeUnsigned tagModule ++ writeUnsigned 0 ++ writeUnsigned 0

/-- `WriteWorkingSet` (profile_writer.cc:246-254); `ws` are the (num_counters, min_counter) of the
128 buckets. -/
def writeWorkingSet (ws : List (Nat × Nat)) : List UInt8 :=
  writeUnsigned tagWorkingSet ++ writeUnsigned (3 * 128) ++
    ws.flatMap (fun w => writeUnsigned (w.1 / 10) ++ writeCounter w.2)

/-- `AutoFDOProfileWriter::WriteToFile` (profile_writer.cc:37-47, 155-270).  All callers pass the
version flag itself as `gcov_version_` (create_gcov.cc:41, profile_merger.cc:183). -/
def writeFile (v : Nat) (p : Profile) : Option (List UInt8) :=
  let strs := stringTable p.syms
  (functionBody v strs p.syms).map (fun body =>
    writeUnsigned magic ++ writeUnsigned v ++ writeUnsigned 0 ++ writeSummary v p.summary ++
      writeNames v p.files p.fileIdx strs ++
      (writeUnsigned tagFunction ++ writeUnsigned (functionLengthWord p.syms) ++ body) ++
      writeModule ++ writeWorkingSet p.workingSet)

/-! ## Reader -/

/-- Reader state: remaining bytes, `symbol_map_->map_`, timestamps. -/
structure St where
  bytes : List UInt8
  map : SymMap
  ts : OMap Name Nat

/-- Reader configuration: `names_`, `force_update_`, version flag, elision policy of the map. -/
structure Cfg where
  names : List Name
  force : Bool
  version : Nat
  pol : Policy

/-- `for (i = 0; i < n; i++) body`. -/
def loopM {S : Type} (f : S → Option S) : Nat → S → Option S
  | 0, s => some s
  | n + 1, s => (f s).bind (loopM f n)

/-- The call-target loop body of `ReadSymbolProfile` (profile_reader.cc:84-94). -/
def readTarget (cfg : Cfg) (top : Name) (stack : List Frame) (upd : Bool) (st : St) : Option St := do
  let (tag, b) ← readUnsigned st.bytes
  if tag ≠ histIndirCallTopn then none else
  let (idx, b) ← readCounter b
  let target ← cfg.names[idx]?
  let (c, b) ← readCounter b
  if cfg.force || upd then
    let (m, _) ← addIndirectCallTarget cfg.pol st.map top stack target c .afdoProfile
    some { st with bytes := b, map := m }
  else some { st with bytes := b }

/-- The frame built from a location word (profile_reader.cc:75, 101). -/
def frameOf (name : Name) (off : Nat) : Frame :=
  ⟨name, 0, SourceOffset.readerLine (BitVec.ofNat 32 off), SourceOffset.readerDisc (BitVec.ofNat 32 off)⟩

/-- The location loop body of `ReadSymbolProfile` (profile_reader.cc:70-95).  `top` is
`new_stack.back().func_name`. -/
def readPos (cfg : Cfg) (name : Name) (stack : List Frame) (upd : Bool) (st : St) : Option St := do
  let (off, b) ← readUnsigned st.bytes
  let (nt, b) ← readUnsigned b
  let (c, b) ← readCounter b
  let stack' := frameOf name off :: stack
  let top := ((stack'.getLast?).map Frame.func).getD name
  let m ← if cfg.force || upd then addSourceCount st.map top stack' c 1 1 false .afdoProfile
    else some st.map
  loopM (readTarget cfg top stack' upd) nt { st with bytes := b, map := m }

/-- The part of `ReadSymbolProfile` that handles a top-level symbol (profile_reader.cc:57-69): new
state and `update`. -/
def readTopInfo (cfg : Cfg) (name : Name) (head ts : Nat) (upd : Bool) (st : St) :
    Option (St × Bool) := do
  -- AddSymbol, without aliases (symbol_map.cc:343-349)
  let m := OMap.emplace name Sym.new st.map
  let tsm := OMap.set name ts st.ts
  let s ← OMap.find? m name
  let upd := if !cfg.force && s.data.total > 0 then false else upd
  let m ← if cfg.force || upd then addSymbolEntryCount m name head 0 else some m
  some ({ st with map := m, ts := tsm }, upd)

/-- `ReadSymbolProfile` (profile_reader.cc:39-108).  `fuel` bounds the recursion depth; every level
consumes input, so the file length is enough. -/
def readSym (cfg : Cfg) : Nat → List Frame → Bool → St → Option St
  | 0, _, _, _ => none
  | fuel + 1, stack, upd, st => do
    let (head, b) ← if stack.isEmpty then readCounter st.bytes else some (0, st.bytes)
    let (ts, b) ← if stack.isEmpty && decide (cfg.version ≥ 3) then readCounter b else some (0, b)
    let (idx, b) ← readUnsigned b
    let name ← cfg.names[idx]?
    let (np, b) ← readUnsigned b
    let (nc, b) ← readUnsigned b
    let st := { st with bytes := b }
    let (st, upd) ← if stack.isEmpty then readTopInfo cfg name head ts upd st else some (st, upd)
    let st ← loopM (readPos cfg name stack upd) np st
    loopM (fun st => do
      let (off, b) ← readUnsigned st.bytes
      readSym cfg fuel (frameOf name off :: stack) upd { st with bytes := b }) nc st

/-- `ReadFunctionProfile` (profile_reader.cc:29-37). -/
def readFunctions (cfg : Cfg) (st : St) : Option St := do
  let (tag, b) ← readUnsigned st.bytes
  if tag ≠ tagFunction then none else
  let (_, b) ← readUnsigned b
  let (n, b) ← readUnsigned b
  loopM (readSym cfg (b.length + 1) [] true) n { st with bytes := b }

/-- One detailed summary entry (profile_reader.cc:121-125). -/
def readDetailed (s : List (Nat × Nat × Nat) × List UInt8) :
    Option (List (Nat × Nat × Nat) × List UInt8) := do
  let (a, b) ← readUnsigned s.2
  let (c, b) ← readCounter b
  let (d, b) ← readCounter b
  some (s.1 ++ [(a, c, d)], b)

/-- `ReadSummary` (profile_reader.cc:110-128); `num` is an `unsigned`. -/
def readSummary (v : Nat) (b : List UInt8) : Option (Option Summary × List UInt8) :=
  if v ≥ 3 then do
    let (tag, b) ← readUnsigned b
    if tag ≠ tagSummary then none else
    let (t, b) ← readCounter b
    let (mc, b) ← readCounter b
    let (mf, b) ← readCounter b
    let (nc, b) ← readCounter b
    let (nf, b) ← readCounter b
    let (n, b) ← readCounter b
    let (ds, b) ← loopM readDetailed (n % 4294967296) ([], b)
    some (some ⟨t, mc, mf, nc, nf, ds⟩, b)
  else some (none, b)

/-- One file name (profile_reader.cc:135-137). -/
def readFileName (v : Nat) (s : List Name × List UInt8) : Option (List Name × List UInt8) := do
  let (n, b) ← readString v s.2
  some (s.1 ++ [n], b)

/-- One string table entry (profile_reader.cc:140-145): name and file index. -/
def readName (v : Nat) (s : List (Name × Nat) × List UInt8) :
    Option (List (Name × Nat) × List UInt8) := do
  let (n, b) ← readString v s.2
  let (f, b) ← if v ≥ 3 then readUnsigned b else some (0xffffffff, b)
  some (s.1 ++ [(n, f)], b)

/-- `ReadNameTable` (profile_reader.cc:130-146): file names, names with file index. -/
def readNames (v : Nat) (b : List UInt8) : Option (List Name × List (Name × Nat) × List UInt8) := do
  let (tag, b) ← readUnsigned b
  if tag ≠ tagFileNames then none else
  let (_, b) ← readUnsigned b
  let (files, b) ←
    if v ≥ 3 then do
      let (n, b) ← readUnsigned b
      loopM (readFileName v) n ([], b)
    else some ([], b)
  let (n, b) ← readUnsigned b
  let (names, b) ← loopM (readName v) n ([], b)
  some (files, names, b)

/-- `ReadModuleGroup` (profile_reader.cc:21-27). -/
def readModule (b : List UInt8) : Option (List UInt8) := do
  let (tag, b) ← readUnsigned b
  if tag ≠ tagModule then none else
  let (_, b) ← readUnsigned b
  let (_, b) ← readUnsigned b
  some b

/-- One bucket (profile_reader.cc:151-156): the values handed to `UpdateWorkingSet`. -/
def readBucket (s : List (Nat × Nat) × List UInt8) : Option (List (Nat × Nat) × List UInt8) := do
  let (a, b) ← readUnsigned s.2
  let (c, b) ← readCounter b
  some (s.1 ++ [(a * 10 % 4294967296, c)], b)

/-- `ReadWorkingSet` (profile_reader.cc:148-157). -/
def readWorkingSet (b : List UInt8) : Option (List (Nat × Nat) × List UInt8) := do
  let (tag, b) ← readUnsigned b
  if tag ≠ tagWorkingSet then none else
  let (_, b) ← readUnsigned b
  loopM readBucket 128 ([], b)

/-- Everything obtained from a file. -/
structure ReadResult where
  map : SymMap
  ts : OMap Name Nat
  summary : Option Summary
  files : List Name
  names : List (Name × Nat)
  workingSet : List (Nat × Nat)

/-- `AutoFDOProfileReader::ReadFromFile` (profile_reader.cc:159-176) into the map `m`. -/
def readFile (force : Bool) (pol : Policy) (m : SymMap) (ts : OMap Name Nat) (b : List UInt8) :
    Option ReadResult := do
  let (mg, b) ← readUnsigned b
  if mg ≠ magic then none else
  let (v, b) ← readUnsigned b
  let (_, b) ← readUnsigned b
  let (summary, b) ← readSummary v b
  let (files, names, b) ← readNames v b
  let st ← readFunctions ⟨names.map Prod.fst, force, v, pol⟩ ⟨b, m, ts⟩
  let b ← readModule st.bytes
  let (ws, _) ← readWorkingSet b
  some ⟨st.map, st.ts, summary, files, names, ws⟩

end Verif.Afdo

import Verif.CreateGcov
import Verif.PropRun
import Verif.LlvmLine
import Verif.LlvmProps
import Verif.SymList
import Verif.SpeReader
import Verif.ElfMore

/-!
# C95: the whole `create_llvm_prof` command (create_llvm_prof.cc:197-290; profile_creator.cc:118-222; llvm_profile_writer.cc:34-63,
170-206; symbol_map.cc:495-520; source_info.h:38-64)

From the flags and the files to the exit status and the profile handed to LLVM's writer, for all formats and profilers.  The build with
LLVM: inline stacks are those of C93, `perf_spe` is read by `PerfSpeDataSampleReader` (C86).  C12, C53, C56, C72, C89, C91 and C94 are
put together here.
-/
namespace Verif.CreateLlvm
open Verif Verif.SymbolMap Verif.AddrLookup Verif.Sample Verif.Compute Verif.Pipeline
open Verif.Elf (buildSymbolMap loadableSegs buildId usesFsDiscriminator toName)
open Verif.CreateGcov (Samples Result options core IsProfile defaultRe)

/-- The flags that matter: those of `create_gcov` (C94; the version is not used), those of C89, `--use_fs_discriminator`,
`--use_base_only_in_fs_discriminator`, `--disassemble_arm_branches` and `--symbol_list_size_coverage_ratio`. -/
structure Flags extends CreateGcov.Flags where
  cli : PropCli.Flags
  useFs : Bool
  baseOnly : Bool
  disassemble : Bool
  ratioNum : Nat
  ratioDen : Nat

/-- `llvm::DILocation::getBaseDiscriminatorFromDiscriminator` and `getDuplicationFactorFromDiscriminator`. -/
structure Discr where
  base : Nat → Nat
  dup : Nat → Nat

/-- The files: as for `create_gcov` (`spe` is not used, `canOpen`: LLVM's writer can be created), the debug information as LLVM reads
it (`none`: it is not an object file), what `PerfSpeDataSampleReader` sees, and whether writing succeeds. -/
structure Files extends CreateGcov.Files where
  debug : Option LlvmLine.Debug
  discr : Discr
  speBin : SpeReader.Binary
  speFile : Option SpeReader.File
  writes : Bool

/-- The discriminator of a location (source_info.h:38-52); `--use_discriminator_encoding` is set by the command. -/
def locDiscr (fs baseOnly : Bool) (x : Discr) (d : Nat) : Nat := if if fs then baseOnly else true then x.base d else d

/-- `DuplicationFactor` (source_info.h:54-62). -/
def dupFactor (fs : Bool) (x : Discr) (d : Nat) : Nat := if fs then 1 else x.dup d

/-- A `SourceInfo` as the symbol map sees it: without files, numbers of 32 bits. -/
def toFrame (fs baseOnly : Bool) (x : Discr) (f : LlvmLine.Frame) : Frame :=
  ⟨toName (f.func.getD []), BitVec.ofNat 32 f.startLine, BitVec.ofNat 32 f.line, BitVec.ofNat 32 (locDiscr fs baseOnly x (f.discr % 2 ^ 32))⟩

/-- The lookups of `Profile` (profile.cc:54-129, 183-212) in a binary that was read. -/
def binOf (fs baseOnly : Bool) (x : Discr) (m : Elf.SymMap) (segs : List Seg) (d : LlvmLine.Debug) : Bin where
  syms := m.map
  vaddr := fun a => (staticVaddr segs a).getD 0
  stack := fun a => (LlvmLine.getInlineStack d a []).map (toFrame fs baseOnly x)
  dup := fun a => match LlvmLine.getInlineStack d a [] with
    | [] => 1
    | f :: _ => dupFactor fs x (f.discr % 2 ^ 32)

/-- `SourceInfo::use_fs_discriminator` after `BuildSymbolMap` (symbol_map.cc:512-516). -/
def usesFs (F : Flags) (W : Files) : Option Bool := (usesFsDiscriminator W.path W.disk).map fun b => b || F.useFs

/-- The search of `PerfSpeDataSampleReader` for the binary (profile_creator.cc:162-175, 190-194). -/
def speRe (F : Flags) (W : Files) (n : Name) : Bool :=
  F.search (if F.focus ≠ [] then F.focus else defaultRe W.path) (n.map UInt8.toNat)

/-- `ReadSample` (profile_creator.cc:159-213): as in C94 but for `perf_spe`.  Simplified: segments that cannot be read are no segments. -/
def readSample (F : Flags) (W : Files) : Option (Option Samples) :=
  if F.profiler = .perfSpe then
    (options F.toFlags W.toFiles).bind fun _ =>
    (SpeReader.append (if F.disassemble then .disassembly else .sampling) (speRe F W)
        { W.speBin with loads := fun k => (loadableSegs W.path W.disk k).getD [] } W.speFile Maps.empty).map fun r =>
      if r.2 then some ⟨r.1, r.1.totalCountFrom 0, false, []⟩ else none
  else CreateGcov.readSample F.toFlags W.toFiles

/-- `get_static_vaddr` of every sample finds a segment (symbol_map.h:331-340). -/
def addrsOk (segs : List Seg) (S : Samples) : Bool :=
  (S.maps.addr.all fun x => (staticVaddr segs x.1).isSome) &&
  (S.maps.range.all fun x => (staticVaddr segs (ofLex x.1).1).isSome && (staticVaddr segs (ofLex x.1).2).isSome) &&
  (S.maps.branch.all fun x => (staticVaddr segs (ofLex x.1).1).isSome && (staticVaddr segs (ofLex x.1).2).isSome) &&
  S.times.all fun x => (staticVaddr segs x.1).isSome

/-- `ReadLoadableExecSegmentInfo` and `ComputeProfile` (profile_creator.cc:132-133, 214-222). -/
def compute (F : Flags) (W : Files) (m : Elf.SymMap) (fs : Bool) (S : Samples)
    (shuffle : List (Name × FnMaps) → List (Name × FnMaps)) : Option (Option Result) :=
  (loadableSegs W.path W.disk S.kernel).bind fun segs =>
  match W.debug with
  | none => some none
  | some d =>
    if addrsOk segs S then (core (binOf fs F.baseOnly W.discr m segs d) (aliasesOf m) F.toFlags S shuffle).map some else none

/-- `ConvertPrefetchHints` (profile_creator.cc:223-268). -/
def convert (F : Flags) (W : Files) (m : Elf.SymMap) (fs : Bool) : Option (Option Result) :=
  match W.debug with
  | none => some none
  | some d => (Prefetch.readHints W.text).bind fun H =>
    ((Prefetch.convert m.map (binOf fs F.baseOnly W.discr m [] d).stack (aliasesOf m) F.cfg.pol H).bind (elide F.cfg.pol)).map fun st =>
      some ⟨st, fun _ => 0, 0, List.replicate 128 (0, 0)⟩

/-- `CreateProfile` (profile_creator.cc:118-134) up to the writer: the symbols of the binary, the flag about discriminators, and the
profile. -/
def create (F : Flags) (W : Files) (shuffle : List (Name × FnMaps) → List (Name × FnMaps)) :
    Option (Option (Elf.SymMap × Bool × Result)) :=
  (buildSymbolMap W.path W.disk).bind fun m =>
  (usesFs F W).bind fun fs =>
  (if F.profiler = .prefetch then convert F W m fs
    else (readSample F W).bind fun
      | none => some none
      | some S => compute F W m fs S shuffle).map fun o => o.map fun r => (m, fs, r)

/-- What LLVM's writer gets: the format, the profiles, `ProfileIsFS` and the symbol list (llvm_profile_writer.cc:34-63;
profile_creator.cc:136-153). -/
structure Output where
  format : PropCli.Format
  profiles : OMap Name FSamples
  isFs : Bool
  symList : Option (List Name)

/-- The map of the symbols. -/
def symMap (r : Result) : SymMap := r.store.map.map fun x => (x.1, r.store.heap x.2)

/-- The symbol list (profile_creator.cc:141-146); `own` are the names in the symbols. -/
def listOf (F : Flags) (own : Nat → Name) (m : Elf.SymMap) (r : Result) : Option (List Name) :=
  SymList.symbolList F.cfg.pol (r.store.map.map fun x => (x.1, own x.2, r.store.heap x.2)) m.map F.ratioNum F.ratioDen

/-- How the command ends: the program stops; it exits with a status, after a profile was handed to the writer or not; or what C91 says. -/
inductive Outcome where
  | stop
  | exit (status : Int) (out : Option Output)
  | propeller (r : PropRun.Exit × (Name → Option (List Char)))

/-- The list is made, the writer created, and the profile converted and written (profile_creator.cc:136-156;
llvm_profile_writer.cc:34-63, 184-206). -/
def write (F : Flags) (W : Files) (own : Nat → Name) (format : PropCli.Format) (symList : Bool) (m : Elf.SymMap) (fs : Bool) (r : Result) :
    Outcome :=
  match (if symList then (listOf F own m r).map some else some none : Option (Option (List Name))) with
  | none => .stop
  | some l =>
    if W.canOpen then
      match writeProfiles r.threshold (symMap r) with
      | none => .stop
      | some P => .exit (if W.writes then 0 else -1) (some ⟨format, P, fs, l⟩)
    else .exit (-1) none

/-- `main` (create_llvm_prof.cc:197-290). `lists` are the contents of files; `fr` and `w` are for propeller (C91). -/
def run (F : Flags) (W : Files) (lists : Name → Name) (fr : PropRun.Free) (w : PropRun.World) (own : Nat → Name)
    (shuffle : List (Name × FnMaps) → List (Name × FnMaps)) : Outcome :=
  match PropCli.plan lists F.cli with
  | none => .exit 1 none
  | some (.propeller o) => .propeller (PropRun.run fr w o)
  | some (.llvm format _ _ _ symList) =>
    match create F W shuffle with
    | none => .stop
    | some none => .exit (-1) none
    | some (some (m, fs, r)) => write F W own format symList m fs r

/-! ## Specification -/

variable {path bs : List Nat}

/-- The profile of the program has flow-sensitive discriminators: by the flag, or because a symbol says so. -/
def IsFs (g : ElfProgram path bs) (F : Flags) : Prop :=
  F.useFs = true ∨ ∃ y ∈ g.syms ++ g.dyn, y.1.name ≠ 0 ∧ y.2 = Elf.str "__llvm_fs_discriminator__"

/-- The discriminator of a location: without flow-sensitive discriminators, or if asked for, only the base. -/
structure DiscrOf (fs : Prop) (F : Flags) (x : Discr) (d k : Nat) : Prop where
  plain : ¬ fs → k = x.base d
  base : fs → F.baseOnly = true → k = x.base d
  full : fs → F.baseOnly = false → k = d

/-- The inline stack of an address by the debug information (C93): empty without a unit or a line table; otherwise one frame for each
function of the chain, with its name and first line, and the line and discriminator in it. -/
structure StackAt (fs : Prop) (F : Flags) (x : Discr) (d : LlvmLine.Debug) (a : Nat) (st : List Frame) : Prop where
  noUnit : d.aranges a = none → st = []
  noTable : ∀ u ∈ d.units, d.aranges a = some u.offset → u.table = none → st = []
  chain : ∀ u ∈ d.units, d.aranges a = some u.offset → ∀ t, u.table = some t →
    st.length = (u.chain a).length ∧ ∀ i h, (u.chain a)[i]? = some h → ∃ f p k, st[i]? = some f ∧
      LlvmLine.posOf t (LlvmLine.rowAt d t a) (u.chain a) i = some p ∧ f.func.map UInt8.toNat = (h.name.getD []).map (· % 256) ∧
      f.startLine.toNat = h.declLine % 2 ^ 32 ∧ f.line.toNat = p.line % 2 ^ 32 ∧
      DiscrOf fs F x (p.discr % 2 ^ 32) k ∧ f.disc.toNat = k % 2 ^ 32

/-- What C53 has to know about the program is what is in the file. -/
structure IsBin (g : ElfProgram path bs) (F : Flags) (W : Files) (d : LlvmLine.Debug) (b : Bin) : Prop where
  syms : ∀ e, e ∈ b.syms ↔ g.HasFn e
  vaddr : ∀ x a, g.Code x a → b.vaddr x = a
  stack : ∀ a, StackAt (IsFs g F) F W.discr d a (b.stack a)
  dupFs : IsFs g F → ∀ a, b.dup a = 1
  dup : ¬ IsFs g F → ∀ a, ∀ u ∈ d.units, d.aranges a = some u.offset → ∀ t, u.table = some t → ∀ h r, u.chain a = h :: r →
    b.dup a = W.discr.dup ((match LlvmLine.rowAt d t a with | none => 0 | some (_, _, k) => k) % 2 ^ 32)

/-- The LLVM profile `fs` says of the function what the symbol `s` does: the same inlined instances, with the same totals, and the same
counts and targets at the same locations; and the same entry count. -/
structure SameProfile (s : Sym) (fs : FSamples) : Prop where
  node : ∀ p, (fs.node? p).isSome = (s.node? p).isSome
  total : ∀ p, fs.totalAt p = s.totalAt p
  count : ∀ p loc, fs.countAt p loc = s.countAt p loc
  hasLoc : ∀ p loc, fs.hasLoc p loc = s.hasLoc p loc
  target : ∀ p loc t, fs.target? p loc t = s.target? p loc t
  head : fs.data.head = s.data.head

/-- The output has the symbols above the threshold, and nothing else; and the list that C72 describes, if asked for. -/
structure Holds (g : ElfProgram path bs) (F : Flags) (own : Nat → Name) (r : Result) (o : Output) : Prop where
  format : o.format = F.cli.format
  isFs : o.isFs = true ↔ IsFs g F
  written : ∀ n i, OMap.find? r.store.map n = some i → (r.store.heap i).data.total > r.threshold →
    ∃ fs, OMap.find? o.profiles n = some fs ∧ SameProfile (r.store.heap i) fs
  only : ∀ n, (∀ i, OMap.find? r.store.map n = some i → ¬ (r.store.heap i).data.total > r.threshold) → OMap.find? o.profiles n = none
  noList : F.cli.symList = false → o.symList = none
  list : F.cli.symList = true → ∃ l, o.symList = some l ∧
    (∀ n ∈ l, ∃ e, g.HasFn e ∧
      ¬ SymList.InProfile (r.store.map.map fun x => (x.1, own x.2, r.store.heap x.2)) e.2.1 ∧ n = originalName F.cfg.pol e.2.1) ∧
    (F.ratioNum = F.ratioDen → ∀ e, g.HasFn e → 
      SymList.InProfile (r.store.map.map fun x => (x.1, own x.2, r.store.heap x.2)) e.2.1 ∨ originalName F.cfg.pol e.2.1 ∈ l)

/-- The counts and locations of the profile fit the format of LLVM (C56). -/
def Fits (r : Result) : Prop := ∀ n i, OMap.find? r.store.map n = some i → (r.store.heap i).Writable

/-! ## Proof -/

theorem uses_fs (g : ElfProgram path bs) (F : Flags) (W : Files) (hp : W.path = path) (hd : W.disk = some bs) :
    ∃ fs, usesFs F W = some fs ∧ (fs = true ↔ IsFs g F) := by
  obtain ⟨b, h1, h2⟩ := Elf.fs_discriminator_partial g.elf path g.opens g.syms g.dyn g.tab g.dtab g.isSyms g.isDyn g.short g.short'
  refine ⟨b || F.useFs, ?_, ?_⟩
  · unfold usesFs
    rw [hp, hd, h1]
    rfl
  · rw [Bool.or_eq_true, h2]
    exact Or.comm

theorem locDiscr_spec {P : Prop} {fs : Bool} (h : fs = true ↔ P) (F : Flags) (x : Discr) (d : Nat) :
    DiscrOf P F x d (locDiscr fs F.baseOnly x d) := by
  unfold locDiscr
  cases fs
  · have hP : ¬ P := fun p => by simpa using h.2 p
    exact ⟨fun _ => rfl, fun p => absurd p hP, fun p => absurd p hP⟩
  · have hP : P := h.1 rfl
    refine ⟨fun p => absurd hP p, fun _ hb => by simp [hb], fun _ hb => by simp [hb]⟩

theorem stack_spec {P : Prop} {fs : Bool} (h : fs = true ↔ P) (F : Flags) (x : Discr) (m : Elf.SymMap) (segs : List Seg)
    (d : LlvmLine.Debug) (hd : d.Small) (a : Nat) : StackAt P F x d a ((binOf fs F.baseOnly x m segs d).stack a) := by
  have hs : (binOf fs F.baseOnly x m segs d).stack a = (LlvmLine.getInlineStack d a []).map (toFrame fs F.baseOnly x) := rfl
  obtain ⟨e1, e2⟩ := LlvmLine.stack_empty hd a []
  refine ⟨?_, ?_, ?_⟩
  · intro ha
    rw [hs, e1 ha]
    rfl
  · intro u hu ha ht
    rw [hs, e2 u hu ha ht]
    rfl
  · intro u hu ha t ht
    obtain ⟨fr, h1, h2, h3⟩ := LlvmLine.stack_spec hd a [] u hu ha t ht
    rw [List.nil_append] at h1
    rw [hs, h1]
    refine ⟨by rw [List.length_map]; exact h2, ?_⟩
    intro i g hg
    obtain ⟨y, p, g1, g2, g3, g4, g5, g6, _⟩ := h3 i g hg
    refine ⟨toFrame fs F.baseOnly x y, p, locDiscr fs F.baseOnly x (y.discr % 2 ^ 32), by rw [List.getElem?_map, g1]; rfl, g2, ?_, ?_, ?_, ?_, ?_⟩
    · simp [toFrame, toName, Function.comp_def, UInt8.toNat_ofNat', g3]
    · simp [toFrame, g4]
    · simp [toFrame, g5]
    · rw [g6]
      exact locDiscr_spec h F x _
    · simp [toFrame]

theorem bin_spec (g : ElfProgram path bs) (F : Flags) (W : Files) {fs : Bool} (hfs : fs = true ↔ IsFs g F) (d : LlvmLine.Debug)
    (hd : d.Small) : ∃ m l, buildSymbolMap path (some bs) = some m ∧ loadableSegs path (some bs) false = some l ∧
    BinOk (binOf fs F.baseOnly W.discr m l d) ∧ AliasOk (binOf fs F.baseOnly W.discr m l d) (aliasesOf m) ∧
    IsBin g F W d (binOf fs F.baseOnly W.discr m l d) ∧
    (∀ e ∈ m.map, ∀ n, IsName (aliasesOf m) e.2.1 n ↔ g.NameAt e.1 n) ∧ (∀ x a, g.Code x a → staticVaddr l x = some a) := by
  obtain ⟨m, l, h1, h2, h3, h4, h5, h6, h7⟩ := elf_bin g (fun a => (LlvmLine.getInlineStack d a []).map (toFrame fs F.baseOnly W.discr))
    (fun a => match LlvmLine.getInlineStack d a [] with
      | [] => 1
      | f :: _ => dupFactor fs W.discr (f.discr % 2 ^ 32))
  refine ⟨m, l, h1, h2, h3, h4, ⟨h5, ?_, fun a => stack_spec hfs F W.discr m l d hd a, ?_, ?_⟩, h6, h7⟩
  · intro x a h
    show (staticVaddr l x).getD 0 = a
    rw [h7 x a h]; rfl
  · intro hP a
    have hf : fs = true := hfs.2 hP
    show (match LlvmLine.getInlineStack d a [] with
      | [] => 1
      | f :: _ => dupFactor fs W.discr (f.discr % 2 ^ 32)) = 1
    split
    · rfl
    · unfold dupFactor; rw [hf]; rfl
  · intro hP a u hu ha t ht c r hc
    have hf : fs = false := by
      cases fs
      · rfl
      · exact absurd (hfs.1 rfl) hP
    obtain ⟨fr, e1, e2, e3⟩ := LlvmLine.stack_spec hd a [] u hu ha t ht
    obtain ⟨y, p, g1, g2, _, _, _, g6, _⟩ := e3 0 c (by rw [hc]; rfl)
    rw [List.nil_append] at e1
    show (match LlvmLine.getInlineStack d a [] with
      | [] => 1
      | f :: _ => dupFactor fs W.discr (f.discr % 2 ^ 32)) = _
    rw [e1]
    cases fr with
    | nil => simp at g1
    | cons z fr =>
      have hz : z = y := by simpa using g1
      subst hz
      have hp : p.discr = (match LlvmLine.rowAt d t a with | none => 0 | some (_, _, k) => k) := by
        unfold LlvmLine.posOf at g2
        cases hrow : LlvmLine.rowAt d t a with
        | none => rw [hrow] at g2; cases g2; rfl
        | some q => rw [hrow] at g2; cases g2; rfl
      show dupFactor fs W.discr (z.discr % 2 ^ 32) = _
      unfold dupFactor
      rw [hf, g6, hp]
      rfl

theorem same_llvm (s : Sym) : SameProfile s (s.llvm true) := by
  refine ⟨?_, ?_, llvm_countAt true s, llvm_hasLoc true s, llvm_target true s, ?_⟩
  · intro p
    rw [llvm_node]
    simp
  · intro p
    unfold Sym.totalAt
    rw [llvm_node]
    cases s.node? p <;> rfl
  · cases s with
    | mk d cs => simp [Sym.llvm, Sym.data]

theorem symMap_find (r : Result) (n : Name) : OMap.find? (symMap r) n = (OMap.find? r.store.map n).map r.store.heap := by
  unfold symMap
  generalize r.store.map = l
  induction l with
  | nil => rfl
  | cons x t ih =>
    rw [List.map_cons, OMap.find?, OMap.find?]
    split
    · rfl
    · exact ih

theorem write_spec (g : ElfProgram path bs) (F : Flags) (W : Files) (own : Nat → Name) (m : Elf.SymMap)
    (hm : ∀ e, e ∈ m.map ↔ g.HasFn e) {fs : Bool} (hfs : fs = true ↔ IsFs g F) (r : Result) (hinv : r.store.Inv)
    (hr : F.ratioNum ≤ F.ratioDen) (hden : 0 < F.ratioDen) :
    (Fits r → W.canOpen = true → ∃ o, write F W own F.cli.format F.cli.symList m fs r = .exit (if W.writes then 0 else -1) (some o) ∧
      Holds g F own r o) ∧
    (W.canOpen = false → write F W own F.cli.format F.cli.symList m fs r = .exit (-1) none) := by
  obtain ⟨l, hl, hl1, _, hl2⟩ := SymList.symbol_list F.cfg.pol (r.store.map.map fun x => (x.1, own x.2, r.store.heap x.2)) m.map
    F.ratioNum F.ratioDen hr hden
  have hlist : ∃ o, (if F.cli.symList then (listOf F own m r).map some else some none : Option (Option (List Name))) = some o ∧
      (F.cli.symList = false → o = none) ∧ (F.cli.symList = true → o = some l) := by
    cases hc : F.cli.symList
    · exact ⟨none, rfl, fun _ => rfl, fun h => by cases h⟩
    · refine ⟨some l, ?_, fun h => (by cases h), fun _ => rfl⟩
      unfold listOf
      rw [hl]
      rfl
  obtain ⟨o, ho, ho1, ho2⟩ := hlist
  constructor
  · intro hf hop
    have hwf : (symMap r).WF := by
      constructor
      · have : (symMap r).map Prod.fst = r.store.map.map Prod.fst := by simp [symMap, Function.comp_def]
        have hs := hinv.sorted
        unfold OMap.Sorted at hs ⊢
        unfold symMap
        rw [List.pairwise_map]
        exact hs
      · intro p hp
        obtain ⟨x, hx, rfl⟩ := List.mem_map.1 hp
        exact hinv.wf _ (hinv.alloc x.1 x.2 (OMap.find?_some_of_mem hinv.sorted hx))
    have hwr : ∀ x ∈ symMap r, x.2.Writable := by
      intro p hp
      obtain ⟨x, hx, rfl⟩ := List.mem_map.1 hp
      exact hf x.1 x.2 (OMap.find?_some_of_mem hinv.sorted hx)
    have hP := writeProfiles_eq r.threshold hwf hwr
    refine ⟨⟨F.cli.format, ((symMap r).filter fun x => Threshold.shouldEmit r.threshold x.2.data.total).map fun x => (x.1, x.2.llvm true),
      fs, o⟩, ?_, ?_⟩
    · unfold write
      rw [ho]
      simp only
      rw [if_pos hop, hP]
    · have hsP : OMap.Sorted ((symMap r).filter fun x => Threshold.shouldEmit r.threshold x.2.data.total) := List.Pairwise.filter _ hwf.1
      have hs2 : OMap.Sorted (((symMap r).filter fun x => Threshold.shouldEmit r.threshold x.2.data.total).map fun x => (x.1, x.2.llvm true)) := by
        unfold OMap.Sorted at hsP ⊢
        rw [List.pairwise_map]
        exact hsP
      refine ⟨rfl, hfs, ?_, ?_, ?_, ?_⟩
      · intro n i hi ht
        refine ⟨(r.store.heap i).llvm true, ?_, same_llvm _⟩
        refine OMap.find?_some_of_mem hs2 (List.mem_map.2 ⟨(n, r.store.heap i), List.mem_filter.2 ⟨?_, ?_⟩, rfl⟩)
        · exact OMap.mem_of_find?_some (by rw [symMap_find, hi]; rfl)
        · simpa [Threshold.shouldEmit] using ht
      · intro n hn
        cases hc : OMap.find? (((symMap r).filter fun x => Threshold.shouldEmit r.threshold x.2.data.total).map fun x => (x.1, x.2.llvm true)) n with
        | none => rfl
        | some y =>
          exfalso
          obtain ⟨x, hx, he⟩ := List.mem_map.1 (OMap.mem_of_find?_some hc)
          obtain ⟨hx1, hx2⟩ := List.mem_filter.1 hx
          have h3 := OMap.find?_some_of_mem hwf.1 (show (x.1, x.2) ∈ symMap r from hx1)
          rw [symMap_find] at h3
          obtain ⟨i, hi, hi2⟩ := Option.map_eq_some_iff.1 h3
          have hxn : x.1 = n := (Prod.ext_iff.1 he).1
          rw [hxn] at hi
          refine hn i hi ?_
          rw [hi2]
          simpa [Threshold.shouldEmit] using hx2
      · intro h; exact ho1 h
      · intro h
        refine ⟨l, ho2 h, ?_, ?_⟩
        · intro n hn
          obtain ⟨e, he, h1, h2⟩ := hl1 n hn
          exact ⟨e, (hm e).1 he, h1, h2⟩
        · intro hr e he
          have hpos : 0 < e.2.2 := by
            obtain ⟨pre, y, post, h1, hk, _, _, _, h4⟩ := he
            rw [← h4]
            exact g.sizes y (by rw [h1]; simp) hk
          exact hl2 hr e ((hm e).2 he) hpos
  · intro hop
    unfold write
    rw [ho]
    simp only
    rw [if_neg (by simp [hop])]

theorem run_llvm (F : Flags) (W : Files) (lists : Name → Name) (fr : PropRun.Free) (w : PropRun.World) (own : Nat → Name)
    (shuffle : List (Name × FnMaps) → List (Name × FnMaps)) (hu : ¬ PropCli.UsageError F.cli) (hf : F.cli.format ≠ .propeller) :
    run F W lists fr w own shuffle = match create F W shuffle with
      | none => .stop
      | some none => .exit (-1) none
      | some (some (m, fs, r)) => write F W own F.cli.format F.cli.symList m fs r := by
  unfold run
  cases hp : PropCli.plan lists F.cli with
  | none => exact absurd ((PropCli.plan_refuses_iff lists F.cli).1 hp) hu
  | some a =>
    rw [(PropCli.plan_spec lists F.cli a hp).2 hf]

/-- **C95, samples.** For every program, every accepted command line with a format other than `propeller`, every profiler but `prefetch`,
and every profile of samples in the code of the program: the profile of these samples (`IsProfile` of C94, with the inline stacks that
LLVM finds) is handed to LLVM's writer in the format asked for, and the command ends with status 0 if that succeeds. -/
theorem create_llvm (g : ElfProgram path bs) (F : Flags) (W : Files) (hp : W.path = path) (hd : W.disk = some bs)
    (hu : ¬ PropCli.UsageError F.cli) (hfm : F.cli.format ≠ .propeller) (hr : F.ratioNum ≤ F.ratioDen) (hden : 0 < F.ratioDen)
    (d : LlvmLine.Debug) (hdb : W.debug = some d) (hsm : d.Small)
    (hpre : F.profiler ≠ .prefetch) (S : Samples) (hread : readSample F W = some (some S)) (hk : S.kernel = false)
    (hcov : g.Covers S.maps) (ht : ∀ x ∈ S.times, ∃ a, g.Code x.1 a)
    (lists : Name → Name) (fr : PropRun.Free) (w : PropRun.World) (own : Nat → Name)
    (shuffle : List (Name × FnMaps) → List (Name × FnMaps)) (hsh : ∀ l, (shuffle l).Perm l) :
    ∃ b st r, IsBin g F W d b ∧ IsProfile g F.toFlags S b st r ∧
      (Fits r → W.canOpen = true → ∃ o, run F W lists fr w own shuffle = .exit (if W.writes then 0 else -1) (some o) ∧
        Holds g F own r o) ∧
      (W.canOpen = false → run F W lists fr w own shuffle = .exit (-1) none) := by
  obtain ⟨fs, hfs, hfs'⟩ := uses_fs g F W hp hd
  obtain ⟨m, l, hm, hl, hbin, hal, hIs, hnm, hlv⟩ := bin_spec g F W hfs' d hsm
  obtain ⟨st, r, h1, h2, h3⟩ := CreateGcov.core_spec g F.toFlags S _ hbin (aliasesOf m) hal hIs.syms hnm shuffle hsh
  have hs : ∀ x, (∃ a, g.Code x a) → (staticVaddr l x).isSome = true := by
    rintro x ⟨a, ha⟩
    rw [hlv x a ha]; rfl
  have hok : addrsOk l S = true := by
    unfold addrsOk
    simp only [Bool.and_eq_true, List.all_eq_true]
    exact ⟨⟨⟨fun x hx => hs _ (hcov.addr x hx), fun x hx => ⟨hs _ (hcov.range x hx).1, hs _ (hcov.range x hx).2⟩⟩,
      fun x hx => ⟨hs _ (hcov.branch x hx).1, hs _ (hcov.branch x hx).2⟩⟩, fun x hx => hs _ (ht x hx)⟩
  have hcr : create F W shuffle = some (some (m, fs, r)) := by
    unfold create
    rw [hp, hd, hm, Option.bind_some, hfs, Option.bind_some, if_neg hpre, hread, Option.bind_some]
    simp only
    unfold compute
    rw [hp, hd, hk, hl, Option.bind_some, hdb]
    simp only
    rw [if_pos hok, h1]
    rfl
  obtain ⟨w1, w2⟩ := write_spec g F W own m hIs.syms hfs' r h3 hr hden
  refine ⟨_, st, r, hIs, h2, ?_, ?_⟩
  · rw [run_llvm F W lists fr w own shuffle hu hfm, hcr]
    exact w1
  · rw [run_llvm F W lists fr w own shuffle hu hfm, hcr]
    exact w2

/-- **C95, hints.** The same for the profiler `prefetch` and the hints of C75. -/
theorem create_llvm_prefetch (g : ElfProgram path bs) (F : Flags) (W : Files) (hp : W.path = path) (hd : W.disk = some bs)
    (hu : ¬ PropCli.UsageError F.cli) (hfm : F.cli.format ≠ .propeller) (hr : F.ratioNum ≤ F.ratioDen) (hden : 0 < F.ratioDen)
    (d : LlvmLine.Debug) (hdb : W.debug = some d) (hsm : d.Small)
    (hpre : F.profiler = .prefetch) (H : List Prefetch.Hint) (hf : ∀ h ∈ H, h.Fits) (tail : List Char)
    (ht : Prefetch.scanHint tail = none) (hs : Sample.skipWs tail = tail) (htext : W.text = some (H.flatMap Prefetch.line ++ tail))
    (lists : Name → Name) (fr : PropRun.Free) (w : PropRun.World) (own : Nat → Name)
    (shuffle : List (Name × FnMaps) → List (Name × FnMaps)) :
    ∃ (stack : Nat → List Frame) (st : Store) (r : Result),
      (∀ a, StackAt (IsFs g F) F W.discr d a (stack a)) ∧ r.threshold = 0 ∧ elide F.cfg.pol st = some r.store ∧
      ((∀ e a, g.HasFn e → g.NameAt e.1 a → originalName F.cfg.pol a = a) → r.store = st) ∧
      (∀ n, (OMap.find? st.map n).isSome = true ↔ ∃ e, g.HasFn e ∧ (∃ h ∈ H, Prefetch.In e h) ∧ g.NameAt e.1 n) ∧
      (∀ e, g.HasFn e → (∃ h ∈ H, Prefetch.In e h) →
        ∃ i, Prefetch.HintProfile stack F.cfg.pol H e (st.heap i) ∧ ∀ n, g.NameAt e.1 n → OMap.find? st.map n = some i) ∧
      (Fits r → W.canOpen = true → ∃ o, run F W lists fr w own shuffle = .exit (if W.writes then 0 else -1) (some o) ∧
        Holds g F own r o) ∧
      (W.canOpen = false → run F W lists fr w own shuffle = .exit (-1) none) := by
  obtain ⟨fs, hfs, hfs'⟩ := uses_fs g F W hp hd
  obtain ⟨m, l, hm, hl, hbin, hal, hIs, hnm, hlv⟩ := bin_spec g F W hfs' d hsm
  obtain ⟨st, h1, h2, h3, h4, _⟩ := Prefetch.convert_hints (binOf fs F.baseOnly W.discr m l d) hbin (aliasesOf m) hal F.cfg.pol H
  obtain ⟨st', h5, h6, _⟩ := elide_conserves F.cfg.pol st h2
  have hcr : create F W shuffle = some (some (m, fs, ⟨st', fun _ => 0, 0, List.replicate 128 (0, 0)⟩)) := by
    unfold create
    rw [hp, hd, hm, Option.bind_some, hfs, Option.bind_some, if_pos hpre]
    unfold convert
    rw [hdb]
    simp only
    rw [htext, Prefetch.read_hints H hf tail ht hs, Option.bind_some]
    have h1' : Prefetch.convert m.map (binOf fs F.baseOnly W.discr m [] d).stack (aliasesOf m) F.cfg.pol H = some st := h1
    rw [h1', Option.bind_some, h5]
    rfl
  obtain ⟨w1, w2⟩ := write_spec g F W own m hIs.syms hfs' ⟨st', fun _ => 0, 0, List.replicate 128 (0, 0)⟩ h6 hr hden
  refine ⟨_, st, ⟨st', fun _ => 0, 0, List.replicate 128 (0, 0)⟩, hIs.stack, rfl, h5, ?_, ?_, ?_, ?_, ?_⟩
  · intro hno
    have := alias_elide F.cfg.pol st (by
      intro n hn
      obtain ⟨e, he, _, h⟩ := (h3 n).1 hn
      exact hno e n ((hIs.syms e).1 he) ((hnm e he n).1 h))
    rw [h5] at this
    exact Option.some.inj this
  · intro n
    rw [h3 n]
    constructor
    · rintro ⟨e, he, hf, h⟩
      exact ⟨e, (hIs.syms e).1 he, hf, (hnm e he n).1 h⟩
    · rintro ⟨e, he, hf, h⟩
      exact ⟨e, (hIs.syms e).2 he, hf, (hnm e ((hIs.syms e).2 he) n).2 h⟩
  · intro e he hh
    obtain ⟨i, g1, g2⟩ := h4 e ((hIs.syms e).2 he) hh
    exact ⟨i, g1, fun n hn => g2 n ((hnm e ((hIs.syms e).2 he) n).2 hn)⟩
  · rw [run_llvm F W lists fr w own shuffle hu hfm, hcr]
    exact w1
  · rw [run_llvm F W lists fr w own shuffle hu hfm, hcr]
    exact w2

/-- **C95, failures.** A command line that is not accepted ends with status 1 and nothing is written; if the samples cannot be read, or
the binary is not an object file to LLVM, the status is -1 and nothing is written. -/
theorem create_llvm_fails (F : Flags) (W : Files) (lists : Name → Name) (fr : PropRun.Free) (w : PropRun.World) (own : Nat → Name)
    (shuffle : List (Name × FnMaps) → List (Name × FnMaps)) :
    (PropCli.UsageError F.cli → run F W lists fr w own shuffle = .exit 1 none) ∧
    (¬ PropCli.UsageError F.cli → F.cli.format ≠ .propeller → ∀ g : ElfProgram path bs, W.path = path → W.disk = some bs →
      (F.profiler ≠ .prefetch → readSample F W = some none → run F W lists fr w own shuffle = .exit (-1) none) ∧
      (W.debug = none → F.profiler = .prefetch → run F W lists fr w own shuffle = .exit (-1) none) ∧
      (W.debug = none → F.profiler ≠ .prefetch → ∀ S, readSample F W = some (some S) → S.kernel = false →
        run F W lists fr w own shuffle = .exit (-1) none)) := by
  constructor
  · intro h
    unfold run
    rw [(PropCli.plan_refuses_iff lists F.cli).2 h]
  · intro hu hfm g hp hd
    obtain ⟨fs, hfs, _⟩ := uses_fs g F W hp hd
    obtain ⟨m, hm, _⟩ := program_symbols g
    obtain ⟨l, hl, _⟩ := code_vaddr g
    rw [run_llvm F W lists fr w own shuffle hu hfm]
    unfold create
    rw [hp, hd, hm, Option.bind_some, hfs, Option.bind_some]
    refine ⟨?_, ?_, ?_⟩
    · intro h1 h2
      rw [if_neg h1, h2]
      rfl
    · intro h1 h2
      rw [if_pos h2]
      unfold convert
      rw [h1]
      rfl
    · intro h1 h2 S h3 h4
      rw [if_neg h2, h3, Option.bind_some]
      simp only
      unfold compute
      rw [hp, hd, h4, hl, Option.bind_some, h1]
      rfl

/-- **C95, samples read.** What is read is, for `perf`, `text` and unknown profilers, what `create_gcov` reads (C94); for `perf_spe`, what
C86 says, by the disassembler or by sampling as asked for. -/
theorem read_sample (F : Flags) (W : Files) :
    (F.profiler ≠ .perfSpe → readSample F W = CreateGcov.readSample F.toFlags W.toFiles) ∧
    (F.profiler = .perfSpe → ∀ id, buildId W.path W.disk = some id → ∀ bin re st,
      bin = { W.speBin with loads := fun k => (loadableSegs W.path W.disk k).getD [] } →
      (F.focus ≠ [] → ∀ n, re n = F.search F.focus (n.map UInt8.toNat)) →
      (F.focus = [] → ∀ n, re n = F.search (defaultRe W.path) (n.map UInt8.toNat)) →
      (st = SpeReader.Strategy.disassembly ↔ F.disassemble = true) →
      (SpeReader.append st re bin W.speFile Maps.empty = none → readSample F W = none) ∧
      (∀ M, SpeReader.append st re bin W.speFile Maps.empty = some (M, false) → readSample F W = some none) ∧
      ∀ M, SpeReader.append st re bin W.speFile Maps.empty = some (M, true) →
        readSample F W = some (some ⟨M, M.totalCountFrom 0, false, []⟩)) := by
  constructor
  · intro h
    unfold readSample
    rw [if_neg h]
  · intro h id hid bin re st hbin hre1 hre2 hst
    have hopt : ∃ o, options F.toFlags W.toFiles = some o := by
      unfold options
      split
      · exact ⟨_, rfl⟩
      · rw [hid]; exact ⟨_, rfl⟩
    obtain ⟨o, ho⟩ := hopt
    have hre : re = speRe F W := by
      funext n
      unfold speRe
      by_cases hf : F.focus = []
      · rw [hre2 hf n, if_neg (by simp [hf])]
      · rw [hre1 hf n, if_pos hf]
    have hst' : st = if F.disassemble then SpeReader.Strategy.disassembly else .sampling := by
      cases hd : F.disassemble
      · cases st
        · exact absurd (hst.1 rfl) (by simp [hd])
        · rfl
      · exact hst.2 hd
    unfold readSample
    rw [if_pos h, ho, Option.bind_some, ← hst', ← hre, ← hbin]
    refine ⟨?_, ?_, ?_⟩
    · intro e; rw [e]; rfl
    · intro M e; rw [e]; rfl
    · intro M e; rw [e]; rfl

/-- **C95, propeller.** With `--format=propeller` the command is C91's, with the options of C89. -/
theorem create_llvm_propeller (F : Flags) (W : Files) (lists : Name → Name) (fr : PropRun.Free) (w : PropRun.World) (own : Nat → Name)
    (shuffle : List (Name × FnMaps) → List (Name × FnMaps)) (hu : ¬ PropCli.UsageError F.cli) (hf : F.cli.format = .propeller) :
    ∃ o : PropCli.Options, run F W lists fr w own shuffle = .propeller (PropRun.run fr w o) ∧ o.binary = F.cli.binary ∧
      o.clusterOut = PropCli.outName F.cli ∧ o.symOrder = F.cli.symOrder ∧ o.inputs = PropCli.inputsOf lists F.cli := by
  cases hp : PropCli.plan lists F.cli with
  | none => exact absurd ((PropCli.plan_refuses_iff lists F.cli).1 hp) hu
  | some a =>
    obtain ⟨o, rfl, h1, h2, h3, h4, _⟩ := (PropCli.plan_spec lists F.cli a hp).1 hf
    refine ⟨o, ?_, h3, h1, h4, h2⟩
    unfold run
    rw [hp]

/-- **C95, violated: no error for missing hints.** With the profiler `prefetch` and a profile that cannot be opened the command ends with
status 0, after writing a profile without functions. -/
theorem missing_hints_violated (g : ElfProgram path bs) (F : Flags) (W : Files) (hp : W.path = path) (hd : W.disk = some bs)
    (hu : ¬ PropCli.UsageError F.cli) (hfm : F.cli.format ≠ .propeller) (hl : F.cli.symList = false)
    (d : LlvmLine.Debug) (hdb : W.debug = some d) (hpre : F.profiler = .prefetch) (htext : W.text = none) (ho : W.canOpen = true)
    (hw : W.writes = true) (lists : Name → Name) (fr : PropRun.Free) (w : PropRun.World) (own : Nat → Name)
    (shuffle : List (Name × FnMaps) → List (Name × FnMaps)) :
    ∃ o, run F W lists fr w own shuffle = .exit 0 (some o) ∧ o.profiles = [] := by
  obtain ⟨fs, hfs, _⟩ := uses_fs g F W hp hd
  obtain ⟨m, hm, _⟩ := program_symbols g
  refine ⟨⟨F.cli.format, [], fs, none⟩, ?_, rfl⟩
  rw [run_llvm F W lists fr w own shuffle hu hfm]
  unfold create
  rw [hp, hd, hm, Option.bind_some, hfs, Option.bind_some, if_pos hpre]
  unfold convert
  rw [hdb]
  simp only
  rw [htext]
  have e1 : Prefetch.readHints none = some [] := rfl
  rw [e1, Option.bind_some]
  have e2 : ∀ stack al, (Prefetch.convert m.map stack al F.cfg.pol []).bind (elide F.cfg.pol) = some ⟨[], fun _ => Sym.new, 0⟩ := by
    intro stack al
    rfl
  rw [e2]
  simp only [Option.map_some]
  unfold write
  rw [hl]
  simp only [Bool.false_eq_true, if_false]
  rw [if_pos ho, hw]
  rfl

/-! ## Concrete cases -/

/-- One unit: `f` inlined in `main`, everywhere. -/
def exDebug : LlvmLine.Debug where
  fileName := [120]
  secs := []
  units := [⟨0, some ⟨4, [], [([97], 0)], [(1, 7, 5)], fun _ _ => some 0⟩,
    fun _ => [⟨some [102], 5, 1, 3, 0⟩, ⟨some (Elf.str "main"), 1, 0, 0, 0⟩]⟩]
  aranges := fun _ => some 0

theorem ex_small : exDebug.Small := by
  refine ⟨?_, by simp [exDebug], ?_, ?_⟩
  · intro u hu
    simp only [exDebug, List.mem_cons, List.not_mem_nil, or_false] at hu
    subst hu
    simp
  · intro a o h
    simp only [exDebug] at h
    cases h
    exact ⟨_, List.mem_cons_self .., rfl⟩
  · intro u hu t ht
    simp only [exDebug, List.mem_cons, List.not_mem_nil, or_false] at hu
    subst hu
    cases ht
    simp

def exCli : PropCli.Flags := { profile := MMapSelector.strBytes "p", out := MMapSelector.strBytes "o", format := .extbinary, symList := true }

def exFlags : Flags := ⟨CreateGcov.exFlags, exCli, false, false, false, 1, 1⟩

def exFiles : Files :=
  ⟨CreateGcov.exFiles, some exDebug, ⟨fun d => d % 4, fun d => d / 4⟩, ⟨true, [], false, [], fun _ => [], fun _ => false⟩, none, true⟩

theorem ex_usage : ¬ PropCli.UsageError exCli := by
  rw [← PropCli.plan_refuses_iff (fun _ => [])]
  decide +kernel

/-- `create_llvm` applies to C70's program and samples. -/
theorem ex_run (lists : Name → Name) (fr : PropRun.Free) (w : PropRun.World) (own : Nat → Name) :
    ∃ S b st r, readSample exFlags exFiles = some (some S) ∧ IsBin exProgram.toElfProgram exFlags exFiles exDebug b ∧
      IsProfile exProgram.toElfProgram exFlags.toFlags S b st r ∧ S.total = 220 ∧ r.threshold = 10 ∧
      (Fits r → ∃ o, run exFlags exFiles lists fr w own id = .exit 0 (some o) ∧ Holds exProgram.toElfProgram exFlags own r o) := by
  have hr := (CreateGcov.read_sample CreateGcov.exFlags CreateGcov.exFiles).2.2.2.1 rfl exS [] exS_ok.1 exS_ok.2 rfl
  have hr' := ((read_sample exFlags exFiles).1 (by decide)).trans hr
  obtain ⟨b, st, r, h1, h2, h3, _⟩ := create_llvm exProgram.toElfProgram exFlags exFiles rfl rfl ex_usage (by decide) (by decide) (by decide)
    exDebug rfl ex_small (by decide) _ hr' rfl exS_covered (fun x hx => by cases hx) lists fr w own id (fun l => List.Perm.refl l)
  exact ⟨_, b, st, r, hr', h1, h2, by decide +kernel, by rw [h2.thr]; decide +kernel, fun hf => h3 hf rfl⟩

theorem ex_fits : Fits CreateGcov.exResult := by
  intro n i _
  show Sym.Writable CreateGcov.exSym
  have hn : CreateGcov.exSym.nodes = [([], ⟨30, 2, [(4294967296, ⟨10, 1, [([103], 4)]⟩)]⟩),
      ([(21474836480, [102])], ⟨20, 0, [(4294967299, ⟨20, 2, []⟩)]⟩)] := by rfl
  refine ⟨by decide +kernel, ?_⟩
  intro x hx
  rw [hn] at hx
  simp only [List.mem_cons, List.not_mem_nil, or_false] at hx
  rcases hx with rfl | rfl
  · refine ⟨⟨by decide, ?_, ?_, ?_⟩, by simp⟩ <;> simp
  · refine ⟨⟨by decide, ?_, ?_, ?_⟩, by simp⟩ <;> simp

/-- A result that fits is written. -/
theorem ex_written : ∃ P, writeProfiles CreateGcov.exResult.threshold (symMap CreateGcov.exResult) = some P ∧ P.length = 2 := by
  decide +kernel

/-- Flow-sensitive discriminators are kept whole, others are cut to the base; the factor is used only for the latter. -/
theorem ex_discr : locDiscr false false ⟨fun d => d % 4, fun d => d / 4⟩ 9 = 1 ∧ locDiscr true false ⟨fun d => d % 4, fun d => d / 4⟩ 9 = 9 ∧
    locDiscr true true ⟨fun d => d % 4, fun d => d / 4⟩ 9 = 1 ∧ dupFactor true ⟨fun d => d % 4, fun d => d / 4⟩ 9 = 1 ∧
    dupFactor false ⟨fun d => d % 4, fun d => d / 4⟩ 9 = 2 := by decide

end Verif.CreateLlvm

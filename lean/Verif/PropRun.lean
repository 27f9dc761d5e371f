import Verif.Propeller
import Verif.PropFiles
import Verif.MapperSyms
import Verif.BinContent

/-!
# C91: the whole propeller command (llvm_propeller_profile_generator.cc:142-227, llvm_propeller_profile_computer.cc:62-163,
lbr_branch_aggregator.cc, frequencies_branch_aggregator.cc:58-90, llvm_propeller_profile_writer.cc:108-260)

From the options to the two files, for LBR and SPE recordings.  The stages are those of C89 (options), C90 (recordings), C82 and C48
(functions), C26 (fallthroughs of SPE), C74 (layout), C33 and C52 (files).
-/
namespace Verif.PropRun
open Verif Verif.Mapper Verif.MapperSelect Verif.CfgBuild Verif.Layout Verif.PropCli Verif.Propeller Verif.MMapSelector
open Verif.PropFiles hiding Bin
open Verif.PerfAgg (Agg Freq)

abbrev Counter := List ((Nat × Nat) × Nat)

/-- What the source leaves open: the orders of the hash maps, and the two comparisons of quotients in `CreateEdges`. -/
structure Free where
  brs : Counter → Counter
  falls : Counter → Counter
  nts : List (Nat × Nat) → List (Nat × Nat)
  cfgs : List Nat → List Nat
  secs : List Name → List Name
  tooMany : Nat → Nat → Bool
  tooFew : Nat → Nat → Bool

/-- Everything the command reads: the binary as `GetBinaryContent` gives it (see `BinContent`), its symbols and basic block address map,
which blocks are landing pads and their ids, whether there is debug information and the module of each function in it, the recordings,
which files can be opened for writing, and the files before. -/
structure World where
  bin : BinContent.Res PropFiles.Bin
  aarch64 : Bool
  syms : List MapperSyms.ElfSym
  bbs : Option (List Fn)
  lp : Handle → Bool
  id : Handle → Nat
  dwarf : Bool
  moduleOf : Nat → Option (List Char)
  store : Name → Outcome
  canWrite : Name → Bool
  fs : Name → Option (List Char)

/-- How the command ends: a failed check or `LOG(FATAL)`, exit with 1 and a message, exit with 0 (create_llvm_prof.cc:235-241). -/
inductive Exit where
  | stop | fail | ok
  deriving DecidableEq

/-- The options of the selection of functions and of the layout: those not set by the command have the defaults of
llvm_propeller_options.proto; names are special when they contain `.__uniq.` (llvm_propeller_binary_address_mapper.cc:389). -/
def configOf (fr : Free) (o : Options) : Config where
  uniq := fun n => decide (strBytes ".__uniq." <:+: n)
  text := MapperSyms.dotText
  filterText := true
  weights := ⟨10, 1, 1, o.layout.forward, o.layout.backward⟩
  opts := ⟨o.layout.interFunction, o.layout.splitFunctions, o.layout.reorderHot, o.layout.chainSplit, o.layout.splitThreshold⟩
  ccc := o.layout.callChain
  thr := 2097152
  tooMany := fr.tooMany
  tooFew := fr.tooFew

/-- The binary for the layout; modules are looked up only if asked for (llvm_propeller_profile_computer.cc:143-153). -/
def binaryOf (o : Options) (w : World) (b : Bin) : Binary := ⟨b, w.lp, w.id, if o.moduleName then w.moduleOf else fun _ => none⟩

/-- **C91, options.** The options of the selection and the layout are those of the command line, and for the rest the defaults of
llvm_propeller_options.proto: a name is special if it contains `.__uniq.`, only functions in `.text` count, fallthroughs weigh 10 and
branches 1, clusters have at most 2 MB; modules are not looked up unless asked for. -/
theorem config_spec (fr : Free) (o : Options) (w : World) (b : Bin) :
    (∀ n, (configOf fr o).uniq n = true ↔ ∃ x y, n = x ++ (".__uniq.".toList.map fun c => UInt8.ofNat c.toNat) ++ y) ∧
    (configOf fr o).text = ".text".toList.map (fun c => UInt8.ofNat c.toNat) ∧ (configOf fr o).filterText = true ∧
    (configOf fr o).weights.ft = 10 ∧ (configOf fr o).weights.fwd = 1 ∧ (configOf fr o).weights.bwd = 1 ∧
    (configOf fr o).weights.fwdDist = o.layout.forward ∧ (configOf fr o).weights.bwdDist = o.layout.backward ∧
    (configOf fr o).opts.inter = o.layout.interFunction ∧ (configOf fr o).opts.splitFunctions = o.layout.splitFunctions ∧
    (configOf fr o).opts.reorderHot = o.layout.reorderHot ∧ (configOf fr o).opts.chainSplit = o.layout.chainSplit ∧
    (configOf fr o).opts.threshold = o.layout.splitThreshold ∧ (configOf fr o).ccc = o.layout.callChain ∧
    (configOf fr o).thr = 2 * 1024 * 1024 ∧
    (o.moduleName = false → ∀ f, (binaryOf o w b).module_ f = none) ∧
    (o.moduleName = true → ∀ f, (binaryOf o w b).module_ f = w.moduleOf f) := by
  refine ⟨fun n => ?_, (by decide +kernel : MapperSyms.dotText = ".text".toList.map fun c => UInt8.ofNat c.toNat), rfl, rfl, rfl, rfl, rfl, rfl, rfl, rfl, rfl, rfl, rfl, rfl, rfl, fun h f => ?_, fun h f => ?_⟩
  · have hb : strBytes ".__uniq." = ".__uniq.".toList.map fun c => UInt8.ofNat c.toNat := by decide +kernel
    show decide (strBytes ".__uniq." <:+: n) = true ↔ _
    rw [decide_eq_true_eq, hb]
    exact ⟨fun ⟨x, y, h⟩ => ⟨x, y, h.symm⟩, fun ⟨x, y, h⟩ => ⟨x, y, h.symm⟩⟩
  · simp [binaryOf, h]
  · simp [binaryOf, h]

/-- What an aggregator gives: endpoint addresses, branches, and the fallthroughs for a mapper. -/
structure Data where
  addrs : List Nat
  brs : Counter
  falls : Mapper → Counter

def noStats : Stats := ⟨0, 0, 0, ⟨⟨0, 0⟩, ⟨0, 0⟩, ⟨0, 0⟩⟩⟩

/-- `LbrBranchAggregator` (lbr_branch_aggregator.cc:35-62). -/
def lbrData (fr : Free) (g : Agg) : Data :=
  ⟨endpoints (fr.brs (counters g.branches)) (fr.falls (counters g.falls)), fr.brs (counters g.branches), fun _ => fr.falls (counters g.falls)⟩

/-- `FrequenciesBranchAggregator` (frequencies_branch_aggregator.cc:25-31, 58-90): an instruction has 4 bytes on aarch64, and an unknown
size elsewhere. -/
def speData (fr : Free) (w : World) (g : Freq) : Data where
  addrs := (fr.brs (counters g.taken)).flatMap (fun e => [e.1.1, e.1.2]) ++ (fr.nts g.notTaken).map (·.1)
  brs := fr.brs (counters g.taken)
  falls := fun m => fr.falls (counters (InferFT.inferFallthroughs m (if w.aarch64 then some 4 else none) (fr.brs (counters g.taken)) (fr.nts g.notTaken)))

/-- The aggregator for the type of profile (llvm_propeller_profile_generator.cc:203-225). -/
def aggregate (fr : Free) (w : World) (o : Options) (b : PropFiles.Bin) (t : PType) (files : List Name) : Option Data :=
  match t with
  | .lbr => (aggregateLbr o b (files.map w.store) noStats).1.toOption.map (lbrData fr)
  | .spe => (aggregateFreq o b (files.map w.store) noStats).1.toOption.map (speData fr w)
  | _ => none

/-- The functions that are selected. -/
def selOf (c : Config) (b : Bin) (d : Data) : List Nat := select c.uniq c.text c.filterText b (some d.addrs)

/-- `ProgramCfgBuilder::Build` and `GenerateLayoutBySection`, given the mapper (llvm_propeller_profile_computer.cc:66-73, 154-158). -/
def layout (fr : Free) (c : Config) (b : Binary) (m : Mapper) (d : Data) : Option (Option (OMap Name (List FnInfo))) :=
  if (selOf c b.bin d).any (fun f => ((b.bin.fns[f]?).map (·.bbs)).getD [] = []) = true then none
  else (buildGraph c m (sectionOf b.bin) d.brs (d.falls m)).bind fun r =>
    match r with
    | none => some none
    | some g => (layoutSections c b m g (fr.cfgs (keptFns m g (selOf c b.bin d)))
        (fr.secs ((fr.cfgs (keptFns m g (selOf c b.bin d))).map (sectionOf b.bin)).dedup)).map some

/-- `GetProfileEncoding` (llvm_propeller_profile_writer.h:33-57) with the values of `ClusterEncodingVersion`; `none`: `LOG(FATAL)`. -/
def verOf (v : Int) : Option Ver := if v = 1 then some .v0 else if v = 2 then some .v1 else none

/-- `bb_index()` of a block. -/
def bbiOf (m : Mapper) (n : Nat) : Nat := ((m.handles[n]?).map (·.bb)).getD 0

/-- The symbol order file: section after section (llvm_propeller_profile_writer.cc:215-257). -/
def symFile (b : Binary) (m : Mapper) (prof : OMap Name (List FnInfo)) : Option (List Char) :=
  (prof.mapM fun e => ldLines (bbiOf m) (outOf b) e.2).map fun ls => ls.flatten.flatMap (· ++ ['\n'])

/-- An `ofstream` that is not checked (llvm_propeller_profile_writer.cc:109-110). -/
def put (w : World) (n : Name) (s : List Char) (fs : Name → Option (List Char)) : Name → Option (List Char) :=
  if w.canWrite n then Function.update fs n (some s) else fs

/-- The constructor of `PropellerProfileWriter` (llvm_propeller_profile_writer.h:33-57) and `Write` (llvm_propeller_profile_writer.cc:108-260)
without verbose output and dump.  Simplified: after a failed check both files are empty, while the code may leave a part of them. -/
def write (w : World) (o : Options) (b : Binary) (m : Mapper) (prof : OMap Name (List FnInfo)) : Exit × (Name → Option (List Char)) :=
  match verOf o.version with
  | none => (.stop, w.fs)
  | some v => match (clusterFile v b m prof).bind fun cc => (symFile b m prof).map fun ld => (cc, ld) with
    | none => (.stop, put w o.symOrder [] (put w o.clusterOut [] w.fs))
    | some (cc, ld) => (.ok, put w o.symOrder ld (put w o.clusterOut cc w.fs))

/-- `ComputeProfile` and `GetProgramCfg` after the aggregation (llvm_propeller_profile_computer.cc:62-81, 117-163), and writing. -/
def finish (fr : Free) (w : World) (o : Options) (d : Data) : Exit × (Name → Option (List Char)) :=
  match MapperSyms.readBinary w.syms w.bbs with
  | none => (.stop, w.fs)
  | some (.error _) => (.fail, w.fs)
  | some (.ok b) =>
    match build b.fns (selOf (configOf fr o) b d) with
    | none => (.stop, w.fs)
    | some m =>
      if o.moduleName && !w.dwarf then (.fail, w.fs)
      else match layout fr (configOf fr o) (binaryOf o w b) m d with
        | none => (.stop, w.fs)
        | some none => (.fail, w.fs)
        | some (some prof) => write w o (binaryOf o w b) m prof

/-- `GeneratePropellerProfiles` (llvm_propeller_profile_generator.cc:142-227): how it ends and the files after it. -/
def run (fr : Free) (w : World) (o : Options) : Exit × (Name → Option (List Char)) :=
  match dispatch o with
  | none => (.fail, w.fs)
  | some (t, files) =>
    match w.bin with
    | .stop => (.stop, w.fs)
    | .err => (.fail, w.fs)
    | .ok b => match aggregate fr w o b t files with
      | none => (.fail, w.fs)
      | some d => finish fr w o d

/-! ## Specification -/

/-- The orders are orders. -/
structure Free.Ok (fr : Free) : Prop where
  brs : ∀ l, (fr.brs l).Perm l
  falls : ∀ l, (fr.falls l).Perm l
  nts : ∀ l, (fr.nts l).Perm l
  cfgs : ∀ l, (fr.cfgs l).Perm l
  secs : ∀ l, (fr.secs l).Perm l

/-- The counter says how often each element occurs. -/
def CountsOf {K : Type} [BEq K] (c : List (K × Nat)) (l : List K) : Prop :=
  (c.map Prod.fst).Nodup ∧ ∀ k n, (k, n) ∈ c ↔ k ∈ l ∧ n = l.count k

/-- The recordings of the inputs in which the binary is mapped. -/
def used (w : World) (o : Options) (b : PropFiles.Bin) : List (PerfAgg.Reader × File) := readable o b ((o.inputs.map (·.1)).map w.store)

/-- Every input is LBR or has no type; every input is SPE. -/
def AllLbr (o : Options) : Prop := ∀ i ∈ o.inputs, i.2 = .lbr ∨ i.2 = .unspecified
def AllSpe (o : Options) : Prop := ∀ i ∈ o.inputs, i.2 = .spe

/-- The counts of branches and straight-line runs of the recordings. -/
def Sampled (fr : Free) (w : World) (o : Options) (b : PropFiles.Bin) (d : Data) : Prop :=
  CountsOf d.brs (allBranches (used w o b)) ∧ (∀ m, CountsOf (d.falls m) (allRuns (used w o b))) ∧
    ∀ a, a ∈ d.addrs ↔ ∃ k ∈ allBranches (used w o b) ++ allRuns (used w o b), a = k.1 ∨ a = k.2

/-- The counts of taken branches, and the fallthroughs inferred from them and from the branches that are not taken. -/
def SpeSampled (fr : Free) (w : World) (o : Options) (b : PropFiles.Bin) (d : Data) : Prop :=
  CountsOf d.brs (allTaken (used w o b)) ∧
    (∃ nt, CountsOf nt (allNotTaken (used w o b)) ∧ ∀ m,
      (d.falls m).Perm (counters (InferFT.inferFallthroughs m (if w.aarch64 then some 4 else none) d.brs nt))) ∧
    ∀ a, a ∈ d.addrs ↔ (∃ k ∈ allTaken (used w o b), a = k.1 ∨ a = k.2) ∨ a ∈ allNotTaken (used w o b)

/-- The binary can be laid out: its blocks are in order, the section of each function's symbol is known, names can be written. -/
structure Good (w : World) (o : Options) : Prop where
  read : w.bin ≠ .stop
  symbols : MapperSyms.readBinary w.syms w.bbs ≠ none
  tidy : ∀ b, MapperSyms.readBinary w.syms w.bbs = some (.ok b) → Tidy b
  version : o.version = 1 ∨ o.version = 2
  names : ∀ b, MapperSyms.readBinary w.syms w.bbs = some (.ok b) → ∀ v, verOf o.version = some v → NamesOk v (binaryOf o w b)

/-- An error of the provider, before the end of the inputs. -/
def ProviderFails (w : World) (o : Options) : Prop := ∃ i ∈ o.inputs, ∃ e, w.store i.1 = .error e

/-- Nothing can be collected. -/
def NoData (w : World) (o : Options) (b : PropFiles.Bin) : Prop :=
  ProviderFails w o ∨ used w o b = [] ∨ (AllLbr o ∧ b.decoder = none)

/-- What is written. -/
structure Written (fr : Free) (w : World) (o : Options) (b : Bin) (m : Mapper) (d : Data) (fs : Name → Option (List Char)) : Prop where
  out : ∃ st prof cc ld, createEdges m (sectionOf b) d.brs (d.falls m) = some st ∧ OMap.Sorted prof ∧
    (∀ s, (∃ is, (s, is) ∈ prof) ↔ ∃ f x, HotFn m d.brs (d.falls m) f ∧ b.info f = some x ∧ x.section_ = s) ∧
    Faithful (binaryOf o w b) m st.g ∧
    (∀ s is, (s, is) ∈ prof → ∃ order B, SectionOk (configOf fr o) (binaryOf o w b) m st.g d.brs (d.falls m) s is order B) ∧
    readCc cc = some ((prof.flatMap Prod.snd).map (record (binaryOf o w b) m)) ∧
    List.Forall₂ (fun e ls => ldLines (bbiOf m) (outOf (binaryOf o w b)) e.2 = some ls) prof ld ∧
    fs = put w o.symOrder (ld.flatten.flatMap (· ++ ['\n'])) (put w o.clusterOut cc w.fs)

/-! ## Proof -/

theorem dispatch_cases (o : Options) : dispatch o = none ↔ ¬ (o.profileNames = [] ∧ o.inputs ≠ [] ∧ (AllLbr o ∨ AllSpe o)) := by
  constructor
  · rintro h ⟨h1, h2, h3⟩
    rcases h3 with h3 | h3
    · have := (dispatch_iff o .lbr (o.inputs.map (·.1))).2 ⟨h1, h2, rfl, .inl ⟨rfl, h3⟩⟩
      rw [h] at this; cases this
    · have := (dispatch_iff o .spe (o.inputs.map (·.1))).2 ⟨h1, h2, rfl, .inr ⟨rfl, h3⟩⟩
      rw [h] at this; cases this
  · intro h
    cases hd : dispatch o with
    | none => rfl
    | some p =>
      obtain ⟨t, files⟩ := p
      obtain ⟨a, b, _, ⟨_, c⟩ | ⟨_, c⟩⟩ := (dispatch_iff o t files).1 hd
      · exact absurd ⟨a, b, .inl c⟩ h
      · exact absurd ⟨a, b, .inr c⟩ h

/-! ### Counters -/

theorem counters_ok {l : List (Nat × Nat)} {m : OMap (Nat ×ₗ Nat) Nat} (hs : OMap.Sorted m) (hp : ∀ e ∈ m, 0 < e.2)
    (hc : ∀ k : Nat × Nat, OMap.get0 m (toLex k) = l.count k) : CountsOf (counters m) l := by
  constructor
  · unfold counters
    rw [List.map_map]
    refine List.Nodup.of_map toLex ?_
    rw [List.map_map]
    have : (toLex ∘ Prod.fst ∘ fun e : (Nat ×ₗ Nat) × Nat => (ofLex e.1, e.2)) = Prod.fst := by funext e; rfl
    rw [this, List.nodup_iff_pairwise_ne, List.pairwise_map]
    exact hs.imp fun h => ne_of_lt h
  · intro k n
    have hmem : (k, n) ∈ counters m ↔ (toLex k, n) ∈ m := by
      unfold counters
      rw [List.mem_map]
      constructor
      · rintro ⟨e, he, h⟩
        cases h
        exact he
      · intro h; exact ⟨_, h, rfl⟩
    rw [hmem]
    constructor
    · intro h
      have h1 := OMap.find?_some_of_mem hs h
      have h2 := hc k
      unfold OMap.get0 at h2
      rw [h1] at h2
      have h3 := hp _ h
      refine ⟨?_, h2⟩
      rw [← List.count_pos_iff, ← h2]
      exact h3
    · rintro ⟨h1, h2⟩
      have h3 := hc k
      unfold OMap.get0 at h3
      rw [← List.count_pos_iff] at h1
      cases hf : OMap.find? m (toLex k) with
      | none => rw [hf] at h3; simp at h3; omega
      | some c =>
        rw [hf] at h3
        simp only [Option.getD_some] at h3
        rw [h2, ← h3]
        exact (OMap.find?_eq_some_iff hs).1 hf

theorem counter_ok {l : List Nat} {m : OMap Nat Nat} (hs : OMap.Sorted m) (hp : ∀ e ∈ m, 0 < e.2)
    (hc : ∀ k, OMap.get0 m k = l.count k) : CountsOf m l := by
  constructor
  · rw [List.nodup_iff_pairwise_ne, List.pairwise_map]
    exact hs.imp fun h => ne_of_lt h
  · intro k n
    have h2 := hc k
    unfold OMap.get0 at h2
    constructor
    · intro h
      rw [OMap.find?_some_of_mem hs h] at h2
      refine ⟨?_, h2⟩
      rw [← List.count_pos_iff, ← h2]
      exact hp _ h
    · rintro ⟨h1, h3⟩
      rw [← List.count_pos_iff] at h1
      cases hf : OMap.find? m k with
      | none => rw [hf] at h2; simp at h2; omega
      | some c =>
        rw [hf] at h2
        simp only [Option.getD_some] at h2
        rw [h3, ← h2]
        exact (OMap.find?_eq_some_iff hs).1 hf

theorem CountsOf.perm {K : Type} [BEq K] {c c' : List (K × Nat)} {l : List K} (h : CountsOf c l) (hp : c'.Perm c) : CountsOf c' l :=
  ⟨(hp.map _).nodup_iff.2 h.1, fun k n => hp.mem_iff.trans (h.2 k n)⟩

theorem CountsOf.counts {c : Counter} {l : List (Nat × Nat)} (h : CountsOf c l) : Counts c := by
  rintro ⟨k, n⟩ he
  obtain ⟨h1, h2⟩ := (h.2 k n).1 he
  simp only
  rw [h2]
  exact List.count_pos_iff.2 h1

theorem CountsOf.mem_keys {c : Counter} {l : List (Nat × Nat)} (h : CountsOf c l) (P : Nat × Nat → Prop) :
    (∃ e ∈ c, P e.1) ↔ ∃ k ∈ l, P k := by
  constructor
  · rintro ⟨⟨k, n⟩, he, hp⟩
    exact ⟨k, ((h.2 k n).1 he).1, hp⟩
  · rintro ⟨k, hk, hp⟩
    exact ⟨(k, l.count k), (h.2 k _).2 ⟨hk, rfl⟩, hp⟩

/-- A property that every entry keeps is one of the aggregation. -/
theorem lbr_inv {P : Agg → Prop} (hstep : ∀ tr st x, P st.1 → P (PerfAgg.stepEntry tr st x).1) :
    ∀ (fs : List (PerfAgg.Reader × File)) (g : Agg), P g → P (fs.foldl (fun g p => PerfAgg.aggregateLBR p.1 p.2.samples g) g) := by
  have h1 : ∀ tr (l : List (Nat × Nat)) st, P st.1 → P (l.foldl (PerfAgg.stepEntry tr) st).1 := by
    intro tr l
    induction l with
    | nil => intro st hp; exact hp
    | cons x t ih => intro st hp; exact ih _ (hstep tr st x hp)
  have h2 : ∀ r (l : List PerfAgg.Sample) g, P g → P (PerfAgg.aggregateLBR r l g) := by
    intro r l
    unfold PerfAgg.aggregateLBR
    induction l with
    | nil => intro g hp; exact hp
    | cons x t ih =>
      intro g hp
      refine ih _ ?_
      unfold PerfAgg.aggSample
      split
      · exact hp
      · exact h1 _ _ _ hp
  intro fs
  induction fs with
  | nil => intro g hp; exact hp
  | cons p t ih => intro g hp; exact ih _ (h2 _ _ _ hp)

theorem lbr_value (o : Options) (b : PropFiles.Bin) (outs : List Outcome) (st : Stats) (g : Agg) (h : AllOk outs)
    (hg : (aggregateLbr o b outs st).1 = .ok g) :
    g = (readable o b outs).foldl (fun g p => PerfAgg.aggregateLBR p.1 p.2.samples g) ⟨[], []⟩ := by
  have hl := loop_ok o b (fun rd f => PerfAgg.aggregateLBR rd f.samples) outs ⟨[], []⟩ st h
  unfold aggregateLbr at hg
  rw [hl] at hg
  simp only [] at hg
  split at hg
  · cases hg
  · split at hg
    · cases hg
    · injection hg with hg; exact hg.symm

theorem freq_value (o : Options) (b : PropFiles.Bin) (outs : List Outcome) (st : Stats) (g : Freq) (h : AllOk outs)
    (hg : (aggregateFreq o b outs st).1 = .ok g) :
    g = (readable o b outs).foldl (fun g p => PerfAgg.aggregateSpe p.1 p.2.recs g) ⟨[], []⟩ := by
  have hl := loop_ok o b (fun rd f => PerfAgg.aggregateSpe rd f.recs) outs ⟨[], []⟩ st h
  unfold aggregateFreq at hg
  rw [hl] at hg
  simp only [] at hg
  split at hg
  · cases hg
  · injection hg with hg; exact hg.symm

/-- Branches and runs are counted. -/
theorem lbr_sampled (fr : Free) (hfr : fr.Ok) (w : World) (o : Options) (b : PropFiles.Bin) (h : AllOk ((o.inputs.map (·.1)).map w.store)) (g : Agg)
    (hg : (aggregateLbr o b ((o.inputs.map (·.1)).map w.store) noStats).1 = .ok g) : Sampled fr w o b (lbrData fr g) := by
  obtain ⟨h1, h2, _⟩ := lbr_spec o b _ noStats g h hg
  have hv := lbr_value o b _ noStats g h hg
  have inv : PerfAgg.GoodAgg g ∧ (∀ e ∈ g.branches, 0 < e.2) ∧ ∀ e ∈ g.falls, 0 < e.2 := by
    rw [hv]
    refine lbr_inv (P := fun g => PerfAgg.GoodAgg g ∧ (∀ e ∈ g.branches, 0 < e.2) ∧ ∀ e ∈ g.falls, 0 < e.2) ?_ _ _
      ⟨⟨OMap.sorted_nil, OMap.sorted_nil⟩, by simp, by simp⟩
    rintro tr st x ⟨⟨a1, a2⟩, p1, p2⟩
    unfold PerfAgg.stepEntry
    refine ⟨⟨OMap.Sorted.upsert a1 _ _, ?_⟩, upsert_pos _ 1 (by omega) _ p1, ?_⟩
    · simp only
      split
      · exact OMap.Sorted.upsert a2 _ _
      · exact a2
    · simp only
      split
      · exact upsert_pos _ 1 (by omega) _ p2
      · exact p2
  have c1 : CountsOf (lbrData fr g).brs (allBranches (used w o b)) := (counters_ok inv.1.1 inv.2.1 h1).perm (hfr.brs _)
  have c2 : ∀ m, CountsOf ((lbrData fr g).falls m) (allRuns (used w o b)) := fun _ => (counters_ok inv.1.2 inv.2.2 h2).perm (hfr.falls _)
  refine ⟨c1, c2, fun a => ?_⟩
  have e : a ∈ (lbrData fr g).addrs ↔ (∃ e ∈ (lbrData fr g).brs, a = e.1.1 ∨ a = e.1.2) ∨ ∃ e ∈ (lbrData fr g).falls ⟨[], []⟩, a = e.1.1 ∨ a = e.1.2 := by
    simp only [lbrData, endpoints, List.mem_flatMap, List.mem_append, List.mem_cons, List.not_mem_nil, or_false, or_and_right, exists_or]
  rw [e, c1.mem_keys (fun k => a = k.1 ∨ a = k.2), (c2 _).mem_keys (fun k => a = k.1 ∨ a = k.2)]
  simp only [List.mem_append, or_and_right, exists_or]

theorem spe_sampled (fr : Free) (hfr : fr.Ok) (w : World) (o : Options) (b : PropFiles.Bin) (h : AllOk ((o.inputs.map (·.1)).map w.store)) (g : Freq)
    (hg : (aggregateFreq o b ((o.inputs.map (·.1)).map w.store) noStats).1 = .ok g) : SpeSampled fr w o b (speData fr w g) := by
  obtain ⟨_, _, h0⟩ := freq_spec o b _ noStats h
  obtain ⟨h1, h2, _⟩ := h0 g hg
  have hv := freq_value o b _ noStats g h hg
  obtain ⟨f1, f2⟩ := spe_fold (readable o b ((o.inputs.map (·.1)).map w.store)) ⟨[], []⟩
  rw [← hv] at f1 f2
  have s1 : OMap.Sorted g.taken := by rw [f1]; exact OMap.Sorted.addAll OMap.sorted_nil _
  have s2 : OMap.Sorted g.notTaken := by rw [f2]; exact OMap.Sorted.addAll OMap.sorted_nil _
  have p1 : ∀ e ∈ g.taken, 0 < e.2 := by
    rw [f1]
    refine addAll_pos _ _ (by simp) ?_
    intro e he
    obtain ⟨k, _, rfl⟩ := List.mem_map.1 he
    exact Nat.one_pos
  have p2 : ∀ e ∈ g.notTaken, 0 < e.2 := by
    rw [f2]
    refine addAll_pos _ _ (by simp) ?_
    intro e he
    obtain ⟨k, _, rfl⟩ := List.mem_map.1 he
    exact Nat.one_pos
  have c1 : CountsOf (speData fr w g).brs (allTaken (used w o b)) := (counters_ok s1 p1 h1).perm (hfr.brs _)
  have c2 : CountsOf (fr.nts g.notTaken) (allNotTaken (used w o b)) := (counter_ok s2 p2 h2).perm (hfr.nts _)
  refine ⟨c1, ⟨_, c2, fun m => hfr.falls _⟩, fun a => ?_⟩
  have e : a ∈ (speData fr w g).addrs ↔ (∃ e ∈ (speData fr w g).brs, a = e.1.1 ∨ a = e.1.2) ∨ ∃ e ∈ fr.nts g.notTaken, e.1 = a := by
    simp only [speData, List.mem_append, List.mem_flatMap, List.mem_cons, List.not_mem_nil, or_false, List.mem_map]
  rw [e, c1.mem_keys (fun k => a = k.1 ∨ a = k.2)]
  refine or_congr_right ?_
  constructor
  · rintro ⟨⟨k, n⟩, he, rfl⟩
    exact ((c2.2 k n).1 he).1
  · intro ha
    exact ⟨(a, _), (c2.2 a _).2 ⟨ha, rfl⟩, rfl⟩

/-- Inferred fallthroughs have positive counts. -/
theorem infer_pos {fns : List Fn} {sel : List Nat} {m : Mapper} (hn : sel.Nodup) (h : build fns sel = some m)
    (isz : Option Nat) (tb : InferFT.Taken) (nt : InferFT.NotTaken) : Counts (counters (InferFT.inferFallthroughs m isz tb nt)) := by
  intro e he
  obtain ⟨x, hx, rfl⟩ := List.mem_map.1 he
  have hs : OMap.Sorted (InferFT.inferFallthroughs m isz tb nt) := OMap.Sorted.addAll OMap.sorted_nil _
  have := OMap.find?_some_of_mem hs hx
  exact (InferFT.infer_map_sound fns sel m hn h isz tb nt (ofLex x.1).1 (ofLex x.1).2 x.2 this).1

/-! ### Layout -/

theorem build_some {b : Bin} (hb : Tidy b) {sel : List Nat} (h1 : sel.Pairwise (· < ·)) (h2 : ∀ f ∈ sel, f < b.fns.length) :
    ∃ m, build b.fns sel = some m := by
  refine Option.isSome_iff_exists.1 ?_
  rw [build_isSome_iff]
  refine ⟨h2, ?_⟩
  rw [List.pairwise_filterMap]
  refine h1.imp_of_mem ?_
  intro i j hi hj hij x hx y hy
  obtain ⟨f, hf, rfl⟩ := Option.map_eq_some_iff.1 hx
  obtain ⟨g, hg, rfl⟩ := Option.map_eq_some_iff.1 hy
  exact (getElem_pair hb hf hg hij).1

theorem layout_ok (fr : Free) (hfr : fr.Ok) (c : Config) (b : Binary) (hb : Tidy b.bin) (d : Data) (m : Mapper)
    (hm : build b.bin.fns (selOf c b.bin d) = some m) (h1 : Counts d.brs) (h2 : Counts (d.falls m)) :
      (Refused c m d.brs → layout fr c b m d = some none) ∧
      (¬ Refused c m d.brs → ∃ st prof, createEdges m (sectionOf b.bin) d.brs (d.falls m) = some st ∧
        layout fr c b m d = some (some prof) ∧ OMap.Sorted prof ∧
        (∀ s, (∃ is, (s, is) ∈ prof) ↔ ∃ f x, HotFn m d.brs (d.falls m) f ∧ b.bin.info f = some x ∧ x.section_ = s) ∧
        Faithful b m st.g ∧
        ∀ s is, (s, is) ∈ prof → ∃ order B, SectionOk c b m st.g d.brs (d.falls m) s is order B) := by
  obtain ⟨hs1, hs2, _⟩ := select_spec c.uniq c.text c.filterText b.bin (some d.addrs)
  unfold layout
  unfold selOf at hm ⊢
  generalize select c.uniq c.text c.filterText b.bin (some d.addrs) = sel at hm hs1 hs2
  have hn : sel.Nodup := hs1.imp fun h => Nat.ne_of_lt h
  have hlt : ∀ i ∈ sel, i < b.bin.fns.length := fun i hi => (hs2 i hi).1
  rw [if_neg (by
    rw [List.any_eq_true]
    rintro ⟨f, hf, he⟩
    obtain ⟨x, t, hx, _⟩ := (hb.ok _ (List.getElem_mem (hlt f hf))).2
    rw [List.getElem?_eq_getElem (hlt f hf)] at he
    simp [hx] at he)]
  obtain ⟨st, hst, ⟨hr, hg⟩ | ⟨hr, hg⟩⟩ := buildGraph_spec hn hm c (sectionOf b.bin) d.brs (d.falls m)
  · rw [hg]
    exact ⟨fun _ => rfl, fun h => absurd hr h⟩
  · rw [hg]
    refine ⟨fun h => absurd h hr, fun _ => ?_⟩
    have ok := graph_ok hb hs1 hlt hm h1 h2 hst
    simp only [Option.bind_some]
    have hperm := hfr.cfgs (keptFns m st.g sel)
    generalize fr.cfgs (keptFns m st.g sel) = order at hperm
    have hord : ∀ f, f ∈ order ↔ HotFn m d.brs (d.falls m) f := fun f => hperm.mem_iff.trans (mem_kept hm hst ok f)
    have hnd : order.Nodup := hperm.nodup_iff.2 (hn.filter _)
    have hsel : ∀ f ∈ order, f ∈ sel := fun f hf => (List.mem_filter.1 (hperm.mem_iff.1 hf)).1
    have hpS := hfr.secs (order.map (sectionOf b.bin)).dedup
    generalize fr.secs (order.map (sectionOf b.bin)).dedup = secs at hpS
    have hall := section_ok (c := c) hb hn hm hlt (fun i hi => (hs2 i hi).2.imp fun x hx => hx.1) ok hsel hnd hord
    obtain ⟨prof, e1, e2, e3⟩ := fold_sections (fun s => orderAll c.weights (progOf m b.lp st.g) c.opts c.ccc c.thr (idOf b m) (addrOf m)
      (csOf b m order s)) secs [] (by unfold OMap.Sorted; simp) (by
        intro s _
        obtain ⟨is, _, _, h, _⟩ := hall s
        rw [h]; rfl) (hpS.nodup_iff.2 (List.nodup_dedup _)) (by intros; rfl)
    refine ⟨st, prof, hst, ?_, e2, ?_, faithful ok, ?_⟩
    · unfold layoutSections
      have : (secs.foldlM (fun acc s => (orderAll c.weights (progOf m b.lp st.g) c.opts c.ccc c.thr (idOf b m) (addrOf m)
        ((order.filter fun f => decide (sectionOf b.bin f = s)).map (cfgOf m))).map fun is => OMap.emplace s is acc) [] :
          Option (OMap Name (List FnInfo))) = some prof := e1
      rw [this]; rfl
    · intro s
      have hmem : s ∈ secs ↔ ∃ f x, HotFn m d.brs (d.falls m) f ∧ b.bin.info f = some x ∧ x.section_ = s := by
        rw [hpS.mem_iff, List.mem_dedup, List.mem_map]
        constructor
        · rintro ⟨f, hf, hs⟩
          obtain ⟨_, x, hx, _⟩ := hs2 f (hsel f hf)
          refine ⟨f, x, (hord f).1 hf, hx, ?_⟩
          rw [← hs]
          unfold sectionOf
          rw [hx]; rfl
        · rintro ⟨f, x, hf, hx, rfl⟩
          refine ⟨f, (hord f).2 hf, ?_⟩
          unfold sectionOf
          rw [hx]; rfl
      rw [← hmem]
      constructor
      · rintro ⟨is, hmem⟩
        have := OMap.find?_some_of_mem e2 hmem
        rw [e3] at this
        by_contra hne
        rw [if_neg hne] at this
        cases this
      · intro hmem
        obtain ⟨is, _, _, h, _⟩ := hall s
        refine ⟨is, (OMap.find?_eq_some_iff e2).1 ?_⟩
        rw [e3, if_pos hmem, h]
    · intro s is hmem
      have := OMap.find?_some_of_mem e2 hmem
      rw [e3] at this
      split at this
      · obtain ⟨is', o, B, h, hk⟩ := hall s
        rw [h] at this
        cases this
        exact ⟨o, B, hk⟩
      · cases this

/-- The lines of the symbol order file exist. -/
theorem symFile_ok (c : Config) (b : Binary) {sel : List Nat} {m : Mapper} (hm : build b.bin.fns sel = some m) {g : Graph}
    {brs fts : Counter} : ∀ {prof : List (Name × List FnInfo)}
    (h : ∀ s is, (s, is) ∈ prof → ∃ order B, SectionOk c b m g brs fts s is order B),
    ∃ ld, prof.mapM (fun e => ldLines (bbiOf m) (outOf b) e.2) = some ld ∧
      List.Forall₂ (fun e ls => ldLines (bbiOf m) (outOf b) e.2 = some ls) prof ld
  | [], _ => ⟨[], rfl, .nil⟩
  | (s, is) :: t, h => by
    obtain ⟨ld, h1, h2⟩ := symFile_ok c b hm (prof := t) fun s is hs => h s is (List.mem_cons_of_mem _ hs)
    obtain ⟨order, B, ok⟩ := h s is List.mem_cons_self
    obtain ⟨_, _, hem⟩ := ok.emitted
    have hcfg : ∀ i ∈ is, (outOf b i.fn).isSome = true := by
      intro i hi
      obtain ⟨n, hn, hf⟩ := List.mem_map.1 ((hem.fns i.fn).1 (List.mem_map.2 ⟨i, hi, rfl⟩))
      obtain ⟨hd, hh, _⟩ := (ok.blocks n).1 hn
      rw [prog_fn hh] at hf
      obtain ⟨_, x, hx, _⟩ := InferFT.handle_fn_mem hm hh
      rw [hf] at hx
      unfold outOf
      rw [hx]; rfl
    have hbbi : bbiOf m = (progOf m b.lp g).bbi := rfl
    obtain ⟨ls, hls⟩ : ∃ ls, ldLines (bbiOf m) (outOf b) is = some ls := by
      rw [hbbi]
      obtain ⟨so, e1, _⟩ := symbolOrder_ok hem ok.runs hcfg
      obtain ⟨co, e2, _, hcp⟩ := coldOrder_ok hem
      have e3 : Chain.gather (coldSymbols (progOf m b.lp g).bbi (outOf b)) co =
          some (co.flatMap fun i => (coldSymbols (progOf m b.lp g).bbi (outOf b) i).getD []) := by
        refine gather_eq fun i hi => ?_
        obtain ⟨c, hc⟩ := Option.isSome_iff_exists.1 (hcfg i (hcp.mem_iff.1 hi))
        obtain ⟨xs, hx, _⟩ := coldSymbols_ok hem ok.runs (hcp.mem_iff.1 hi) hc
        rw [hx]; rfl
      unfold ldLines ldSymbols
      rw [e1, Option.bind_some, e2, Option.bind_some, e3]
      exact ⟨_, rfl⟩
    refine ⟨ls :: ld, ?_, .cons hls h2⟩
    rw [List.mapM_cons]
    simp only [hls, h1]
    rfl

/-! ### The command -/

/-- The inputs are given, and of one known type. -/
def Inputs (o : Options) : Prop := o.profileNames = [] ∧ o.inputs ≠ [] ∧ (AllLbr o ∨ AllSpe o)

theorem first_error : ∀ (outs : List Outcome), (∃ x ∈ outs, ∃ e, x = .error e) → ∃ pre e post, outs = pre ++ .error e :: post ∧ AllOk pre
  | [], h => by obtain ⟨_, h, _⟩ := h; cases h
  | .error e :: t, _ => ⟨[], e, t, rfl, fun _ h => by cases h⟩
  | .ok f :: t, h => by
    obtain ⟨x, hx, e, rfl⟩ := h
    rcases List.mem_cons.1 hx with h | h
    · cases h
    obtain ⟨pre, e, post, rfl, hp⟩ := first_error t ⟨_, h, e, rfl⟩
    refine ⟨.ok f :: pre, e, post, rfl, fun x hx => ?_⟩
    rcases List.mem_cons.1 hx with rfl | hx
    · exact ⟨f, rfl⟩
    · exact hp x hx

theorem allOk_of (w : World) (o : Options) (h : ¬ ProviderFails w o) : AllOk ((o.inputs.map (·.1)).map w.store) := by
  intro x hx
  obtain ⟨n, hn, rfl⟩ := List.mem_map.1 hx
  obtain ⟨i, hi, rfl⟩ := List.mem_map.1 hn
  cases hs : w.store i.1 with
  | ok f => exact ⟨f, rfl⟩
  | error e => exact absurd ⟨i, hi, e, hs⟩ h

theorem aggregate_none (fr : Free) (w : World) (o : Options) (b : PropFiles.Bin) {t : PType} {files : List Name} (hd : dispatch o = some (t, files)) :
    aggregate fr w o b t files = none ↔ NoData w o b := by
  obtain ⟨_, hne, rfl, ht⟩ := (dispatch_iff o t files).1 hd
  by_cases hp : ProviderFails w o
  · refine iff_of_true ?_ (.inl hp)
    obtain ⟨i, hi, e, he⟩ := hp
    obtain ⟨pre, e, post, heq, hpre⟩ := first_error ((o.inputs.map (·.1)).map w.store)
      ⟨_, List.mem_map.2 ⟨_, List.mem_map.2 ⟨i, hi, rfl⟩, rfl⟩, e, he⟩
    obtain ⟨h1, h2⟩ := provider_error o b pre post e noStats hpre
    unfold aggregate
    rw [heq]
    rcases ht with ⟨rfl, _⟩ | ⟨rfl, _⟩
    · simp only [h1]; rfl
    · simp only [h2]; rfl
  · have hok := allOk_of w o hp
    have hx : ∃ i, i ∈ o.inputs := List.exists_mem_of_ne_nil _ hne
    obtain ⟨i, hi⟩ := hx
    unfold NoData used aggregate
    rcases ht with ⟨rfl, ha⟩ | ⟨rfl, ha⟩
    · obtain ⟨h1, h2, h3⟩ := lbr_fails_iff o b _ noStats hok rfl
      simp only [Option.map_eq_none_iff]
      have hA : AllLbr o := ha
      cases hr : (aggregateLbr o b ((o.inputs.map (·.1)).map w.store) noStats).1 with
      | error e =>
        refine iff_of_true rfl ?_
        rw [hr] at h3
        simp only [reduceCtorEq, exists_false, false_iff, not_and_or, ne_eq, not_not] at h3
        rcases h3 with h3 | h3
        · exact .inr (.inl h3)
        · exact .inr (.inr ⟨hA, h3⟩)
      | ok g =>
        have := h3.1 ⟨g, hr⟩
        refine iff_of_false (by simp [Except.toOption]) ?_
        rintro (h | h | h)
        · exact hp h
        · exact this.1 h
        · exact this.2 h.2
    · obtain ⟨h1, h2, _⟩ := freq_spec o b _ noStats hok
      simp only [Option.map_eq_none_iff]
      have hA : ¬ AllLbr o := by
        intro hl
        rcases hl i hi with h | h <;> rw [ha i hi] at h <;> cases h
      cases hr : (aggregateFreq o b ((o.inputs.map (·.1)).map w.store) noStats).1 with
      | error e =>
        refine iff_of_true rfl (.inr (.inl ?_))
        by_contra hne
        obtain ⟨g, hg⟩ := h2 hne
        rw [hr] at hg; cases hg
      | ok g =>
        have hne : readable o b ((o.inputs.map (·.1)).map w.store) ≠ [] := by
          intro h
          have := (h1 rfl).2 h
          rw [hr] at this; cases this
        refine iff_of_false (by simp [Except.toOption]) ?_
        rintro (h | h | h)
        · exact hp h
        · exact hne h
        · exact hA h.1

theorem aggregate_some (fr : Free) (hfr : fr.Ok) (w : World) (o : Options) (b : PropFiles.Bin) {t : PType} {files : List Name}
    (hd : dispatch o = some (t, files)) {d : Data} (h : aggregate fr w o b t files = some d) :
    (AllLbr o → Sampled fr w o b d) ∧ (AllSpe o → SpeSampled fr w o b d) ∧ Counts d.brs ∧
      ∀ sel m fns, sel.Nodup → build fns sel = some m → Counts (d.falls m) := by
  have hnd : ¬ NoData w o b := by rw [← aggregate_none fr w o b hd, h]; exact Option.some_ne_none _
  have hp : ¬ ProviderFails w o := fun hc => hnd (.inl hc)
  have hok := allOk_of w o hp
  obtain ⟨_, hne, rfl, ht⟩ := (dispatch_iff o t files).1 hd
  obtain ⟨i, hi⟩ := List.exists_mem_of_ne_nil _ hne
  unfold aggregate at h
  rcases ht with ⟨rfl, ha⟩ | ⟨rfl, ha⟩
  · simp only [Option.map_eq_some_iff] at h
    obtain ⟨g, hg, rfl⟩ := h
    have hg' : (aggregateLbr o b ((o.inputs.map (·.1)).map w.store) noStats).1 = .ok g := by
      revert hg
      cases (aggregateLbr o b ((o.inputs.map (·.1)).map w.store) noStats).1 with
      | error e => intro h; cases h
      | ok g' => intro h; cases h; rfl
    have hs := lbr_sampled fr hfr w o b hok g hg'
    refine ⟨fun _ => hs, fun hc => ?_, hs.1.counts, fun _ m _ _ _ => (hs.2.1 m).counts⟩
    rcases ha i hi with h | h <;> rw [hc i hi] at h <;> cases h
  · simp only [Option.map_eq_some_iff] at h
    obtain ⟨g, hg, rfl⟩ := h
    have hg' : (aggregateFreq o b ((o.inputs.map (·.1)).map w.store) noStats).1 = .ok g := by
      revert hg
      cases (aggregateFreq o b ((o.inputs.map (·.1)).map w.store) noStats).1 with
      | error e => intro h; cases h
      | ok g' => intro h; cases h; rfl
    have hs := spe_sampled fr hfr w o b hok g hg'
    refine ⟨fun hc => ?_, fun _ => hs, hs.1.counts, fun sel m fns hn hm => ?_⟩
    · rcases hc i hi with h | h <;> rw [ha i hi] at h <;> cases h
    · intro e he
      exact infer_pos hn hm _ _ _ e ((hfr.falls _).mem_iff.1 he)

/-- **C91**: if the command reports a failure, no file changes; in any case at most the two outputs do. For every input. -/
theorem files_kept (fr : Free) (w : World) (o : Options) :
    ((run fr w o).1 = .fail → (run fr w o).2 = w.fs) ∧ ∀ n, n ≠ o.clusterOut → n ≠ o.symOrder → (run fr w o).2 n = w.fs n := by
  have hput : ∀ n s fs x, x ≠ n → put w n s fs x = fs x := by
    intro n s fs x hx
    unfold put
    split
    · exact Function.update_of_ne hx _ _
    · rfl
  have hw : ∀ b m prof, ((write w o b m prof).1 = .fail → (write w o b m prof).2 = w.fs) ∧
      ∀ n, n ≠ o.clusterOut → n ≠ o.symOrder → (write w o b m prof).2 n = w.fs n := by
    intro b m prof
    unfold write
    split
    · exact ⟨fun _ => rfl, fun _ _ _ => rfl⟩
    · split
      · exact ⟨fun h => absurd h (by simp), fun n h1 h2 => (hput _ _ _ _ h2).trans (hput _ _ _ _ h1)⟩
      · exact ⟨fun h => absurd h (by simp), fun n h1 h2 => (hput _ _ _ _ h2).trans (hput _ _ _ _ h1)⟩
  have hf : ∀ d, ((finish fr w o d).1 = .fail → (finish fr w o d).2 = w.fs) ∧
      ∀ n, n ≠ o.clusterOut → n ≠ o.symOrder → (finish fr w o d).2 n = w.fs n := by
    intro d
    unfold finish
    split
    · exact ⟨fun _ => rfl, fun _ _ _ => rfl⟩
    · exact ⟨fun _ => rfl, fun _ _ _ => rfl⟩
    · split
      · exact ⟨fun _ => rfl, fun _ _ _ => rfl⟩
      · split
        · exact ⟨fun _ => rfl, fun _ _ _ => rfl⟩
        · split
          · exact ⟨fun _ => rfl, fun _ _ _ => rfl⟩
          · exact ⟨fun _ => rfl, fun _ _ _ => rfl⟩
          · exact hw _ _ _
  unfold run
  split
  · exact ⟨fun _ => rfl, fun _ _ _ => rfl⟩
  · split
    · exact ⟨fun _ => rfl, fun _ _ _ => rfl⟩
    · exact ⟨fun _ => rfl, fun _ _ _ => rfl⟩
    · split
      · exact ⟨fun _ => rfl, fun _ _ _ => rfl⟩
      · exact hf _

/-- **C91: the whole command.** For every binary whose blocks are in order, all recordings and options without verbose output and dump,
and every order of the hash maps, the command does not crash.  It fails, without touching a file, exactly if the inputs are missing or of
mixed types, the binary cannot be read, nothing can be collected, there is no basic block address map, modules are asked for without debug
information, or the counts look wrong.  Otherwise it succeeds and writes the layout of the functions from the counts of all the recordings. -/
theorem run_spec (fr : Free) (hfr : fr.Ok) (w : World) (o : Options) (hw : Good w o) :
    ((¬ Inputs o ∨ w.bin = .err) → run fr w o = (.fail, w.fs)) ∧
    ∀ b, Inputs o → w.bin = .ok b →
      (NoData w o b → run fr w o = (.fail, w.fs)) ∧
      (¬ NoData w o b → ∃ d, (AllLbr o → Sampled fr w o b d) ∧ (AllSpe o → SpeSampled fr w o b d) ∧
        ((w.bbs = none ∨ w.bbs = some []) → run fr w o = (.fail, w.fs)) ∧
        ∀ bin, MapperSyms.readBinary w.syms w.bbs = some (.ok bin) →
          ∃ m, build bin.fns (select (configOf fr o).uniq (configOf fr o).text (configOf fr o).filterText bin (some d.addrs)) = some m ∧
            ((o.moduleName = true ∧ w.dwarf = false ∨ Refused (configOf fr o) m d.brs) → run fr w o = (.fail, w.fs)) ∧
            (¬ (o.moduleName = true ∧ w.dwarf = false ∨ Refused (configOf fr o) m d.brs) →
              (run fr w o).1 = .ok ∧ Written fr w o bin m d (run fr w o).2)) := by
  constructor
  · intro h
    unfold run
    cases hd : dispatch o with
    | none => rfl
    | some p =>
      obtain ⟨t, files⟩ := p
      rcases h with h | h
      · exact absurd ((dispatch_cases o).2 h) (by rw [hd]; exact Option.some_ne_none _)
      · rw [h]
  · intro b hin hb
    obtain ⟨⟨t, files⟩, hd⟩ : ∃ p, dispatch o = some p := by
      cases hd : dispatch o with
      | none => exact absurd hin ((dispatch_cases o).1 hd)
      | some p => exact ⟨p, rfl⟩
    have hrun : run fr w o = match aggregate fr w o b t files with | none => (.fail, w.fs) | some d => finish fr w o d := by
      unfold run
      rw [hd, hb]
    rw [hrun]
    constructor
    · intro hn
      rw [(aggregate_none fr w o b hd).2 hn]
    · intro hn
      obtain ⟨d, hag⟩ : ∃ d, aggregate fr w o b t files = some d := by
        cases hag : aggregate fr w o b t files with
        | none => exact absurd ((aggregate_none fr w o b hd).1 hag) hn
        | some d => exact ⟨d, rfl⟩
      rw [hag]
      obtain ⟨s1, s2, c1, c2⟩ := aggregate_some fr hfr w o b hd hag
      refine ⟨d, s1, s2, ?_, ?_⟩
      · intro hbb
        have := (MapperSyms.readBinary_spec w.syms w.bbs).1.2 hbb
        simp only [finish, this]
      · intro bin hbin
        have ht := hw.tidy bin hbin
        obtain ⟨hs1, hs2, _⟩ := select_spec (configOf fr o).uniq (configOf fr o).text (configOf fr o).filterText bin (some d.addrs)
        obtain ⟨m, hm⟩ := build_some ht hs1 fun f hf => (hs2 f hf).1
        refine ⟨m, hm, ?_⟩
        have hm' : build bin.fns (selOf (configOf fr o) bin d) = some m := hm
        have hfin : finish fr w o d = if o.moduleName && !w.dwarf then (.fail, w.fs)
            else match layout fr (configOf fr o) (binaryOf o w bin) m d with
              | none => (.stop, w.fs)
              | some none => (.fail, w.fs)
              | some (some prof) => write w o (binaryOf o w bin) m prof := by
          simp only [finish, hbin, hm']
        simp only [hfin]
        obtain ⟨l1, l2⟩ := layout_ok fr hfr (configOf fr o) (binaryOf o w bin) ht d m hm' c1
          (c2 _ m _ (hs1.imp fun h => Nat.ne_of_lt h) hm)
        by_cases hmod : o.moduleName = true ∧ w.dwarf = false
        · have : (o.moduleName && !w.dwarf) = true := by simp [hmod.1, hmod.2]
          rw [if_pos this]
          exact ⟨fun _ => rfl, fun h => absurd (.inl hmod) h⟩
        · have : ¬ (o.moduleName && !w.dwarf) = true := by
            simp only [Bool.and_eq_true, Bool.not_eq_true']; exact hmod
          rw [if_neg this]
          constructor
          · rintro (h | h)
            · exact absurd h hmod
            · rw [l1 h]
          · intro h
            obtain ⟨st, prof, q1, q2, q3, q4, q5, q6⟩ := l2 fun hr => h (.inr hr)
            rw [q2]
            obtain ⟨v, hv⟩ : ∃ v, verOf o.version = some v := by
              rcases hw.version with h | h
              · exact ⟨.v0, by simp [verOf, h]⟩
              · exact ⟨.v1, by simp [verOf, h]⟩
            obtain ⟨cc, hcc, hread⟩ := clusterFile_ok v (configOf fr o) (binaryOf o w bin) (hw.names bin hbin v hv) hm q6
            obtain ⟨ld, hld, hall⟩ := symFile_ok (configOf fr o) (binaryOf o w bin) hm q6
            have hwr : write w o (binaryOf o w bin) m prof =
                (.ok, put w o.symOrder (ld.flatten.flatMap (· ++ ['\n'])) (put w o.clusterOut cc w.fs)) := by
              unfold write symFile
              simp only [hv, Option.bind_some, hcc, hld, Option.map_some]
            simp only [hwr]
            exact ⟨trivial, st, prof, cc, ld, q1, q3, q4, q5, q6, hread, hall, rfl⟩

/-- **C91**: what is in the cluster file after success: only functions that were sampled, under their names; every block that a branch or
run touches is listed once in the clusters of its function. -/
theorem cluster_of (fr : Free) (w : World) (o : Options) (bin : Bin) (m : Mapper) (d : Data) (fs : Name → Option (List Char))
    (hm : build bin.fns (select (configOf fr o).uniq (configOf fr o).text (configOf fr o).filterText bin (some d.addrs)) = some m)
    (h : Written fr w o bin m d fs) (hc : w.canWrite o.clusterOut = true) (hne : o.clusterOut ≠ o.symOrder) :
    ∃ (cc : List Char) (is : List FnInfo), fs o.clusterOut = some cc ∧ readCc cc = some (is.map (record (binaryOf o w bin) m)) ∧
      (∀ i ∈ is, HotFn m d.brs (d.falls m) i.fn) ∧
      ∀ n k, m.handles[n]? = some k → Touched m d.brs (d.falls m) n →
        ∃ i ∈ is, i.fn = k.fn ∧ (i.clusters.flatMap (·.blocks)).count n = 1 := by
  obtain ⟨st, prof, cc, ld, _, _, hsec, _, hall, hread, _, rfl⟩ := h
  refine ⟨cc, prof.flatMap Prod.snd, ?_, hread, ?_, ?_⟩
  · unfold put
    rw [hc, if_pos rfl]
    split
    · rw [Function.update_of_ne hne, Function.update_self]
    · rw [Function.update_self]
  · intro i hi
    obtain ⟨⟨s, is⟩, hp, hi⟩ := List.mem_flatMap.1 hi
    obtain ⟨order, B, ok⟩ := hall s is hp
    obtain ⟨_, _, hem⟩ := ok.emitted
    obtain ⟨n, hn, hf⟩ := List.mem_map.1 ((hem.fns i.fn).1 (List.mem_map.2 ⟨i, hi, rfl⟩))
    obtain ⟨hd, hh, _, hot, _⟩ := (ok.blocks n).1 hn
    rw [prog_fn hh] at hf
    rwa [hf] at hot
  · intro n h hh ht
    obtain ⟨x, hx⟩ : ∃ x, bin.info h.fn = some x :=
      ((select_spec (configOf fr o).uniq (configOf fr o).text (configOf fr o).filterText bin (some d.addrs)).2.1 _
        (InferFT.handle_fn_mem hm hh).1).2.imp fun x hx => hx.1
    obtain ⟨is, his⟩ := (hsec x.section_).2 ⟨h.fn, x, ⟨n, h, hh, rfl, ht⟩, hx, rfl⟩
    obtain ⟨order, B, ok⟩ := hall _ _ his
    obtain ⟨_, _, hem⟩ := ok.emitted
    have hn : n ∈ order := (ok.blocks n).2 ⟨h, hh, by
      change (bin.info h.fn).map (·.section_) = some x.section_
      rw [hx]; rfl, ⟨n, h, hh, rfl, ht⟩, .inr (.inl ht)⟩
    obtain ⟨q1, q2, q3⟩ := layout_once hem ok.runs ok.nodup
    obtain ⟨cl, hcl, hncl⟩ := List.mem_flatMap.1 (q2.mem_iff.2 hn)
    obtain ⟨i, hi, hcl⟩ := List.mem_flatMap.1 hcl
    refine ⟨i, List.mem_flatMap.2 ⟨_, his, hi⟩, ?_, ?_⟩
    · rw [← ((q1 i hi cl hcl).2 n hncl).2, prog_fn hh]
    · refine List.count_eq_one_of_mem ?_ (List.mem_flatMap.2 ⟨cl, hcl, hncl⟩)
      obtain ⟨p, q, rfl⟩ := List.append_of_mem hi
      rw [List.flatMap_append, List.flatMap_cons, List.flatMap_append, List.flatMap_append, List.nodup_append] at q3
      exact (List.nodup_append.1 q3.2.1).1

/-! ### Errors that are not reported -/

/-- A file that cannot be opened is left out; the command does not notice. -/
theorem unwritable (fr : Free) (w : World) (o : Options) (h : w.canWrite o.clusterOut = false) (hn : o.clusterOut ≠ o.symOrder) :
    (run fr w o).2 o.clusterOut = w.fs o.clusterOut := by
  have hw : ∀ b m prof, (write w o b m prof).2 o.clusterOut = w.fs o.clusterOut := by
    intro b m prof
    unfold write
    split
    · rfl
    · split
      · simp only [put]
        rw [h]
        split
        · exact Function.update_of_ne hn _ _
        · rfl
      · simp only [put]
        rw [h]
        split
        · exact Function.update_of_ne hn _ _
        · rfl
  unfold run
  split
  · rfl
  · split
    · rfl
    · rfl
    · split
      · rfl
      · unfold finish
        split
        · rfl
        · rfl
        · split
          · rfl
          · split
            · rfl
            · split
              · rfl
              · rfl
              · exact hw _ _ _

theorem loop_congr {G : Type} {o o' : Options} (b : PropFiles.Bin) (h : ∀ f, readerOf o b f = readerOf o' b f) (add : PerfAgg.Reader → File → G → G) :
    ∀ outs g st, loop o b add outs g st = loop o' b add outs g st
  | [], _, _ => rfl
  | .error _ :: _, _, _ => rfl
  | .ok f :: r, g, st => by
    rw [loop, loop, h f]
    split
    · exact loop_congr b h add r g st
    · exact loop_congr b h add r _ _

/-- An unknown version of the encoding is found only after the layout, and ends in a crash: if the command succeeds with another
version, it crashes with this one. -/
theorem version_crash (fr : Free) (w : World) (o : Options) (v : Int) (hv : v ≠ 1 ∧ v ≠ 2) (h : (run fr w o).1 = .ok) :
    run fr w { o with version := v } = (.stop, w.fs) := by
  have hd : dispatch { o with version := v } = dispatch o := rfl
  have hr : ∀ b f, readerOf { o with version := v } b f = readerOf o b f := fun _ _ => rfl
  have ha : ∀ b t files, aggregate fr w { o with version := v } b t files = aggregate fr w o b t files := by
    intro b t files
    unfold aggregate aggregateLbr aggregateFreq
    rw [loop_congr b (hr b), loop_congr b (hr b)]
  unfold run at h ⊢
  rw [hd]
  split at h
  · cases h
  · rename_i t files _
    split at h
    · cases h
    · cases h
    · rename_i b _
      rw [ha]
      split at h
      · cases h
      · rename_i d _
        unfold finish at h ⊢
        split at h
        · cases h
        · cases h
        · have hc : configOf fr { o with version := v } = configOf fr o := rfl
          have hb : ∀ bin, binaryOf { o with version := v } w bin = binaryOf o w bin := fun _ => rfl
          simp only [hc, hb]
          split at h
          · cases h
          · split at h
            · cases h
            · rename_i hmod
              rw [if_neg hmod]
              split at h
              · cases h
              · cases h
              · have : verOf v = none := by unfold verOf; rw [if_neg hv.1, if_neg hv.2]
                simp only [write, this]

/-! ### Example -/

def exSyms : List MapperSyms.ElfSym := [⟨true, some 0x10, some [102], 12, some MapperSyms.dotText⟩, ⟨true, some 0x20, some [103], 8, some MapperSyms.dotText⟩]
def exFile : File := ⟨[], [⟨some 1, some 0, some 0x1000, none, some (strBytes "/x")⟩], [⟨some 1, [(0x23, 0x10), (0x19, 0x20)]⟩],
  [(⟨true, true, true, true, 0x13, 0x20⟩, 1), (⟨true, true, false, true, 0x23, 0x10⟩, 1)]⟩
def exWorld (ok : Bool) : World where
  bin := .ok PropFiles.exBin
  aarch64 := true
  syms := exSyms
  bbs := some exMap.fns
  lp := fun _ => false
  id := fun h => h.bb
  dwarf := false
  moduleOf := fun _ => none
  store := fun n => if n = strBytes "a" then .ok none else .ok (some exFile)
  canWrite := fun _ => ok
  fs := fun _ => none
def exFree : Free := ⟨id, id, id, id, id, fun _ _ => false, fun _ _ => false⟩
def exRun (t : PType) : Options := { PropFiles.exOpts with inputs := [(strBytes "a", t), (strBytes "b", t)], clusterOut := strBytes "o", symOrder := strBytes "s" }

def exInfo : Nat → Option Info
  | 0 => some ⟨[[102]], MapperSyms.dotText⟩
  | 1 => some ⟨[[103]], MapperSyms.dotText⟩
  | _ => none

theorem ex_read : MapperSyms.readBinary exSyms (some exMap.fns) = some (.ok ⟨exMap.fns, exInfo⟩) := by
  have h : MapperSyms.symbolInfos (MapperSyms.readSymbolTable exSyms) exMap.fns = some [exInfo 0, exInfo 1] := by rfl
  have e : (fun i => ([exInfo 0, exInfo 1][i]?).join) = exInfo := by
    funext i
    rcases i with _ | _ | i <;> rfl
  have : MapperSyms.readBinary exSyms (some exMap.fns) =
      (MapperSyms.symbolInfos (MapperSyms.readSymbolTable exSyms) exMap.fns).map fun l => .ok ⟨exMap.fns, fun i => (l[i]?).join⟩ := rfl
  rw [this, h, Option.map_some, e]

theorem ex_good (ok : Bool) (t : PType) : Good (exWorld ok) (exRun t) := by
  have hr := ex_read
  refine ⟨by simp [exWorld], ?_, ?_, .inr rfl, ?_⟩
  · change MapperSyms.readBinary exSyms (some exMap.fns) ≠ none
    rw [hr]; exact Option.some_ne_none _
  · intro b hb
    have hb : MapperSyms.readBinary exSyms (some exMap.fns) = some (.ok b) := hb
    rw [hr] at hb
    cases hb
    exact ⟨Propeller.example_ok.1.fns, Propeller.example_ok.1.ok⟩
  · intro b hb v hv
    have hb : MapperSyms.readBinary exSyms (some exMap.fns) = some (.ok b) := hb
    rw [hr] at hb
    cases hb
    have hv1 : v = .v1 := by
      have : verOf 2 = some v := hv
      cases this; rfl
    subst hv1
    have hcase : ∀ f o, outOf (binaryOf (exRun t) (exWorld ok) ⟨exMap.fns, exInfo⟩) f = some o →
        o.names = [['f']] ∨ o.names = [['g']] := by
      intro f o ho
      rcases f with _ | _ | f
      · cases ho; exact .inl rfl
      · cases ho; exact .inr rfl
      · simp [outOf, binaryOf, exMap] at ho
    refine ⟨?_, ?_, ?_, ?_⟩
    · intro f o ho
      rcases hcase f o ho with h | h <;> rw [h] <;> simp
    · intro f o ho n hn
      rcases hcase f o ho with h | h <;> rw [h] at hn <;> simp only [List.mem_singleton] at hn <;> subst hn <;> decide
    · intro h; cases h
    · intro f x hx
      cases hx

theorem ex_free : exFree.Ok := ⟨fun _ => .refl _, fun _ => .refl _, fun _ => .refl _, fun _ => .refl _, fun _ => .refl _⟩

theorem ex_data (ok : Bool) : ¬ NoData (exWorld ok) (exRun .lbr) PropFiles.exBin ∧ ¬ NoData (exWorld ok) (exRun .spe) PropFiles.exBin := by
  have h : ∀ t, used (exWorld ok) (exRun t) PropFiles.exBin ≠ [] := by
    intro t h
    have : (used (exWorld true) (exRun .lbr) PropFiles.exBin).length = 1 := by decide +kernel
    have h2 : used (exWorld ok) (exRun t) PropFiles.exBin = used (exWorld true) (exRun .lbr) PropFiles.exBin := rfl
    rw [← h2, h] at this
    cases this
  have hp : ∀ t, ¬ ProviderFails (exWorld ok) (exRun t) := by
    rintro t ⟨i, _, e, he⟩
    simp only [exWorld] at he
    split at he <;> cases he
  constructor
  · rintro (h1 | h1 | h1)
    · exact hp _ h1
    · exact h _ h1
    · cases h1.2
  · rintro (h1 | h1 | h1)
    · exact hp _ h1
    · exact h _ h1
    · cases h1.2

/-- Two recordings of which one cannot be read; both kinds of profile are accepted.  The same exit code if nothing can be written, and a
crash for version 3. -/
theorem ex_run (ok : Bool) (t : PType) (ht : t = .lbr ∨ t = .spe) : (run exFree (exWorld ok) (exRun t)).1 = .ok := by
  have hin : Inputs (exRun t) := by
    refine ⟨rfl, by simp [exRun], ?_⟩
    rcases ht with rfl | rfl
    · refine .inl fun i hi => ?_
      simp only [exRun, List.mem_cons, List.not_mem_nil, or_false] at hi
      rcases hi with rfl | rfl <;> exact .inl rfl
    · refine .inr fun i hi => ?_
      simp only [exRun, List.mem_cons, List.not_mem_nil, or_false] at hi
      rcases hi with rfl | rfl <;> rfl
  obtain ⟨_, h⟩ := run_spec exFree ex_free (exWorld ok) (exRun t) (ex_good ok t)
  obtain ⟨_, h⟩ := h PropFiles.exBin hin rfl
  obtain ⟨d, _, _, _, h⟩ := h (by
    rcases ht with rfl | rfl
    · exact (ex_data ok).1
    · exact (ex_data ok).2)
  obtain ⟨m, _, _, h⟩ := h _ ex_read
  refine (h ?_).1
  rintro (⟨h, _⟩ | h)
  · cases h
  · rcases h with h | h <;> cases h

/-- The exit code says success although nothing could be written. -/
theorem unwritable_violated : (run exFree (exWorld false) (exRun .lbr)).1 = .ok ∧
    (run exFree (exWorld false) (exRun .lbr)).2 (strBytes "o") = none :=
  ⟨ex_run false .lbr (.inl rfl), unwritable exFree (exWorld false) (exRun .lbr) rfl (by decide +kernel)⟩

/-- An unknown version crashes. -/
theorem version_violated : run exFree (exWorld true) { exRun .lbr with version := 3 } = (.stop, fun _ => none) :=
  version_crash exFree (exWorld true) (exRun .lbr) 3 (by decide) (ex_run true .lbr (.inl rfl))

end Verif.PropRun

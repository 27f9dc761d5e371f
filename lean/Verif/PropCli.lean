import Verif.MMapSelector
import Mathlib.Data.List.Dedup

/-! # C89: from the command line to the files, the kind of profile and the mappings that are used
(create_llvm_prof.cc, llvm_propeller_profile_generator.cc, llvm_propeller_profile_computer.cc) -/
namespace Verif.PropCli
open Verif Verif.MMapSelector

deriving instance DecidableEq for Selector

/-- `';'` -/
def semi : UInt8 := 59
/-- `'\n'` -/
def nl : UInt8 := 10
/-- `'@'` -/
def at_ : UInt8 := 64
/-- `'#'` -/
def hash : UInt8 := 35

/-- `ProfileType` (llvm_propeller_options.proto). -/
inductive PType where
  | unspecified | lbr | spe | frequencies
  deriving DecidableEq, Repr

/-- `--format` (create_llvm_prof.cc:49-56, 226-275). -/
inductive Format where
  | text | binary | extbinary | propeller | other
  deriving DecidableEq, Repr

/-- `--profiler` (create_llvm_prof.cc:34-36). -/
inductive Profiler where
  | perf | perfSpe | other
  deriving DecidableEq, Repr

/-- The flags of `create_llvm_prof` (create_llvm_prof.cc:29-128). Simplified: the values of `--format` and `--profiler`
are enumerated; flags of the other profile kinds are left out. -/
structure Flags where
  profile : Name
  profiler : Profiler := .perf
  out : Name := []
  gcov : Name := []
  binary : Name := []
  format : Format := .text
  symOrder : Name := []
  cfgDump : Name := []
  splitThreshold : Nat := 0
  chainSplit : Bool := true
  verbose : Bool := false
  callChain : Bool := false
  interFunction : Bool := false
  forward : Nat := 1024
  backward : Nat := 680
  profiledBinary : Name := []
  symList : Bool := false
  http : Bool := false
  ignoreBuildId : Bool := false
  splitOnly : Bool := false
  layoutOnly : Bool := false
  moduleName : Bool := false
  version : Int := 2
  deriving DecidableEq

/-- The parameters of the layout that the command sets (llvm_propeller_options.proto, PropellerCodeLayoutParameters). -/
structure Layout where
  chainSplit : Bool
  splitThreshold : Nat
  backward : Nat
  forward : Nat
  callChain : Bool
  reorderHot : Bool
  splitFunctions : Bool
  interFunction : Bool
  deriving DecidableEq

/-- `PropellerOptions` (llvm_propeller_options.proto); an optional string is `none` when it was never set. -/
structure Options where
  inputs : List (Name × PType)
  profileNames : List Name
  binary : Name
  clusterOut : Name
  symOrder : Name
  profiledBinary : Option Name
  ignoreBuildId : Bool
  cfgDump : Option Name
  layout : Layout
  http : Bool
  moduleName : Bool
  version : Int
  verbose : Bool
  deriving DecidableEq

/-- `absl::StrSplit(s, c)` (create_llvm_prof.cc:154). -/
def strSplit (c : UInt8) : Name → List Name
  | [] => [[]]
  | b :: r =>
    if b = c then [] :: strSplit c r
    else match strSplit c r with
      | [] => [[b]]
      | p :: ps => (b :: p) :: ps

/-- The lines `std::getline` returns until it fails (create_llvm_prof.cc:145). -/
def getLines : Name → List Name
  | [] => []
  | b :: r =>
    if b = nl then [] :: getLines r
    else match getLines r with
      | [] => [[b]]
      | p :: ps => (b :: p) :: ps

/-- `GetProfileTypeFromFlag` (create_llvm_prof.cc:130-137). -/
def typeFromFlag : Profiler → PType
  | .perf => .lbr
  | .perfSpe => .spe
  | .other => .unspecified

/-- The input profiles (create_llvm_prof.cc:140-160). `fs` is the content of a file, empty when it cannot be read.
An input added without a type has none: reading it gives `PROFILE_TYPE_UNSPECIFIED`. -/
def inputsOf (fs : Name → Name) (f : Flags) : List (Name × PType) :=
  if f.profile.head? = some at_ then
    ((getLines (fs f.profile.tail)).filter fun l => l ≠ [] && l.head? != some hash).map fun l => (l, typeFromFlag f.profiler)
  else ((strSplit semi f.profile).filter fun l => l ≠ []).map fun l => (l, .unspecified)

/-- `CreatePropellerOptionsFromFlags` (create_llvm_prof.cc:139-195). -/
def optionsOf (fs : Name → Name) (f : Flags) : Options where
  inputs := inputsOf fs f
  profileNames := []
  binary := f.binary
  clusterOut := f.out
  symOrder := f.symOrder
  profiledBinary := some f.profiledBinary
  ignoreBuildId := f.ignoreBuildId
  cfgDump := if f.cfgDump = [] then none else some f.cfgDump
  layout := ⟨f.chainSplit, f.splitThreshold, f.backward, f.forward, f.callChain, !f.splitOnly, !f.layoutOnly, f.interFunction⟩
  http := f.http
  moduleName := f.moduleName
  version := f.version
  verbose := f.verbose

/-- What the command goes on to do. -/
inductive Action where
  | propeller (o : Options)
  | llvm (format : Format) (profile : Name) (profiler : Profiler) (out : Name) (symList : Bool)
  deriving DecidableEq

/-- The checks of `main` (create_llvm_prof.cc:197-290); `none`: exit with 1 and a message. -/
def plan (fs : Name → Name) (f : Flags) : Option Action :=
  if f.gcov ≠ [] ∧ f.out ≠ [] ∧ f.out ≠ f.gcov then none
  else
    let f := if f.gcov ≠ [] then { f with out := f.gcov } else f
    if f.out = [] then none
    else if f.ignoreBuildId && f.format != .propeller then none
    else if f.format = .propeller then
      if f.splitOnly && f.layoutOnly then none else some (.propeller (optionsOf fs f))
    else if semi ∈ f.profile then none
    else if f.profile.head? = some at_ then none
    else if f.format = .other then none
    else if f.symList && f.format != .extbinary then none
    else some (.llvm f.format f.profile f.profiler f.out f.symList)

/-- The type of one profile for `GetProfileType` (llvm_propeller_profile_generator.cc:111-118). -/
def norm : PType → PType
  | .unspecified => .lbr
  | t => t

/-- `GetProfileType` (llvm_propeller_profile_generator.cc:105-126). -/
def profileType (o : Options) : Option PType :=
  if o.inputs = [] then none
  else if (o.inputs.map fun i => norm i.2).dedup.length > 1 then none
  else (o.inputs.map fun i => norm i.2).dedup.head?

/-- `GeneratePropellerProfiles` (llvm_propeller_profile_generator.cc:188-227) up to the choice of the aggregator: the kind
of profile and the files given to the provider (`CreatePerfDataProvider`, 130-140). -/
def dispatch (o : Options) : Option (PType × List Name) :=
  if o.profileNames ≠ [] then none
  else match profileType o with
    | some .lbr => some (.lbr, o.inputs.map (·.1))
    | some .spe => some (.spe, o.inputs.map (·.1))
    | _ => none

/-- `PropellerProfileComputer::Create(options)` (llvm_propeller_profile_computer.cc:42-62, 84-91): the files of an
LBR profile. -/
def computerFiles (o : Options) : Option (List Name) :=
  if o.inputs.any fun i => i.2 != .lbr && i.2 != .unspecified then none
  else some (o.profileNames ++ o.inputs.map (·.1))

/-- `ResolveMmapName` (llvm_propeller_perf_branch_frequencies_aggregator.cc:23-36; the same code in
llvm_propeller_perf_lbr_aggregator.cc:31-41). -/
def mmapName (o : Options) : Name :=
  match o.profiledBinary with
  | some n => n
  | none => if o.ignoreBuildId then o.binary else []

/-- The names `BuildPerfDataReader` (perfdata_reader.cc:457-467) hands to the selection of mappings. -/
def matchNames (n : Name) : List Name := if n = [] then [] else [n]

/-! ### Specification -/

/-- The command line is not one the command accepts. -/
def UsageError (f : Flags) : Prop :=
  (f.out = [] ∧ f.gcov = []) ∨
  (f.out ≠ [] ∧ f.gcov ≠ [] ∧ f.out ≠ f.gcov) ∨
  (f.format = .propeller ∧ f.splitOnly = true ∧ f.layoutOnly = true) ∨
  (f.format ≠ .propeller ∧
    (f.ignoreBuildId = true ∨ semi ∈ f.profile ∨ (∃ r, f.profile = at_ :: r) ∨ f.format = .other ∨
      (f.symList = true ∧ f.format ≠ .extbinary)))

/-- The output file that was asked for. -/
def outName (f : Flags) : Name := if f.out = [] then f.gcov else f.out

/-- The recording kind the user asked for. -/
def askedType : Profiler → PType
  | .perfSpe => .spe
  | _ => .lbr

/-- The names by which the user asked to select the mappings; none: by build id. -/
def askedNames (f : Flags) : List Name :=
  if f.profiledBinary ≠ [] then [f.profiledBinary] else if f.ignoreBuildId then [f.binary] else []

/-- Lines of a file, each ended by a newline. -/
def fileOf (ls : List Name) : Name := ls.flatMap fun l => l ++ [nl]

/-! ### Splitting -/

theorem strSplit_ne (c : UInt8) (s : Name) : strSplit c s ≠ [] := by
  cases s with
  | nil => simp [strSplit]
  | cons b r => rw [strSplit]; split; · simp
                · split <;> simp

theorem strSplit_piece (c : UInt8) : ∀ (p : Name), c ∉ p → strSplit c p = [p]
  | [], _ => rfl
  | b :: r, h => by
    have hb : b ≠ c := fun e => h (by simp [e])
    rw [strSplit, if_neg hb, strSplit_piece c r (fun hc => h (by simp [hc]))]

theorem strSplit_sep (c : UInt8) (rest : Name) : ∀ (p : Name), c ∉ p → strSplit c (p ++ c :: rest) = p :: strSplit c rest
  | [], _ => by simp [strSplit]
  | b :: r, h => by
    have hb : b ≠ c := fun e => h (by simp [e])
    rw [List.cons_append, strSplit, if_neg hb, strSplit_sep c rest r (fun hc => h (by simp [hc]))]

/-- Splitting what was joined gives the pieces back. -/
theorem strSplit_join (c : UInt8) : ∀ (ps : List Name), ps ≠ [] → (∀ p ∈ ps, c ∉ p) →
    strSplit c (List.intercalate [c] ps) = ps
  | [], h, _ => absurd rfl h
  | [p], _, h => by simpa [List.intercalate] using strSplit_piece c p (h p (by simp))
  | p :: q :: ps, _, h => by
    have ih := strSplit_join c (q :: ps) (by simp) (fun x hx => h x (by simp [hx]))
    have e : List.intercalate [c] (p :: q :: ps) = p ++ c :: List.intercalate [c] (q :: ps) := by
      simp [List.intercalate, List.intersperse]
    rw [e, strSplit_sep c _ p (h p (by simp)), ih]

theorem getLines_line (rest : Name) : ∀ (l : Name), nl ∉ l → getLines (l ++ nl :: rest) = l :: getLines rest
  | [], _ => by simp [getLines]
  | b :: r, h => by
    have hb : b ≠ nl := fun e => h (by simp [e])
    rw [List.cons_append, getLines, if_neg hb, getLines_line rest r (fun hc => h (by simp [hc]))]

theorem getLines_last : ∀ (l : Name), nl ∉ l → getLines l = if l = [] then [] else [l]
  | [], _ => rfl
  | b :: r, h => by
    have hb : b ≠ nl := fun e => h (by simp [e])
    rw [getLines, if_neg hb, getLines_last r (fun hc => h (by simp [hc]))]
    by_cases hr : r = [] <;> simp [hr]

/-- Reading a file of lines gives the lines back, whether or not the last one is ended. -/
theorem getLines_file (last : Name) (hl : nl ∉ last) : ∀ (ls : List Name), (∀ l ∈ ls, nl ∉ l) →
    getLines (fileOf ls ++ last) = ls ++ if last = [] then [] else [last]
  | [], _ => by simpa [fileOf] using getLines_last last hl
  | l :: ls, h => by
    have ih := getLines_file last hl ls (fun x hx => h x (by simp [hx]))
    have e : fileOf (l :: ls) ++ last = l ++ nl :: (fileOf ls ++ last) := by simp [fileOf]
    rw [e, getLines_line _ l (h l (by simp)), ih]; rfl

/-! ### Theorems -/

/-- **C89**: the command is refused for exactly the listed usage errors. -/
theorem plan_refuses_iff (fs : Name → Name) (f : Flags) : plan fs f = none ↔ UsageError f := by
  have hh : (f.profile.head? = some at_) ↔ ∃ r, f.profile = at_ :: r := by
    cases f.profile with
    | nil => simp
    | cons a r => simp
  unfold plan UsageError
  rw [← hh]
  by_cases h0 : f.gcov ≠ [] ∧ f.out ≠ [] ∧ f.out ≠ f.gcov
  · rw [if_pos h0]; simp only [true_iff]; exact .inr (.inl ⟨h0.2.1, h0.1, h0.2.2⟩)
  rw [if_neg h0]
  have ho : (if f.gcov ≠ [] then { f with out := f.gcov } else f : Flags).out = [] ↔ (f.out = [] ∧ f.gcov = []) := by
    by_cases hg : f.gcov = [] <;> simp_all
  have hf : ∀ g : Flags, g = (if f.gcov ≠ [] then { f with out := f.gcov } else f) → g = { f with out := g.out } := by
    intro g e; subst e; split <;> rfl
  revert ho
  generalize hgdef : (if f.gcov ≠ [] then { f with out := f.gcov } else f : Flags) = g
  have hfg := hf g hgdef.symm
  clear hf hgdef
  intro ho
  generalize g.out = go at hfg ho
  subst hfg
  simp only []
  have h1 : ¬ (f.out ≠ [] ∧ f.gcov ≠ [] ∧ f.out ≠ f.gcov) := fun c => h0 ⟨c.2.1, c.1, c.2.2⟩
  by_cases hout : go = []
  · simp [hout, ho.mp hout]
  rw [if_neg hout]
  have h2 : ¬ (f.out = [] ∧ f.gcov = []) := fun c => hout (ho.mpr c)
  simp only [h1, h2, false_or]
  clear h0 h1 h2 ho hh
  by_cases hp : f.format = .propeller
  · simp [hp]
  · have hb : (f.format != .propeller) = true := by simpa using hp
    simp only [hb, hp, Bool.and_true, if_false, false_and, false_or, ne_eq, not_false_eq_true, true_and]
    by_cases hi : f.ignoreBuildId = true
    · simp [hi]
    by_cases hm : semi ∈ f.profile
    · simp [hi, hm]
    by_cases ha : f.profile.head? = some at_
    · simp [hi, hm, ha]
    by_cases hx : f.format = .other
    · simp [hi, hm, ha, hx]
    · simp [hi, hm, ha, hx]

/-- **C89**: an accepted command writes the file asked for, with the profile, format and options given; of the two
restrictions of the layout, "split only" turns off the reordering and "layout only" the splitting. -/
theorem plan_spec (fs : Name → Name) (f : Flags) (a : Action) (h : plan fs f = some a) :
    (f.format = .propeller → ∃ o : Options, a = .propeller o ∧ o.clusterOut = outName f ∧ o.inputs = inputsOf fs f ∧
      o.binary = f.binary ∧ o.symOrder = f.symOrder ∧ o.profileNames = [] ∧ o.ignoreBuildId = f.ignoreBuildId ∧
      o.cfgDump = (if f.cfgDump = [] then none else some f.cfgDump) ∧ o.http = f.http ∧ o.moduleName = f.moduleName ∧
      o.version = f.version ∧ o.verbose = f.verbose ∧
      (o.layout.reorderHot = false ↔ f.splitOnly = true) ∧ (o.layout.splitFunctions = false ↔ f.layoutOnly = true) ∧
      (o.layout.reorderHot = true ∨ o.layout.splitFunctions = true) ∧
      o.layout.chainSplit = f.chainSplit ∧ o.layout.splitThreshold = f.splitThreshold ∧ o.layout.backward = f.backward ∧
      o.layout.forward = f.forward ∧ o.layout.callChain = f.callChain ∧ o.layout.interFunction = f.interFunction) ∧
    (f.format ≠ .propeller → a = .llvm f.format f.profile f.profiler (outName f) f.symList) := by
  have ho : (if f.gcov ≠ [] then { f with out := f.gcov } else f : Flags).out = [] ∨
      (¬ (f.gcov ≠ [] ∧ f.out ≠ [] ∧ f.out ≠ f.gcov) →
        (if f.gcov ≠ [] then { f with out := f.gcov } else f : Flags).out = outName f) := by
    unfold outName
    by_cases hg : f.gcov = [] <;> by_cases ho : f.out = [] <;> by_cases he : f.out = f.gcov <;> simp_all
  have hf : ∀ g : Flags, g = (if f.gcov ≠ [] then { f with out := f.gcov } else f) → g = { f with out := g.out } := by
    intro g e; subst e; split <;> rfl
  unfold plan at h
  split at h
  · cases h
  rename_i h0
  revert h ho
  generalize hgdef : (if f.gcov ≠ [] then { f with out := f.gcov } else f : Flags) = g
  have hfg := hf g hgdef.symm
  intro ho h
  simp only [] at h
  split at h; · cases h
  rename_i hout
  have hge : g.out = outName f := by
    rcases ho with ho | ho
    · exact absurd ho hout
    · exact ho h0
  rw [hge] at hfg
  clear ho hf hgdef
  subst hfg
  simp only [] at h hge hout
  split at h; · cases h
  split at h
  · rename_i hp
    split at h; · cases h
    rename_i hsl
    injection h with h; subst h
    refine ⟨fun _ => ⟨_, rfl, rfl, rfl, rfl, rfl, rfl, rfl, rfl, rfl, rfl, rfl, rfl, ?_, ?_, ?_, rfl, rfl, rfl, rfl, rfl, rfl⟩, fun c => absurd hp c⟩
    · simp [optionsOf]
    · simp [optionsOf]
    · revert hsl; simp only [optionsOf]; cases f.splitOnly <;> cases f.layoutOnly <;> simp
  · rename_i hp
    refine ⟨fun c => absurd c hp, fun _ => ?_⟩
    split at h; · cases h
    split at h; · cases h
    split at h; · cases h
    split at h; · cases h
    injection h with h; exact h.symm

/-- **C89**: a list of names joined by semicolons is read as those names, in order, the empty ones left out. -/
theorem inputs_semicolon (fs : Name → Name) (f : Flags) (ps : List Name) (hne : ps ≠ []) (hp : ∀ p ∈ ps, semi ∉ p)
    (hf : f.profile = List.intercalate [semi] ps) (ha : ∀ r, f.profile ≠ at_ :: r) :
    (inputsOf fs f).map (·.1) = ps.filter (· ≠ []) := by
  have hh : f.profile.head? ≠ some at_ := by
    intro h
    cases hpr : f.profile with
    | nil => simp [hpr] at h
    | cons a r => rw [hpr] at h; simp at h; exact ha r (by rw [hpr, h])
  rw [inputsOf, if_neg hh, hf, strSplit_join semi ps hne hp, List.map_map]
  exact List.map_id _

/-- **C89**: `@file` is read as the lines of the file, in order, empty lines and comments left out. -/
theorem inputs_file (fs : Name → Name) (f : Flags) (path last : Name) (ls : List Name) (hl : ∀ l ∈ ls, nl ∉ l) (hla : nl ∉ last)
    (hf : f.profile = at_ :: path) (hc : fs path = fileOf ls ++ last) :
    (inputsOf fs f).map (·.1) = (ls ++ [last]).filter (fun l => l ≠ [] ∧ l.head? ≠ some hash) := by
  rw [inputsOf, if_pos (by rw [hf]; rfl), hf]
  simp only [List.tail_cons]
  rw [hc, getLines_file last hla ls hl]
  have e1 : ∀ l : List Name, List.filter (fun l => decide (l ≠ []) && l.head? != some hash) l =
      List.filter (fun l => decide (l ≠ [] ∧ l.head? ≠ some hash)) l := fun l => List.filter_congr fun x _ => by
    rw [Bool.eq_iff_iff]; simp
  rw [e1, List.map_map]
  have e2 : ((fun x : Name × PType => x.1) ∘ fun l => (l, typeFromFlag f.profiler)) = id := rfl
  rw [e2, List.map_id, List.filter_append, List.filter_append]
  congr 1
  by_cases h : last = [] <;> simp [h]

theorem dedup_one {l : List PType} (t : PType) (hl : l ≠ []) : (l.dedup.length ≤ 1 ∧ l.dedup.head? = some t) ↔ ∀ x ∈ l, x = t := by
  constructor
  · rintro ⟨h1, h2⟩ x hx
    have hx' := List.mem_dedup.mpr hx
    match hd : l.dedup, h1, h2 with
    | [a], _, h2 => rw [hd] at hx'; simp at hx' h2; rw [hx', h2]
    | a :: b :: r, h1, _ => simp at h1
    | [], _, h2 => simp at h2
  · intro h
    obtain ⟨y, r, hy⟩ := List.exists_cons_of_ne_nil hl
    have e : l = List.replicate l.length t := List.eq_replicate_iff.mpr ⟨rfl, h⟩
    have : l.dedup = [t] := by
      rw [e, List.replicate_dedup]
      rw [hy]; simp
    simp [this]

/-- **C89**: the type is found exactly when there is an input and all inputs have that type (no type meaning LBR). -/
theorem profileType_iff (o : Options) (t : PType) :
    profileType o = some t ↔ o.inputs ≠ [] ∧ ∀ i ∈ o.inputs, (i.2 = t ∧ t ≠ .unspecified) ∨ (i.2 = .unspecified ∧ t = .lbr) := by
  unfold profileType
  by_cases h0 : o.inputs = []
  · simp [h0]
  rw [if_neg h0]
  have hn : (o.inputs.map fun i => norm i.2) ≠ [] := by simpa using h0
  have key := dedup_one (l := o.inputs.map fun i => norm i.2) t hn
  have hx : (∀ x ∈ o.inputs.map (fun i => norm i.2), x = t) ↔
      ∀ i ∈ o.inputs, (i.2 = t ∧ t ≠ .unspecified) ∨ (i.2 = .unspecified ∧ t = .lbr) := by
    simp only [List.mem_map, forall_exists_index, and_imp, forall_apply_eq_imp_iff₂]
    refine forall₂_congr fun i _ => ?_
    cases hi : i.2 <;> cases t <;> simp [norm]
  rw [hx] at key
  by_cases hl : (o.inputs.map fun i => norm i.2).dedup.length > 1
  · rw [if_pos hl]
    simp only [reduceCtorEq, false_iff, not_and]
    intro _ hc
    have := (key.mpr hc).1; omega
  · rw [if_neg hl]
    simp only [ne_eq, h0, not_false_eq_true, true_and]
    rw [← key]; simp; omega

/-- **C89**: profiles are read as LBR exactly if every input is LBR or has no type, as SPE exactly if every input is SPE;
then all the files are used in the order given. Everything else is refused: no input, mixed types, other types, the old
list of names. -/
theorem dispatch_iff (o : Options) (t : PType) (files : List Name) :
    dispatch o = some (t, files) ↔ o.profileNames = [] ∧ o.inputs ≠ [] ∧ files = o.inputs.map (·.1) ∧
      ((t = .lbr ∧ ∀ i ∈ o.inputs, i.2 = .lbr ∨ i.2 = .unspecified) ∨ (t = .spe ∧ ∀ i ∈ o.inputs, i.2 = .spe)) := by
  have h1 := profileType_iff o .lbr
  have h2 := profileType_iff o .spe
  simp only [ne_eq, reduceCtorEq, not_false_eq_true, and_true, and_false, or_false] at h1 h2
  unfold dispatch
  by_cases hp : o.profileNames = []
  swap
  · simp [hp]
  rw [if_neg (by simpa using hp)]
  cases hpt : profileType o with
  | none =>
    rw [hpt] at h1 h2
    simp only [reduceCtorEq, false_iff, not_and] at h1 h2
    simp only [reduceCtorEq, false_iff]
    rintro ⟨_, hi, _, ⟨rfl, h⟩ | ⟨rfl, h⟩⟩
    · exact h1 hi h
    · exact h2 hi h
  | some u =>
    rw [hpt] at h1 h2
    cases u with
    | lbr =>
      have h := h1.mp rfl
      constructor
      · intro e; injection e with e; injection e with e1 e2; subst e1; subst e2
        exact ⟨hp, h.1, rfl, .inl ⟨rfl, h.2⟩⟩
      · rintro ⟨_, hi, rfl, ⟨rfl, _⟩ | ⟨rfl, hs⟩⟩
        · rfl
        · exact absurd (h2.mpr ⟨hi, hs⟩) (by simp)
    | spe =>
      have h := h2.mp rfl
      constructor
      · intro e; injection e with e; injection e with e1 e2; subst e1; subst e2
        exact ⟨hp, h.1, rfl, .inr ⟨rfl, h.2⟩⟩
      · rintro ⟨_, hi, rfl, ⟨rfl, hs⟩ | ⟨rfl, _⟩⟩
        · exact absurd (h1.mpr ⟨hi, hs⟩) (by simp)
        · rfl
    | unspecified =>
      simp only [reduceCtorEq, false_iff]
      rintro ⟨_, hi, rfl, ⟨rfl, hs⟩ | ⟨rfl, hs⟩⟩
      · exact absurd (h1.mpr ⟨hi, hs⟩) (by simp)
      · exact absurd (h2.mpr ⟨hi, hs⟩) (by simp)
    | frequencies =>
      simp only [reduceCtorEq, false_iff]
      rintro ⟨_, hi, rfl, ⟨rfl, hs⟩ | ⟨rfl, hs⟩⟩
      · exact absurd (h1.mpr ⟨hi, hs⟩) (by simp)
      · exact absurd (h2.mpr ⟨hi, hs⟩) (by simp)

/-- **C89**: a profile computer made from options reads the old names first, then the inputs, and exists exactly if no
input is of a type other than LBR. -/
theorem computerFiles_iff (o : Options) (files : List Name) :
    computerFiles o = some files ↔ (∀ i ∈ o.inputs, i.2 = .lbr ∨ i.2 = .unspecified) ∧
      files = o.profileNames ++ o.inputs.map (·.1) := by
  unfold computerFiles
  have h : (o.inputs.any fun i => i.2 != .lbr && i.2 != .unspecified) = true ↔ ¬ ∀ i ∈ o.inputs, i.2 = .lbr ∨ i.2 = .unspecified := by
    simp only [List.any_eq_true, not_forall]
    constructor
    · rintro ⟨i, hi, hx⟩; exact ⟨i, hi, by simpa using hx⟩
    · rintro ⟨i, hi, hx⟩; exact ⟨i, hi, by simpa using hx⟩
  split
  · rename_i hc; rw [h] at hc
    constructor
    · intro e; cases e
    · intro e; exact absurd e.1 hc
  · rename_i hc; rw [h, not_not] at hc
    constructor
    · intro e; injection e with e; exact ⟨hc, e.symm⟩
    · rintro ⟨_, rfl⟩; rfl

/-- **C89**, options given through the API: mappings are selected by the name of the profiled binary if it is set (and not
empty), else by the name of the binary if build ids are to be ignored, else by build id. -/
theorem api_names (o : Options) (hb : o.binary ≠ []) :
    matchNames (mmapName o) =
      match o.profiledBinary with
      | some n => if n = [] then [] else [n]
      | none => if o.ignoreBuildId then [o.binary] else [] := by
  unfold mmapName matchNames
  cases o.profiledBinary with
  | some n => rfl
  | none => cases o.ignoreBuildId <;> simp [hb]

/-- **C89, the part that holds for the command line**: an LBR recording is always read as one; an SPE recording if it is
listed in a file; the mappings are the ones asked for unless build ids are to be ignored without naming the profiled
binary. Missing: the two cases refuted below. -/
theorem cli_partial (fs : Name → Name) (f : Flags) (hi : inputsOf fs f ≠ [])
    (hk : f.profiler ≠ .perfSpe ∨ ∃ r, f.profile = at_ :: r) :
    dispatch (optionsOf fs f) = some (askedType f.profiler, (inputsOf fs f).map (·.1)) ∧
    ((f.profiledBinary ≠ [] ∨ f.ignoreBuildId = false) → matchNames (mmapName (optionsOf fs f)) = askedNames f) := by
  constructor
  · rw [dispatch_iff]
    refine ⟨rfl, hi, rfl, ?_⟩
    by_cases ha : f.profile.head? = some at_
    · have ht : ∀ i ∈ (optionsOf fs f).inputs, i.2 = typeFromFlag f.profiler := by
        intro i hm
        simp only [optionsOf, inputsOf, if_pos ha, List.mem_map] at hm
        obtain ⟨l, _, rfl⟩ := hm; rfl
      cases hpr : f.profiler with
      | perf => exact .inl ⟨rfl, fun i hm => .inl (by rw [ht i hm, hpr]; rfl)⟩
      | perfSpe => exact .inr ⟨rfl, fun i hm => by rw [ht i hm, hpr]; rfl⟩
      | other => exact .inl ⟨rfl, fun i hm => .inr (by rw [ht i hm, hpr]; rfl)⟩
    · have ht : ∀ i ∈ (optionsOf fs f).inputs, i.2 = .unspecified := by
        intro i hm
        simp only [optionsOf, inputsOf, if_neg ha, List.mem_map] at hm
        obtain ⟨l, _, rfl⟩ := hm; rfl
      have hp : f.profiler ≠ .perfSpe := by
        rcases hk with hk | ⟨r, hr⟩
        · exact hk
        · exact absurd (by rw [hr]; rfl) ha
      refine .inl ⟨?_, fun i hm => .inr (ht i hm)⟩
      revert hp; cases f.profiler <;> simp [askedType]
  · intro h
    simp only [mmapName, optionsOf, matchNames, askedNames]
    by_cases hp : f.profiledBinary = []
    · rcases h with h | h
      · exact absurd hp h
      · simp [hp, h]
    · simp [hp]

/-- **C89 is violated**: `--profiler=perf_spe --profile=rec` reads the SPE recording as an LBR one. -/
theorem spe_type_violated :
    dispatch (optionsOf (fun _ => []) { profile := strBytes "rec", profiler := .perfSpe, format := .propeller, out := [1] }) =
      some (.lbr, [strBytes "rec"]) := by decide +kernel

/-- **C89 is violated**: `--ignore_build_id` has no effect on the command line: whatever the flags, without a name for the
profiled binary the mappings are selected by build id, so a binary without one, or a rebuilt one, finds none. -/
theorem ignore_build_id_violated (fs : Name → Name) (f : Flags) (h : f.profiledBinary = []) (ids : List BuildId)
    (b : Name) (hb : buildIdNames ids b = none) :
    choose (matchNames (mmapName (optionsOf fs f))) ids b = none ∧
    choose (matchNames (mmapName { optionsOf fs f with profiledBinary := none, ignoreBuildId := true, binary := strBytes "/bin/x" })) ids b =
      some ⟨false, [strBytes "/bin/x"]⟩ := by
  constructor
  · simp [mmapName, optionsOf, h, matchNames, choose, hb]
  · have e : matchNames (mmapName { optionsOf fs f with profiledBinary := none, ignoreBuildId := true, binary := strBytes "/bin/x" }) =
        [strBytes "/bin/x"] := by
      simp only [mmapName, matchNames]; decide +kernel
    rw [e, choose, if_neg (by simp)]
    decide +kernel

/-- A concrete command line. -/
def exFlags : Flags := { profile := strBytes "a;;b", format := .propeller, gcov := strBytes "o", profiledBinary := strBytes "x", splitOnly := true }

theorem ex_plan : plan (fun _ => []) exFlags = some (.propeller (optionsOf (fun _ => []) { exFlags with out := strBytes "o" })) ∧
    dispatch (optionsOf (fun _ => []) exFlags) = some (.lbr, [strBytes "a", strBytes "b"]) ∧
    matchNames (mmapName (optionsOf (fun _ => []) exFlags)) = [strBytes "x"] ∧
    inputsOf (fun _ => strBytes "a\n#no\n\nb") { profile := strBytes "@l", profiler := .perfSpe } = [(strBytes "a", .spe), (strBytes "b", .spe)] ∧
    plan (fun _ => []) { exFlags with layoutOnly := true } = none ∧
    dispatch { optionsOf (fun _ => []) exFlags with inputs := [([1], .spe), ([2], .unspecified)] } = none ∧
    computerFiles { optionsOf (fun _ => []) exFlags with profileNames := [[7]] } = some [[7], strBytes "a", strBytes "b"] := by
  refine ⟨by decide +kernel, by decide +kernel, by decide +kernel, by decide +kernel, by decide +kernel, by decide +kernel, by decide +kernel⟩

theorem ex_hyps : strBytes "a;;b" = List.intercalate [semi] [strBytes "a", [], strBytes "b"] ∧
    strBytes "a\n#no\n\nb" = fileOf [strBytes "a", strBytes "#no", []] ++ strBytes "b" ∧
    (∀ p ∈ [strBytes "a", [], strBytes "b"], semi ∉ p) ∧ (∀ p ∈ [strBytes "a", strBytes "#no", []], nl ∉ p) := by
  refine ⟨by decide +kernel, by decide +kernel, by decide +kernel, by decide +kernel⟩

end Verif.PropCli

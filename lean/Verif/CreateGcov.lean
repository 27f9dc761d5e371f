import Verif.Pipeline
import Verif.Prefetch
import Verif.PerfReadProps
import Verif.SpeSimple
import Verif.Stamp
import Verif.AfdoTable
import Verif.AfdoProps
import Verif.Summary
import Verif.WorkingSet
import Verif.ElfSeg

/-!
# C94: the whole `create_gcov` command (create_gcov.cc:27-51; profile_creator.cc:118-157, 159-222; profile_writer.cc:37-270)

From the flags and the files to the exit status and the bytes of the profile, for all profilers.  The build without LLVM:
`perf_spe` is read by `SimpleSpeDataSampleReader`.  C07, C08, C12, C70, C75, C78, C79 and C80 are put together here.
-/
namespace Verif.CreateGcov
open Verif Verif.SymbolMap Verif.AddrLookup Verif.Sample Verif.Compute Verif.Pipeline
open Verif.Elf (buildSymbolMap loadableSegs prepareFile buildId)

/-- `--profiler`; `other` is every string that is none of these (profile_creator.cc:127, 161, 202-207). -/
inductive Profiler where
  | perf | perfSpe | text | prefetch | other
deriving DecidableEq

/-- The flags that matter; `focus` is `--focus_binary_re`, `search e n` is `std::regex_search` of the expression `e` in `n`,
`num / den` is `--sample_threshold_frac`. -/
structure Flags where
  profiler : Profiler
  focus : List Nat
  search : List Nat → List Nat → Bool
  limit : Nat
  version : Nat
  num : Nat
  den : Nat
  cfg : Cfg

/-- The files: the binary (`--binary`) and the profile (`--profile`) as text, as a perf file, and as a perf file with SPE records;
`none`: it cannot be read.  `canOpen`, `closes`: the output file can be opened, and closing it succeeds. -/
structure Files where
  path : List Nat
  disk : Option (List Nat)
  text : Option (List Char)
  perf : Option PerfRead.PerfFile
  spe : Option (List SpeSimple.Ev)
  canOpen : Bool
  closes : Bool

/-- What is asked of a `SampleReader`: its maps, `total_count_`, `IsKernelSample`, `address_timestamp_map_`. -/
structure Samples where
  maps : Maps
  total : Nat
  kernel : Bool
  times : OMap Nat Nat
deriving DecidableEq

/-- `*strstr(dup_name, ".unstripped") = 0` (profile_creator.cc:168-171). -/
def cutName : List Nat → List Nat
  | [] => []
  | c :: t => if (Elf.str ".unstripped").isPrefixOf (c :: t) then [] else c :: cutName t

/-- The default expression (profile_creator.cc:166-175). -/
def defaultRe (path : List Nat) : List Nat := Elf.str ".*/" ++ SpeSimple.baseName (cutName path) ++ Elf.str "$"

/-- The options for the perf reader (profile_creator.cc:162-201). -/
def options (F : Flags) (W : Files) : Option PerfRead.Opts :=
  if F.focus ≠ [] then some ⟨[], F.search F.focus, F.limit⟩
  else (buildId W.path W.disk).map fun id => ⟨PerfRead.padBuildId id, F.search (defaultRe W.path), F.limit⟩

/-- `ReadSample` (profile_creator.cc:159-213) and `ReadAndSetTotalCount` (sample_reader.cc:142-155); `some none`: it returns false. -/
def readSample (F : Flags) (W : Files) : Option (Option Samples) :=
  match F.profiler with
  | .perf => (options F W).map fun o => W.perf.map fun f =>
      ⟨(PerfRead.appendFile o PerfRead.Reader.new f).maps, (PerfRead.appendFile o PerfRead.Reader.new f).maps.totalCountFrom 0,
        (PerfRead.appendFile o PerfRead.Reader.new f).kernel, (PerfRead.appendFile o PerfRead.Reader.new f).times⟩
  | .perfSpe => (options F W).bind fun _ => (SpeSimple.read W.path W.spe).map fun o => o.map fun r =>
      ⟨r.maps, SpeSimple.readTotal r, false, []⟩
  | .text => some (W.text.bind fun t => (readText Maps.empty t).map fun S => ⟨S, S.totalCountFrom 0, false, []⟩)
  | _ => some none

/-- What the writer gets: the symbols, their timestamps, the threshold and the working sets. -/
structure Result where
  store : Store
  ts : Nat → Nat
  threshold : Nat
  ws : List (Nat × Nat)

/-- `Profile::ComputeProfile` (profile.cc:217-275) with the timestamps, for a binary `b` whose names have the aliases `al`.
`shuffle` is the order of the hash map of the functions. -/
def core (b : Bin) (al : Name → List Name) (F : Flags) (S : Samples) (shuffle : List (Name × FnMaps) → List (Name × FnMaps)) :
    Option Result :=
  (aggregate b S.maps).bind fun P =>
  (computeOrderA b al F.cfg (Threshold.fromTotal F.num F.den S.total) (shuffle P)).bind fun st =>
  (Stamp.processStamps (Stamp.stamps b S.times) st
    ((emitted F.cfg (Threshold.fromTotal F.num F.den S.total) (shuffle P)).map Prod.fst)).bind fun ts =>
  (Stamp.elideT F.cfg.pol (st, ts)).map fun x =>
    ⟨x.1, x.2, Threshold.fromTotal F.num F.den S.total, x.1.workingSets⟩

/-- `ReadLoadableExecSegmentInfo` and `ComputeProfile` (profile_creator.cc:132-133, 214-222). -/
def compute (F : Flags) (W : Files) (m : Elf.SymMap) (S : Samples) (shuffle : List (Name × FnMaps) → List (Name × FnMaps)) :
    Option (Option Result) :=
  (loadableSegs W.path W.disk S.kernel).bind fun segs =>
  (prepareFile W.path W.disk).bind fun
    | none => some none
    | some p =>
      if lookupsOk m segs p S.maps && S.times.all fun x => (staticVaddr segs x.1).isSome then
        (core (binOf m segs p) (aliasesOf m) F S shuffle).map some
      else none

/-- `CreateProfile` (profile_creator.cc:118-134) up to the writer.  With hints there are no timestamps, no threshold and no working
sets. -/
def create (F : Flags) (W : Files) (shuffle : List (Name × FnMaps) → List (Name × FnMaps)) : Option (Option Result) :=
  if F.profiler = .prefetch then
    (Prefetch.createPrefetch W.path W.disk W.text F.cfg.pol).map fun o => o.map fun st =>
      ⟨st, fun _ => 0, 0, List.replicate 128 (0, 0)⟩
  else
    (buildSymbolMap W.path W.disk).bind fun m =>
    (readSample F W).bind fun
      | none => some none
      | some S => compute F W m S shuffle

/-- The entries of `map_`. -/
def Result.tops (r : Result) : List (Name × Afdo.Top) := r.store.map.map fun x => (x.1, ⟨r.store.heap x.2, r.ts x.2⟩)

/-- `ProfileSummaryComputer::Compute` (profile_writer.cc:168-170) as it is written. -/
def Result.summary (r : Result) : Afdo.Summary :=
  let c := Summary.compute r.threshold (r.store.map.map fun x => (x.1, r.store.heap x.2)) Summary.defaultCutoffs
  ⟨c.1.total, c.1.maxCount, c.1.maxFunction, c.1.numCounts, c.1.numFunctions, c.2.map fun e => (e.cutoff, e.minCount, e.numCounts)⟩

/-- What `WriteFunctionProfile` and `WriteWorkingSet` write (profile_writer.cc:155-256).  The tables of file names are a parameter:
the model has no file names. -/
def Result.profile (r : Result) (tab : List (Name × Afdo.Top) → List Name × (Name → Option Nat)) : Afdo.Profile :=
  ⟨Afdo.emitted r.threshold r.tops, r.summary, (tab r.tops).1, (tab r.tops).2, r.ws⟩

/-- The command (create_gcov.cc:36-51): its exit status and the file written; `none`: the program stops. -/
def run (F : Flags) (W : Files) (shuffle : List (Name × FnMaps) → List (Name × FnMaps))
    (tab : List (Name × Afdo.Top) → List Name × (Name → Option Nat)) : Option (Int × Option (List UInt8)) :=
  (create F W shuffle).bind fun
    | none => some (-1, none)
    | some r =>
      if W.canOpen then
        (Afdo.writeFile F.version (r.profile tab)).map fun bytes => (if W.closes then 0 else -1, some bytes)
      else none

/-! ## Specification -/

/-- The profile can be written in the format and read from it: numbers and names fit, and no name is rewritten (C07). -/
structure Fits (pol : Policy) (p : Afdo.Profile) : Prop where
  fits : Afdo.ProfileFits p
  named : ∀ q ∈ p.syms, q.1 ≠ [] ∧ Afdo.CalleesNamed q.2.sym
  fixed : ∀ n ∈ Afdo.profileNames p.syms, Afdo.fixName n = n
  targets : ∀ q ∈ p.syms, ∀ n ∈ Afdo.symTargets q.2.sym, originalName pol n = n

/-- `s` is the summary of the functions of `m` above the threshold (C21): sum, maximum and number of all their counts, number of the
functions and maximum of their entry counts, and for the `k`-th cutoff `(cutoff, v, n)`: `n` counts are at least `v`, they reach the
cutoff, and those above `v` do not. -/
structure IsSummary (threshold : Nat) (m : List (Name × Sym)) (s : Afdo.Summary) : Prop where
  total : s.total = (Summary.allCounts threshold m).sum
  numCounts : s.numCounts = (Summary.allCounts threshold m).length
  maxCount : (∀ c ∈ Summary.allCounts threshold m, c ≤ s.maxCount) ∧ (s.maxCount ∈ Summary.allCounts threshold m ∨ s.maxCount = 0)
  numFunctions : s.numFunctions = (Summary.emitted threshold m).length
  maxFunction : (∀ y ∈ Summary.emitted threshold m, y.data.head ≤ s.maxFunction) ∧
    ((∃ y ∈ Summary.emitted threshold m, y.data.head = s.maxFunction) ∨ s.maxFunction = 0)
  detailed : ∀ k (hk : k < Summary.defaultCutoffs.length), ∃ v n, s.detailed[k]? = some (Summary.defaultCutoffs[k], v, n) ∧
    (s.total * Summary.defaultCutoffs[k] / 1000000 = 0 → v = 0 ∧ n = 0) ∧
    (s.total * Summary.defaultCutoffs[k] / 1000000 ≠ 0 → v ∈ Summary.allCounts threshold m ∧
      n = Summary.numGe (Summary.allCounts threshold m) v ∧
      s.total * Summary.defaultCutoffs[k] / 1000000 ≤ Summary.sumGe (Summary.allCounts threshold m) v ∧
      Summary.sumGt (Summary.allCounts threshold m) v < s.total * Summary.defaultCutoffs[k] / 1000000)

/-- The file holds the symbols above the threshold with their stamps, and nothing else. -/
structure FileHolds (F : Flags) (r : Result) (bytes : List UInt8) (R : Afdo.ReadResult) : Prop where
  read : Afdo.readFile false F.cfg.pol [] [] bytes = some R
  written : ∀ n i, OMap.find? r.store.map n = some i → (r.store.heap i).data.total > r.threshold →
    ∃ s, OMap.find? R.map n = some s ∧ Afdo.SameFunction ⟨r.store.heap i, r.ts i⟩ s ∧
      OMap.find? R.ts n = some (if F.version ≥ 3 then r.ts i else 0)
  only : ∀ n, (∀ i, OMap.find? r.store.map n = some i → ¬ (r.store.heap i).data.total > r.threshold) → OMap.find? R.map n = none
  summary : F.version ≥ 3 → ∃ s, R.summary = some s ∧ IsSummary r.threshold (r.store.map.map fun x => (x.1, r.store.heap x.2)) s
  noSummary : F.version < 3 → R.summary = none
  sets : R.workingSet = r.ws.map fun w => (w.1 / 10 * 10, w.2)

variable {path bs : List Nat}

/-- The profile of the samples `S` in the program: before the elision of suffixes (`st`) it has the names of the functions whose
samples exceed the threshold (C18), one symbol for all names of a function, and this symbol is the one C53 describes; what is
written is what the elision (C12) makes of it. -/
structure IsProfile (g : ElfProgram path bs) (F : Flags) (S : Samples) (b : Bin) (st : Store) (r : Result) : Prop where
  inv : st.Inv
  thr : r.threshold = Threshold.fromTotal F.num F.den S.total
  names : ∀ n, (OMap.find? st.map n).isSome = true ↔ ∃ e, g.HasFn e ∧ familyCount b F.cfg S.maps e.2.1 > r.threshold ∧ g.NameAt e.1 n
  profiles : ∀ e, g.HasFn e → familyCount b F.cfg S.maps e.2.1 > r.threshold →
    ∃ i, FunctionProfile b F.cfg S.maps r.threshold e (st.heap i) ∧ ∀ n, g.NameAt e.1 n → OMap.find? st.map n = some i
  elided : elide F.cfg.pol st = some r.store
  same : (∀ e a, g.HasFn e → g.NameAt e.1 a → originalName F.cfg.pol a = a) → r.store = st
  total : ∀ p, ∑ i ∈ r.store.live, (r.store.heap i).totalAt p =
    ((b.syms.filter fun e => decide (familyCount b F.cfg S.maps e.2.1 > r.threshold)).map fun e => fnSamples b F.cfg S.maps e p).sum
  /-- the stamps (C79), if no function has two names -/
  stamps : (∀ e n, g.HasFn e → g.NameAt e.1 n → n = e.2.1) → ∀ n i, OMap.find? r.store.map n = some i →
    (((OMap.find? st.map n).isSome = true ∧ originalName F.cfg.pol n = n) → ∀ e, g.HasFn e → e.2.1 = n →
      r.ts i = Stamp.firstStamp b S.times e) ∧
    (¬ ((OMap.find? st.map n).isSome = true ∧ originalName F.cfg.pol n = n) → r.ts i = 0)
  sets : r.ws = r.store.workingSets

/-- `search` finds expressions of the default form as `std::regex_search` does: a point stands for every character but the end of a
line. -/
def IsSearch (search : List Nat → List Nat → Bool) : Prop :=
  ∀ base name, (∀ c ∈ base, c = 46 ∨ c = 95 ∨ c = 45 ∨ (48 ≤ c ∧ c ≤ 57) ∨ (65 ≤ c ∧ c ≤ 90) ∨ (97 ≤ c ∧ c ≤ 122)) →
    (∀ c ∈ name, c ≠ 10 ∧ c ≠ 13 ∧ c < 128) →
    (search (Elf.str ".*/" ++ base ++ Elf.str "$") name = true ↔
      ∃ d t, name = d ++ 47 :: t ∧ List.Forall₂ (fun p c => p = 46 ∨ p = c) base t)

/-! ## Proof -/

theorem elideT_fst (pol : Policy) (l : List Name) (s : Store × (Nat → Nat)) :
    (l.foldlM (Stamp.elideOneT pol) s).map Prod.fst = l.foldlM (elideOne pol) s.1 := by
  induction l generalizing s with
  | nil => rfl
  | cons n l ih =>
    rw [List.foldlM_cons, List.foldlM_cons]
    cases h : elideOne pol s.1 n with
    | none =>
      have : Stamp.elideOneT pol s n = none := by unfold Stamp.elideOneT; rw [h]; rfl
      rw [this]; rfl
    | some st' =>
      have : ∃ t, Stamp.elideOneT pol s n = some (st', t) := by unfold Stamp.elideOneT; rw [h]; exact ⟨_, rfl⟩
      obtain ⟨t, ht⟩ := this
      rw [ht]
      exact ih (st', t)

theorem processStamps_some (T : OMap Name Nat) (st : Store) (ns : List Name) (h : ∀ n ∈ ns, (OMap.find? st.map n).isSome = true) :
    ∃ ts, Stamp.processStamps T st ns = some ts := by
  unfold Stamp.processStamps
  generalize (fun _ : Nat => 0) = t0
  induction ns generalizing t0 with
  | nil => exact ⟨_, rfl⟩
  | cons n l ih =>
    rw [List.foldlM_cons]
    obtain ⟨i, hi⟩ := Option.isSome_iff_exists.1 (h n (by simp))
    have : ∃ t, Stamp.addStamp T st t0 n = some t := by unfold Stamp.addStamp; rw [hi]; exact ⟨_, rfl⟩
    obtain ⟨t, ht⟩ := this
    rw [ht]
    exact ih (fun n hn => h n (by simp [hn])) t

theorem core_spec (g : ElfProgram path bs) (F : Flags) (S : Samples) (b : Bin) (hbin : BinOk b) (al : Name → List Name)
    (hal : AliasOk b al) (hfn : ∀ e, e ∈ b.syms ↔ g.HasFn e) (hnm : ∀ e ∈ b.syms, ∀ n, IsName al e.2.1 n ↔ g.NameAt e.1 n)
    (shuffle : List (Name × FnMaps) → List (Name × FnMaps)) (hsh : ∀ l, (shuffle l).Perm l) :
    ∃ st r, core b al F S shuffle = some r ∧ IsProfile g F S b st r ∧ r.store.Inv := by
  obtain ⟨thr, hthr⟩ : ∃ thr, thr = Threshold.fromTotal F.num F.den S.total := ⟨_, rfl⟩
  obtain ⟨P, hP, hC⟩ := alias_profile b hbin al hal F.cfg S.maps thr
  obtain ⟨st, hst, hinv, hnames, hprof, hdist⟩ := hC (shuffle P) (hsh P)
  obtain ⟨P', hP', hT⟩ := alias_total b hbin al hal F.cfg S.maps thr
  rw [hP] at hP'
  cases hP'
  obtain ⟨P', hP', hperm⟩ := aggregate_spec b hbin S.maps
  rw [hP] at hP'
  cases hP'
  obtain ⟨st', hst', htot⟩ := hT (shuffle P) (hsh P)
  have hel : elide F.cfg.pol st = some st' := by
    unfold computeProfileA at hst'
    rw [hst] at hst'
    exact hst'
  have hns : ∀ n, n ∈ (emitted F.cfg thr (shuffle P)).map Prod.fst ↔
      ∃ e ∈ b.syms, familyCount b F.cfg S.maps e.2.1 > thr ∧ e.2.1 = n := by
    intro n
    have := inList_iff b F.cfg S.maps thr (shuffle P) ((hsh P).trans hperm) n
    unfold inList at this
    rw [decide_eq_true_eq] at this
    rw [this]
    constructor
    · rintro ⟨e, he, hw, h⟩
      exact ⟨e, he, by simpa [written] using hw, h⟩
    · rintro ⟨e, he, hw, h⟩
      exact ⟨e, he, by simpa [written] using hw, h⟩
  have hin : ∀ n ∈ (emitted F.cfg thr (shuffle P)).map Prod.fst, (OMap.find? st.map n).isSome = true := by
    intro n hn
    obtain ⟨e, he, hw, rfl⟩ := (hns n).1 hn
    exact (hnames _).2 ⟨e, he, hw, .inl rfl⟩
  obtain ⟨ts, hts⟩ := processStamps_some (Stamp.stamps b S.times) st _ hin
  have hf := elideT_fst F.cfg.pol (elideSet F.cfg.pol st.map) (st, ts)
  have hf' : (Stamp.elideT F.cfg.pol (st, ts)).map Prod.fst = elide F.cfg.pol st := hf
  rw [hel] at hf'
  obtain ⟨⟨x1, ts'⟩, hx, hx1⟩ := Option.map_eq_some_iff.1 hf'
  have hx1' : x1 = st' := hx1
  subst hx1'
  obtain ⟨y, hy, hyinv, _⟩ := elide_conserves F.cfg.pol st hinv
  rw [hel] at hy
  cases hy
  refine ⟨st, ⟨x1, ts', thr, x1.workingSets⟩, ?_, ?_, hyinv⟩
  · unfold core
    rw [hP, Option.bind_some, ← hthr, hst, Option.bind_some, hts, Option.bind_some, hx]
    rfl
  · refine ⟨hinv, hthr, ?_, ?_, hel, ?_, htot, ?_, rfl⟩
    · intro n
      rw [hnames n]
      constructor
      · rintro ⟨e, he, hf, h⟩
        exact ⟨e, (hfn e).1 he, hf, (hnm e he n).1 h⟩
      · rintro ⟨e, he, hf, h⟩
        exact ⟨e, (hfn e).2 he, hf, (hnm e ((hfn e).2 he) n).2 h⟩
    · intro e he hf
      obtain ⟨i, h1, h2⟩ := hprof e ((hfn e).2 he) hf
      exact ⟨i, h1, fun n hn => h2 n ((hnm e ((hfn e).2 he) n).2 hn)⟩
    · intro hno
      have := alias_elide F.cfg.pol st (by
        intro n hn
        obtain ⟨e, he, _, h⟩ := (hnames n).1 hn
        exact hno e n ((hfn e).1 he) ((hnm e he n).1 h))
      rw [hel] at this
      exact Option.some.inj this
    · intro hone
      have hname : ∀ n, (OMap.find? st.map n).isSome = true → ∃ e ∈ b.syms,
          familyCount b F.cfg S.maps e.2.1 > thr ∧ e.2.1 = n := by
        intro n hn
        obtain ⟨e, he, hw, h⟩ := (hnames n).1 hn
        exact ⟨e, he, hw, (hone e n ((hfn e).1 he) ((hnm e he n).1 h)).symm⟩
      have hinj : ∀ n k i, OMap.find? st.map n = some i → OMap.find? st.map k = some i → n = k := by
        intro n k i h1 h2
        obtain ⟨e, he, hw, rfl⟩ := hname n (by rw [h1]; rfl)
        obtain ⟨e', he', hw', rfl⟩ := hname k (by rw [h2]; rfl)
        by_contra hne
        exact hdist e he e' he' hw hw' (by rintro rfl; exact hne rfl) (by rw [h1, h2])
      have hns' : ∀ n, n ∈ (emitted F.cfg thr (shuffle P)).map Prod.fst ↔ (OMap.find? st.map n).isSome = true :=
        fun n => ⟨hin n, fun h => (hns n).2 (hname n h)⟩
      obtain ⟨a, c, d, h1, h2, h3⟩ := Stamp.stamps_written b hbin S.times F.cfg.pol st hinv hinj _ hns'
      rw [hts] at h1
      cases h1
      rw [hx] at h2
      cases h2
      intro n i hi
      obtain ⟨h4, h5⟩ := h3 n i hi
      refine ⟨fun h e he hen => h4 ⟨(hns' n).2 h.1, h.2⟩ e ((hfn e).2 he) hen, fun h => h5 fun h6 => h ⟨(hns' n).1 h6.1, h6.2⟩⟩

theorem compute_spec (g : Program path bs) (F : Flags) (W : Files) (hp : W.path = path) (hd : W.disk = some bs) (S : Samples)
    (hk : S.kernel = false) (hcov : g.Covers S.maps) (ht : ∀ x ∈ S.times, ∃ a, g.Code x.1 a)
    (shuffle : List (Name × FnMaps) → List (Name × FnMaps)) (hsh : ∀ l, (shuffle l).Perm l) :
    ∃ m b st r, buildSymbolMap path (some bs) = some m ∧ compute F W m S shuffle = some (some r) ∧ g.Is b ∧ IsProfile g.toElfProgram F S b st r ∧
      r.store.Inv := by
  subst hp
  obtain ⟨m, l, p, hm, hl, hpf, hIs, hbin, hal, hfn, hnm, hlv, hst⟩ := program_bin g
  have hs : ∀ x, (∃ a, g.Code x a) → (staticVaddr l x).isSome = true := by
    rintro x ⟨a, ha⟩
    rw [hlv x a ha]; rfl
  have hlook : (lookupsOk m l p S.maps && S.times.all fun x => (staticVaddr l x.1).isSome) = true := by
    rw [Bool.and_eq_true, List.all_eq_true]
    refine ⟨?_, fun x hx => hs _ (ht x hx)⟩
    unfold lookupsOk
    simp only [Bool.and_eq_true, List.all_eq_true]
    refine ⟨⟨⟨fun x hx => hs _ (hcov.addr x hx), fun x hx => ⟨hs _ (hcov.range x hx).1, hs _ (hcov.range x hx).2⟩⟩,
      fun x hx => ⟨hs _ (hcov.branch x hx).1, hs _ (hcov.branch x hx).2⟩⟩, ?_⟩
    intro e he a ha
    rw [List.mem_range'_1] at ha
    exact (hst e he a ha.1 ha.2).2
  obtain ⟨st, r, h1, h2, h3⟩ := core_spec g.toElfProgram F S (binOf m l p) hbin (aliasesOf m) hal hfn hnm shuffle hsh
  refine ⟨m, binOf m l p, st, r, hm, ?_, hIs, h2, h3⟩
  unfold compute
  rw [hk, hd, hl, Option.bind_some, hpf, Option.bind_some]
  simp only
  rw [if_pos hlook, h1]
  rfl

theorem tops_find (r : Result) (hs : OMap.Sorted r.store.map) (q : Name × Afdo.Top) :
    q ∈ r.tops ↔ ∃ i, OMap.find? r.store.map q.1 = some i ∧ q.2 = ⟨r.store.heap i, r.ts i⟩ := by
  unfold Result.tops
  rw [List.mem_map]
  constructor
  · rintro ⟨⟨n, i⟩, hx, rfl⟩
    exact ⟨i, OMap.find?_some_of_mem hs hx, rfl⟩
  · rintro ⟨i, hi, hq⟩
    exact ⟨(q.1, i), OMap.mem_of_find?_some hi, by rw [← hq]⟩

theorem summary_spec (r : Result) : IsSummary r.threshold (r.store.map.map fun x => (x.1, r.store.heap x.2)) r.summary := by
  obtain ⟨t1, t2, t3, t4, t5, t6⟩ := Summary.summary_totals r.threshold (r.store.map.map fun x => (x.1, r.store.heap x.2))
    Summary.defaultCutoffs
  refine ⟨t1, t2, t3, t4, ⟨t5, ?_⟩, ?_⟩
  · rcases t6 with h | h
    · exact .inl (List.mem_map.1 h)
    · exact .inr h
  · intro k hk
    obtain ⟨v, n, h1, h2, h3⟩ := Summary.detailed_summary r.threshold (r.store.map.map fun x => (x.1, r.store.heap x.2))
      Summary.defaultCutoffs Summary.defaultCutoffs_ok.1 k hk
    have hD := Summary.maxDesired_sorted (Summary.allCounts r.threshold (r.store.map.map fun x => (x.1, r.store.heap x.2))).sum
      Summary.defaultCutoffs Summary.defaultCutoffs_ok.2 k hk
    rw [hD] at h2 h3
    have ht : r.summary.total = (Summary.allCounts r.threshold (r.store.map.map fun x => (x.1, r.store.heap x.2))).sum := t1
    refine ⟨v, n, ?_, by rw [ht]; exact h2, by rw [ht]; exact h3⟩
    show (List.map _ _)[k]? = _
    rw [List.getElem?_map, h1]
    rfl

/-- Whatever was created, if it fits the format: the file is written, and holds it. -/
theorem written_file (F : Flags) (r : Result) (hinv : r.store.Inv) (tab : List (Name × Afdo.Top) → List Name × (Name → Option Nat))
    (hv : F.version < 2 ^ 32) (hf : Fits F.cfg.pol (r.profile tab)) :
    ∃ bytes R, Afdo.writeFile F.version (r.profile tab) = some bytes ∧ FileHolds F r bytes R := by
  have hmem : ∀ q, q ∈ (r.profile tab).syms ↔ ∃ i, OMap.find? r.store.map q.1 = some i ∧ q.2 = ⟨r.store.heap i, r.ts i⟩ ∧
      (r.store.heap i).data.total > r.threshold := by
    intro q
    show q ∈ Afdo.emitted r.threshold r.tops ↔ _
    unfold Afdo.emitted
    rw [List.mem_filter, tops_find r hinv.sorted, decide_eq_true_eq]
    constructor
    · rintro ⟨⟨i, hi, hq⟩, h⟩
      refine ⟨i, hi, hq, ?_⟩
      rw [hq] at h
      simpa using h
    · rintro ⟨i, hi, hq, h⟩
      refine ⟨⟨i, hi, hq⟩, ?_⟩
      rw [hq]
      simpa using h
  have hwf : ∀ q ∈ (r.profile tab).syms, q.2.sym.WF := by
    intro q hq
    obtain ⟨i, hi, hq2, _⟩ := (hmem q).1 hq
    rw [hq2]
    exact hinv.wf i (hinv.alloc _ _ hi)
  obtain ⟨bytes, hb⟩ := Afdo.writer_total F.version (r.profile tab) hwf hf.named
  obtain ⟨R, hR, h1, h2, h3, h4⟩ := Afdo.afdo_roundtrip_partial F.version hv (r.profile tab) hf.fits hwf false F.cfg.pol hf.fixed
    hf.targets bytes hb
  refine ⟨bytes, R, hb, hR, ?_, ?_, fun h => ⟨_, h3.trans (if_pos h), summary_spec r⟩, fun h => h3.trans (if_neg (by omega)), h4⟩
  · intro n i hi ht
    exact h2 (n, ⟨r.store.heap i, r.ts i⟩) ((hmem _).2 ⟨i, hi, rfl, ht⟩)
  · intro n hn
    refine h1 n fun hin => ?_
    obtain ⟨q, hq, rfl⟩ := List.mem_map.1 hin
    obtain ⟨i, hi, _, ht⟩ := (hmem q).1 hq
    exact hn i hi ht

/-- **C94, samples.** For every program, every profiler but `prefetch`, and every profile of samples in the code of the program:
the command writes a file, which holds the profile of these samples (`IsProfile`), and ends with status 0. -/
theorem create_gcov (g : Program path bs) (F : Flags) (W : Files) (hp : W.path = path) (hd : W.disk = some bs)
    (hpre : F.profiler ≠ .prefetch) (S : Samples) (hread : readSample F W = some (some S)) (hk : S.kernel = false)
    (hcov : g.Covers S.maps) (ht : ∀ x ∈ S.times, ∃ a, g.Code x.1 a)
    (shuffle : List (Name × FnMaps) → List (Name × FnMaps)) (hsh : ∀ l, (shuffle l).Perm l)
    (tab : List (Name × Afdo.Top) → List Name × (Name → Option Nat)) (hv : F.version < 2 ^ 32) :
    ∃ b st r, create F W shuffle = some (some r) ∧ g.Is b ∧ IsProfile g.toElfProgram F S b st r ∧
      (Fits F.cfg.pol (r.profile tab) → W.canOpen = true → ∃ bytes R, FileHolds F r bytes R ∧
        run F W shuffle tab = some (if W.closes then 0 else -1, some bytes)) ∧
      (W.canOpen = false → run F W shuffle tab = none) := by
  obtain ⟨m, b, st, r, hm, hc, hb, hI, hinv⟩ := compute_spec g F W hp hd S hk hcov ht shuffle hsh
  have hcr : create F W shuffle = some (some r) := by
    unfold create
    rw [if_neg hpre, hp, hd, hm, Option.bind_some, hread, Option.bind_some]
    exact hc
  refine ⟨b, st, r, hcr, hb, hI, fun hf ho => ?_, fun ho => ?_⟩
  · obtain ⟨bytes, R, hb, hR⟩ := written_file F r hinv tab hv hf
    refine ⟨bytes, R, hR, ?_⟩
    unfold run
    rw [hcr, Option.bind_some]
    simp only
    rw [if_pos ho, hb]
    rfl
  · unfold run
    rw [hcr, Option.bind_some]
    simp only [ho]
    rfl

/-- **C94, hints.** The same for the profiler `prefetch`: the file holds the hints (C75), without a threshold. -/
theorem create_gcov_prefetch (g : Program path bs) (F : Flags) (W : Files) (hp : W.path = path) (hd : W.disk = some bs)
    (hpre : F.profiler = .prefetch) (H : List Prefetch.Hint) (hf : ∀ h ∈ H, h.Fits) (tail : List Char)
    (ht : Prefetch.scanHint tail = none) (hs : Sample.skipWs tail = tail) (htext : W.text = some (H.flatMap Prefetch.line ++ tail))
    (shuffle : List (Name × FnMaps) → List (Name × FnMaps))
    (tab : List (Name × Afdo.Top) → List Name × (Name → Option Nat)) (hv : F.version < 2 ^ 32) :
    ∃ (stack : Nat → List Frame) (st : Store) (r : Result),
      (∀ a, a < g.hi → ∃ fs, g.StackAt a fs ∧ List.Forall₂ SameFrame fs (stack a)) ∧
      create F W shuffle = some (some r) ∧ r.threshold = 0 ∧ elide F.cfg.pol st = some r.store ∧
      ((∀ e a, g.HasFn e → g.NameAt e.1 a → originalName F.cfg.pol a = a) → r.store = st) ∧
      (∀ n, (OMap.find? st.map n).isSome = true ↔ ∃ e, g.HasFn e ∧ (∃ h ∈ H, Prefetch.In e h) ∧ g.NameAt e.1 n) ∧
      (∀ e, g.HasFn e → (∃ h ∈ H, Prefetch.In e h) →
        ∃ i, Prefetch.HintProfile stack F.cfg.pol H e (st.heap i) ∧ ∀ n, g.NameAt e.1 n → OMap.find? st.map n = some i) ∧
      (Fits F.cfg.pol (r.profile tab) → W.canOpen = true → ∃ bytes R, FileHolds F r bytes R ∧
        run F W shuffle tab = some (if W.closes then 0 else -1, some bytes)) := by
  obtain ⟨stack, st, st', h1, h2, h3, h4, h5, h6, h7⟩ := Prefetch.create_prefetch g H hf tail ht hs F.cfg.pol
  obtain ⟨y, hy, hyinv, _⟩ := elide_conserves F.cfg.pol st h2
  rw [h4] at hy
  cases hy
  have hcr : create F W shuffle = some (some ⟨st', fun _ => 0, 0, List.replicate 128 (0, 0)⟩) := by
    unfold create
    rw [if_pos hpre, hp, hd, htext, h3]
    rfl
  refine ⟨stack, st, _, h1, hcr, rfl, h4, h5, h6, h7, fun hfit ho => ?_⟩
  obtain ⟨bytes, R, hb, hR⟩ := written_file F _ hyinv tab hv hfit
  refine ⟨bytes, R, hR, ?_⟩
  unfold run
  rw [hcr, Option.bind_some]
  simp only
  rw [if_pos ho, hb]
  rfl

/-- **C94, failure.** If the samples cannot be read the status is -1 and no file is written. -/
theorem create_gcov_fails (g : Program path bs) (F : Flags) (W : Files) (hp : W.path = path) (hd : W.disk = some bs)
    (hpre : F.profiler ≠ .prefetch) (hread : readSample F W = some none) (shuffle : List (Name × FnMaps) → List (Name × FnMaps))
    (tab : List (Name × Afdo.Top) → List Name × (Name → Option Nat)) : run F W shuffle tab = some (-1, none) := by
  obtain ⟨m, hm, _⟩ := program_symbols g.toElfProgram
  unfold run create
  rw [if_neg hpre, hp, hd, hm, Option.bind_some, hread]
  rfl

/-- **C94, the readers.** Which samples are used, for each profiler; an unknown one is refused. -/
theorem read_sample (F : Flags) (W : Files) :
    (F.profiler = .other → readSample F W = some none) ∧
    (F.profiler = .text → W.text = none → readSample F W = some none) ∧
    (F.profiler = .text → ∀ t, W.text = some t → readText Maps.empty t = none → readSample F W = some none) ∧
    (F.profiler = .text → ∀ (M : Maps) (aux : List Char), M.Ok → M.Fits → W.text = some (writeText M aux) →
      readSample F W = some (some ⟨M, M.totalCountFrom 0, false, []⟩)) ∧
    (F.profiler = .perf → ∀ o, options F W = some o → W.perf = none → readSample F W = some none) ∧
    (F.profiler = .perf → ∀ o f, options F W = some o → W.perf = some f → f.Consistent → ∃ S R, readSample F W = some (some S) ∧
      PerfRead.Holds o [f] R ∧ S.maps = R.maps ∧ S.total = R.maps.totalCountFrom 0 ∧ S.kernel = R.kernel ∧ S.times = R.times) ∧
    (F.profiler = .perfSpe → ∀ o, options F W = some o → (W.spe = none ∨ ∃ evs, W.spe = some evs ∧
      ∀ m, SpeSimple.Ev.mmap m ∈ evs → SpeSimple.baseName m.filename ≠ SpeSimple.baseName W.path) → readSample F W = some none) ∧
    (F.profiler = .perfSpe → ∀ o, options F W = some o → ∀ evs m, W.spe = some evs → SpeSimple.IsFirst W.path evs m →
      SpeSimple.Arm m evs → (∃ r ∈ SpeSimple.records evs, SpeSimple.Counted m r) → ∃ S R, readSample F W = some (some S) ∧
      SpeSimple.Holds m evs R ∧ S.maps = R.maps ∧ S.total = R.maps.totalCountFrom R.total ∧ S.kernel = false ∧ S.times = []) := by
  refine ⟨fun h => ?_, fun h ht => ?_, fun h t ht hr => ?_, fun h M aux h1 h2 ht => ?_, fun h o ho hf => ?_, fun h o f ho hf hc => ?_,
    fun h o ho hs => ?_, fun h o ho evs m hs hm ha hc => ?_⟩
  · unfold readSample; rw [h]
  all_goals unfold readSample; rw [h]; simp only
  · rw [ht, Option.bind_none]
  · rw [ht, Option.bind_some, hr, Option.map_none]
  · rw [ht, Option.bind_some, text_profile_roundtrip M h1 h2 aux]; rfl
  · rw [ho, hf]; rfl
  · rw [ho, hf]
    exact ⟨_, _, rfl, PerfRead.read_file o f hc, rfl, rfl, rfl, rfl⟩
  · rw [ho, Option.bind_some]
    rcases hs with hs | ⟨evs, hs, hno⟩
    · rw [hs]; rfl
    · rw [hs, (SpeSimple.read_spec W.path evs).1 hno]; rfl
  · obtain ⟨R, hR, hH⟩ := (SpeSimple.read_spec W.path evs).2.2 m hm ha hc
    rw [ho, Option.bind_some, hs, hR]
    exact ⟨_, R, rfl, hH, rfl, rfl, rfl, rfl⟩

theorem cut_name (n : List Nat) :
    ((∀ a b, n ≠ a ++ (Elf.str ".unstripped" ++ b)) → cutName n = n) ∧
    (∀ a b, n = a ++ (Elf.str ".unstripped" ++ b) → (∀ a' b', n = a' ++ (Elf.str ".unstripped" ++ b') → a.length ≤ a'.length) →
      cutName n = a) := by
  induction n with
  | nil =>
    refine ⟨fun _ => rfl, fun a b h _ => ?_⟩
    have := congrArg List.length h
    simp [Elf.str] at this
  | cons c t ih =>
    have hpre : (Elf.str ".unstripped").isPrefixOf (c :: t) = true ↔ ∃ b, c :: t = Elf.str ".unstripped" ++ b := by
      rw [List.isPrefixOf_iff_prefix]
      exact ⟨fun ⟨b, h⟩ => ⟨b, h.symm⟩, fun ⟨b, h⟩ => ⟨b, h.symm⟩⟩
    constructor
    · intro h
      unfold cutName
      rw [if_neg (fun hp => by obtain ⟨b, hb⟩ := hpre.1 hp; exact h [] b (by simpa using hb)), ih.1 ?_]
      intro a b hab
      exact h (c :: a) b (by rw [hab]; rfl)
    · intro a b h hmin
      unfold cutName
      by_cases hp : (Elf.str ".unstripped").isPrefixOf (c :: t) = true
      · rw [if_pos hp]
        obtain ⟨b', hb'⟩ := hpre.1 hp
        have := hmin [] b' (by simpa using hb')
        cases a with
        | nil => rfl
        | cons _ _ => simp at this
      · rw [if_neg hp]
        cases a with
        | nil => exact absurd (hpre.2 ⟨b, by simpa using h⟩) hp
        | cons x a =>
          simp only [List.cons_append, List.cons.injEq] at h
          rw [h.1, ih.2 a b h.2 ?_]
          intro a' b' h'
          have := hmin (c :: a') b' (by rw [h']; rfl)
          simpa using this

/-- **C94, whose samples.** With `--focus_binary_re` those of the files whose names match; otherwise, if the binary has a build id,
those of the files with this id, padded as perf pads it; otherwise those of the files of any directory that have the name of the
binary without `.unstripped`, if that name has no point and no character special in expressions. -/
theorem selected (F : Flags) (W : Files) (o : PerfRead.Opts) (ho : options F W = some o) (f : PerfRead.PerfFile) (n : List Nat) :
    (F.focus ≠ [] → (PerfRead.Selected o f n ↔ F.search F.focus n = true)) ∧
    (F.focus = [] → ∀ id, buildId W.path W.disk = some id → id ≠ [] → (PerfRead.Selected o f n ↔
      n ≠ [] ∧ ∃ p ∈ f.buildIds, p.2 = id ++ List.replicate (40 - id.length) 48 ∧
        if PerfRead.isKernelName p.1 = true then n ∈ PerfRead.kernelNames else n = p.1)) ∧
    (F.focus = [] → buildId W.path W.disk = some [] → IsSearch F.search → (∀ c ∈ n, c ≠ 10 ∧ c ≠ 13 ∧ c < 128) →
      (∀ c ∈ SpeSimple.baseName (cutName W.path), c = 95 ∨ c = 45 ∨ (48 ≤ c ∧ c ≤ 57) ∨ (65 ≤ c ∧ c ≤ 90) ∨ (97 ≤ c ∧ c ≤ 122)) →
      (PerfRead.Selected o f n ↔ ∃ d, n = d ++ 47 :: SpeSimple.baseName (cutName W.path))) := by
  unfold options at ho
  refine ⟨fun h => ?_, fun h id hid hne => ?_, fun h hid hs hn hb => ?_⟩
  · rw [if_pos h] at ho
    cases ho
    simp [PerfRead.Selected]
  · rw [if_neg (by simpa using h), hid] at ho
    cases ho
    have he : PerfRead.padBuildId id = id ++ List.replicate (40 - id.length) 48 := by
      unfold PerfRead.padBuildId
      rw [if_neg (by simpa using hne)]
    have hne' : id ++ List.replicate (40 - id.length) 48 ≠ [] := by simp [hne]
    simp only [PerfRead.Selected, he, ne_eq, hne', false_and, false_or, not_false_eq_true, true_and]
  · rw [if_neg (by simpa using h), hid] at ho
    cases ho
    have h1 := hs (SpeSimple.baseName (cutName W.path)) n (fun c hc => .inr (hb c hc)) hn
    have h2 : PerfRead.Selected ⟨PerfRead.padBuildId [], F.search (defaultRe W.path), F.limit⟩ f n ↔ F.search (defaultRe W.path) n = true := by
      simp [PerfRead.Selected, PerfRead.padBuildId]
    rw [h2]
    show F.search (Elf.str ".*/" ++ SpeSimple.baseName (cutName W.path) ++ Elf.str "$") n = true ↔ _
    rw [h1]
    generalize SpeSimple.baseName (cutName W.path) = base at hb
    have h3 : ∀ (base t : List Nat), (∀ c ∈ base, c = 95 ∨ c = 45 ∨ (48 ≤ c ∧ c ≤ 57) ∨ (65 ≤ c ∧ c ≤ 90) ∨ (97 ≤ c ∧ c ≤ 122)) →
        List.Forall₂ (fun p c => p = 46 ∨ p = c) base t → base = t := by
      intro base t hb hf
      induction hf with
      | nil => rfl
      | cons h _ ih =>
        rename_i a b l1 l2 _
        rcases h with h | h
        · have := hb a (by simp)
          omega
        · rw [h, ih fun c hc => hb c (by simp [hc])]
    constructor
    · rintro ⟨d, t, rfl, hf⟩
      exact ⟨d, by rw [h3 base t hb hf]⟩
    · rintro ⟨d, rfl⟩
      exact ⟨d, base, rfl, by
        rw [List.forall₂_same]
        exact fun _ _ => .inr rfl⟩

/-! ## Examples and violations -/

/-- The flags for a text profile, version 2 of the format. -/
def exFlags : Flags := ⟨.text, [], fun _ _ => false, 0x1000, 2, 0, 1, ⟨true, false, .none⟩⟩

/-- C70's program and samples. -/
def exFiles : Files := ⟨Elf.exPath, some Elf.exFile, some (writeText exS []), none, none, true, true⟩


/-- `create_gcov` applies to them: the profile is made, and has `main` and `f` before the elision. -/
theorem ex_run : ∃ S b st r, readSample exFlags exFiles = some (some S) ∧ create exFlags exFiles id = some (some r) ∧
    exProgram.Is b ∧ IsProfile exProgram.toElfProgram exFlags S b st r ∧ S.total = 220 ∧ r.threshold = 10 := by
  have hr := (read_sample exFlags exFiles).2.2.2.1 rfl exS [] exS_ok.1 exS_ok.2 rfl
  obtain ⟨b, st, r, h1, hb, h2, _⟩ := create_gcov exProgram exFlags exFiles rfl rfl (by decide) _ hr rfl exS_covered
    (fun x hx => by cases hx) id (fun l => List.Perm.refl l) (fun _ => ([], fun _ => none)) (by decide)
  exact ⟨_, b, st, r, hr, h1, hb, h2, by decide +kernel, by rw [h2.thr]; decide +kernel⟩

/-- A function of two names with one inlined call. -/
def exSym : Sym :=
  .mk ⟨30, 2, [(4294967296, ⟨10, 1, [([103], 4)]⟩)]⟩ [((21474836480, [102]), .mk ⟨20, 0, [(4294967299, ⟨20, 2, []⟩)]⟩ [])]

def exResult : Result := ⟨⟨[([109, 97, 105, 110], 0), ([109, 97, 105, 111], 0)], fun _ => exSym, 1⟩, fun _ => 7, 10, List.replicate 128 (3, 5)⟩

theorem ex_fits : Fits .none (exResult.profile fun _ => ([], fun _ => none)) := by
  have hs : (exResult.profile fun _ => ([], fun _ => none)).syms = [([109, 97, 105, 110], ⟨exSym, 7⟩), ([109, 97, 105, 111], ⟨exSym, 7⟩)] := rfl
  have hw : exSym.WF := by simp [exSym, Sym.WF, WFCalls, OMap.Sorted]
  have hn : ∀ n ∈ Afdo.symNames exSym, n ≠ [] := by decide +kernel
  refine ⟨⟨?_, ?_, ?_, ?_, ?_, ?_, ?_, ?_, ?_, ?_, ?_⟩, ?_, ?_, ?_⟩
  · decide +kernel
  · intro q hq
    rw [hs] at hq
    simp only [List.mem_cons, List.not_mem_nil, or_false] at hq
    rcases hq with rfl | rfl <;>
      exact ⟨by simp [exSym, Afdo.SymFits, Afdo.CallsFit, Afdo.PosFits, Afdo.LocFits], by decide, by decide⟩
  · decide
  · have : ∀ n ∈ Afdo.profileNames (exResult.profile fun _ => ([], fun _ => none)).syms, (0 : UInt8) ∉ n ∧ n.length + 4 < 16384 := by
      decide +kernel
    exact this
  · decide +kernel
  · intro n hn; cases hn
  · decide
  · intro n i h; cases h
  · exact ⟨by decide +kernel, by decide +kernel, by decide +kernel, by decide +kernel, by decide +kernel, by decide +kernel,
      by decide +kernel⟩
  · decide +kernel
  · decide +kernel
  · intro q hq
    rw [hs] at hq
    simp only [List.mem_cons, List.not_mem_nil, or_false] at hq
    rcases hq with rfl | rfl <;>
      exact ⟨by decide, fun path u loc c hu hl => hn [] ((Afdo.mem_symNames exSym hw []).2 ⟨path, u, hu, Or.inl ⟨loc, c, hl⟩⟩) rfl⟩
  · decide +kernel
  · intro q hq n hn
    rfl

/-- `written_file` applies to it. -/
theorem ex_written : ∃ bytes R, FileHolds exFlags exResult bytes R := by
  have hinv : exResult.store.Inv := by
    refine ⟨by simp [exResult, OMap.Sorted]; decide, fun k i h => ?_, fun i _ => by simp [exResult, exSym, Sym.WF, WFCalls, OMap.Sorted]⟩
    have := OMap.mem_of_find?_some h
    simp only [exResult, List.mem_cons, List.not_mem_nil, or_false, Prod.mk.injEq] at this
    have : i = 0 := by tauto
    subst this
    decide
  obtain ⟨bytes, R, _, h⟩ := written_file exFlags exResult hinv (fun _ => ([], fun _ => none)) (by decide) ex_fits
  exact ⟨bytes, R, h⟩

/-- C94 fails for names with a point: without a build id the samples of `/bin/aXout` are taken for those of `/bin/a.out`. -/
theorem dot_violated (F : Flags) (W : Files) (hf : F.focus = []) (hs : IsSearch F.search) (hp : W.path = Elf.str "/bin/a.out")
    (hid : buildId W.path W.disk = some []) (f : PerfRead.PerfFile) :
    ∃ o, options F W = some o ∧ PerfRead.Selected o f (Elf.str "/usr/aXout") := by
  refine ⟨_, by unfold options; rw [if_neg (by simpa using hf), hid]; rfl, ?_⟩
  have h := (hs (Elf.str "a.out") (Elf.str "/usr/aXout") (by decide) (by decide)).2
    ⟨Elf.str "/usr", Elf.str "aXout", rfl, by simp [Elf.str]⟩
  have he : defaultRe W.path = Elf.str ".*/" ++ Elf.str "a.out" ++ Elf.str "$" := by rw [hp]; decide +kernel
  rw [← he] at h
  simp [PerfRead.Selected, PerfRead.padBuildId, h]

/-- The name is cut in its directory, too: for `/x.unstripped/y` the files named `x` are selected, not `y`. -/
theorem unstripped_violated : defaultRe (Elf.str "/x.unstripped/y") = Elf.str ".*/x$" := by decide +kernel

end Verif.CreateGcov

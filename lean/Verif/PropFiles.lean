import Verif.PropCli
import Verif.SpeReader

/-! # C90: collecting the profile of a binary over several recordings
(llvm_propeller_perf_lbr_aggregator.cc, llvm_propeller_perf_branch_frequencies_aggregator.cc, mini_disassembler.cc).
The provider is the list of what its calls return, up to the end; a recording is given decoded. -/
namespace Verif.PropFiles
open Verif Verif.PerfAgg Verif.MMapSelector Verif.PropCli Verif.SpeReader
open Verif.PerfMMap (invalid)
open Verif.SpeRanges (add64 add64_eq)

/-- A section of the object file. -/
structure Section where
  addr : Nat
  size : Nat
  text : Bool
  virt : Bool
  contents : Option (List UInt8)

/-- The binary: build id, position independence, segments (`BinaryContent`, see `BinContent`), sections, and the
disassembler of the target, `none` when it cannot be created (`MiniDisassembler::Create`, mini_disassembler.cc:27-89):
decoding of bytes at an address, with whether the instruction may affect the flow. -/
structure Bin where
  buildId : Name
  pie : Bool
  segs : List PerfMMap.Segment
  sections : List Section
  decoder : Option (List UInt8 → Nat → Option Bool)

/-- A recording: build ids, mmap events, samples, SPE records with their process (see `SpePid`). -/
structure File where
  ids : List BuildId
  evs : List PerfMMap.Event
  samples : List Sample
  recs : List (SpeRec × Nat)

/-- What a call of `GetNext` returns, other than the end: an error, or a buffer, `none` if it cannot be parsed. -/
abbrev Outcome := Except Nat (Option File)

inductive Err where
  | provider (e : Nat)
  | noFile
  | noDisassembler
  deriving DecidableEq

/-- `Stat` (llvm_propeller_statistics.h). Counters are unbounded (`int64_t` in the code). -/
structure Stat where
  absolute : Nat
  weighted : Nat
  deriving DecidableEq

/-- `DisassemblyStats` (llvm_propeller_statistics.h). -/
structure DisStats where
  bad : Stat
  flow : Stat
  noFlow : Stat
  deriving DecidableEq

/-- `ProfileStats` and `DisassemblyStats` (llvm_propeller_statistics.h). Simplified: the two `int` counters are unbounded. -/
structure Stats where
  mmaps : Nat
  parsed : Nat
  branches : Nat
  dis : DisStats
  deriving DecidableEq

/-- `DisassembleOne` (mini_disassembler.cc:91-121). -/
def disassembleOne {I : Type} (decode : List UInt8 → Nat → Option I) : List Section → Nat → Option I
  | [], _ => none
  | s :: r, a =>
    if !s.text || s.virt then disassembleOne decode r a
    else if a < s.addr ∨ a ≥ add64 s.addr s.size then disassembleOne decode r a
    else s.contents.bind fun c => decode (c.drop (a - s.addr)) a

/-- `Increment` (llvm_propeller_statistics.h). -/
def Stat.inc (s : Stat) (w : Nat) : Stat := ⟨s.absolute + 1, s.weighted + w⟩

/-- One address of the loop (llvm_propeller_perf_lbr_aggregator.cc:92-111). -/
def checkStep (dis : Nat → Option Bool) (st : DisStats) (e : Nat × Nat) : DisStats :=
  match dis e.1 with
  | none => { st with bad := st.bad.inc e.2 }
  | some false => { st with noFlow := st.noFlow.inc e.2 }
  | some true => { st with flow := st.flow.inc e.2 }

/-- `CheckLbrAddress` (llvm_propeller_perf_lbr_aggregator.cc:78-114), given the disassembler. -/
def checkLbr (dis : Nat → Option Bool) (branches : OMap (Nat ×ₗ Nat) Nat) : DisStats :=
  (OMap.addAll [] ((branches.filter fun e => (ofLex e.1).1 ≠ invalid).map fun e => ((ofLex e.1).1, e.2))).foldl (checkStep dis)
    ⟨⟨0, 0⟩, ⟨0, 0⟩, ⟨0, 0⟩⟩

/-- `BuildPerfDataReader` (perfdata_reader.cc:457-467) with the name chosen from the options. -/
def readerOf (o : Options) (b : Bin) (f : Option File) : Option (Reader × File) :=
  f.bind fun f =>
    (choose (matchNames (mmapName o)) f.ids b.buildId).bind fun s =>
      (PerfMMap.select s.test f.evs).map fun mm => (⟨mm, b.pie, b.segs⟩, f)

/-- `br_counters_accumulated += n` (`uint64_t`, `n` an `int64_t`). -/
def addCounters (br : Nat) (n : Int) : Nat := ((br + n) % 2 ^ 64).toNat

/-- The loop over the recordings (llvm_propeller_perf_lbr_aggregator.cc:45-63 and
llvm_propeller_perf_branch_frequencies_aggregator.cc:47-66): `add` puts a recording into the counters. -/
def loop {G : Type} (o : Options) (b : Bin) (add : Reader → File → G → G) : List Outcome → G → Stats → Except Err G × Stats
  | [], g, st => (.ok g, st)
  | .error e :: _, _, st => (.error (.provider e), st)
  | .ok f :: r, g, st =>
    match readerOf o b f with
    | none => loop o b add r g st
    | some (rd, f) => loop o b add r (add rd f g) { st with mmaps := st.mmaps + rd.mm.length, parsed := st.parsed + 1 }

/-- `PerfLbrAggregator::AggregateLbrData` (llvm_propeller_perf_lbr_aggregator.cc:27-76). -/
def aggregateLbr (o : Options) (b : Bin) (outs : List Outcome) (st : Stats) : Except Err Agg × Stats :=
  match loop o b (fun rd f => aggregateLBR rd f.samples) outs ⟨[], []⟩ st with
  | (.error e, st) => (.error e, st)
  | (.ok g, st) =>
    let st := { st with branches := addCounters st.branches (numBranches g.branches) }
    if st.parsed = 0 then (.error .noFile, st)
    else match b.decoder with
      | none => (.error .noDisassembler, st)
      | some d => (.ok g, { st with dis := checkLbr (disassembleOne d b.sections) g.branches })

/-- `PerfBranchFrequenciesAggregator::AggregateBranchFrequencies`
(llvm_propeller_perf_branch_frequencies_aggregator.cc:39-76). -/
def aggregateFreq (o : Options) (b : Bin) (outs : List Outcome) (st : Stats) : Except Err Freq × Stats :=
  match loop o b (fun rd f => aggregateSpe rd f.recs) outs ⟨[], []⟩ st with
  | (.error e, st) => (.error e, st)
  | (.ok g, st) =>
    let st := { st with branches := addCounters st.branches (numBranches g.taken) }
    if st.parsed = 0 then (.error .noFile, st) else (.ok g, st)

/-! ### Specification -/

/-- The section is code that is in the file, and contains the address. -/
def Covers (s : Section) (a : Nat) : Prop := s.text = true ∧ s.virt = false ∧ s.addr ≤ a ∧ a < s.addr + s.size

/-- No call of the provider failed. -/
def AllOk (outs : List Outcome) : Prop := ∀ x ∈ outs, ∃ f, x = .ok f

/-- The recordings that can be read and in which the binary is mapped, in order. -/
def readable (o : Options) (b : Bin) (outs : List Outcome) : List (Reader × File) :=
  outs.filterMap fun x => match x with | .ok f => readerOf o b f | .error _ => none

/-- All branch entries of the samples that are used, translated. -/
def allBranches (fs : List (Reader × File)) : List (Nat × Nat) := fs.flatMap fun p => p.2.samples.flatMap (usedBranches p.1)

/-- All straight-line runs of the samples that are used, translated. -/
def allRuns (fs : List (Reader × File)) : List (Nat × Nat) :=
  fs.flatMap fun p => (p.2.samples.flatMap fun s => runs (usedBranches p.1 s)).filter validRun

/-- All taken branches of the SPE records that are used, translated. -/
def allTaken (fs : List (Reader × File)) : List (Nat × Nat) := fs.flatMap fun p => p.2.recs.filterMap (takenBy p.1)

/-- All branches that were not taken. -/
def allNotTaken (fs : List (Reader × File)) : List Nat := fs.flatMap fun p => p.2.recs.filterMap (notTakenBy p.1)

/-- Number of different sources in the binary with property `P`, and number of entries with such a source. -/
def statOf (P : Nat → Bool) (brs : List (Nat × Nat)) : Stat :=
  ⟨((brs.map (·.1)).filter fun a => a ≠ invalid && P a).dedup.length, brs.countP fun k => k.1 ≠ invalid && P k.1⟩

/-! ### Disassembling -/

/-- **C90**: the instruction at an address is decoded from the first code section that contains it. -/
theorem disassembleOne_iff {I : Type} (decode : List UInt8 → Nat → Option I) (secs : List Section)
    (hfit : ∀ s ∈ secs, s.addr + s.size < 2 ^ 64) (a : Nat) (i : I) :
    disassembleOne decode secs a = some i ↔
      ∃ pre s post c, secs = pre ++ s :: post ∧ (∀ t ∈ pre, ¬ Covers t a) ∧ Covers s a ∧ s.contents = some c ∧
        decode (c.drop (a - s.addr)) a = some i := by
  induction secs with
  | nil => simp [disassembleOne]
  | cons s r ih =>
    have ih := ih (fun t ht => hfit t (by simp [ht]))
    have hs := hfit s (by simp)
    have hskip : ¬ Covers s a → (disassembleOne decode r a = some i ↔
        ∃ pre t post c, s :: r = pre ++ t :: post ∧ (∀ t ∈ pre, ¬ Covers t a) ∧ Covers t a ∧ t.contents = some c ∧
          decode (c.drop (a - t.addr)) a = some i) := by
      intro hn
      rw [ih]
      constructor
      · rintro ⟨pre, t, post, c, e, h1, h2⟩
        refine ⟨s :: pre, t, post, c, by simp [e], ?_, h2⟩
        intro x hx
        rcases List.mem_cons.mp hx with rfl | hx
        · exact hn
        · exact h1 x hx
      · rintro ⟨pre, t, post, c, e, h1, h2⟩
        cases pre with
        | nil => simp only [List.nil_append, List.cons.injEq] at e; exact absurd (e.1 ▸ h2.1) hn
        | cons p pre =>
          simp only [List.cons_append, List.cons.injEq] at e
          exact ⟨pre, t, post, c, e.2, fun x hx => h1 x (by simp [hx]), h2⟩
    rw [disassembleOne]
    by_cases h1 : (!s.text || s.virt) = true
    · rw [if_pos h1]
      refine hskip ?_
      rintro ⟨c1, c2, _⟩
      rw [c1, c2] at h1; cases h1
    rw [if_neg h1]
    rw [add64_eq hs]
    by_cases h2 : a < s.addr ∨ a ≥ s.addr + s.size
    · rw [if_pos h2]
      refine hskip ?_
      rintro ⟨_, _, c3, c4⟩; omega
    rw [if_neg h2]
    have hc : Covers s a := by
      refine ⟨?_, ?_, by omega, by omega⟩
      · revert h1; cases s.text <;> simp
      · revert h1; cases s.text <;> cases s.virt <;> simp
    constructor
    · intro h
      obtain ⟨c, e1, e2⟩ := Option.bind_eq_some_iff.mp h
      exact ⟨[], s, r, c, rfl, by simp, hc, e1, e2⟩
    · rintro ⟨pre, t, post, c, e, h1, _, e1, e2⟩
      cases pre with
      | nil =>
        simp only [List.nil_append, List.cons.injEq] at e
        rw [e.1]; exact Option.bind_eq_some_iff.mpr ⟨c, e1, e2⟩
      | cons p pre =>
        simp only [List.cons_append, List.cons.injEq] at e
        exact absurd (e.1 ▸ hc) (h1 p (by simp))

/-- A section that ends at the top of the address space is not found. -/
theorem section_end_violated :
    disassembleOne (fun c _ => c.head?) [⟨2 ^ 64 - 16, 16, true, false, some [0x90]⟩] (2 ^ 64 - 16) = none ∧
    Covers ⟨2 ^ 64 - 16, 16, true, false, some [0x90]⟩ (2 ^ 64 - 16) := by
  refine ⟨by decide +kernel, rfl, rfl, by decide, by decide⟩

/-! ### Counters -/

theorem entries_addAll (tr : Nat → Nat) : ∀ (l : List (Nat × Nat)) (st : Agg × Nat),
    (l.foldl (stepEntry tr) st).1.branches = OMap.addAll st.1.branches (l.map fun b => (toLex (tr b.1, tr b.2), 1))
  | [], _ => rfl
  | b :: l, st => by
    rw [List.foldl_cons, entries_addAll tr l]; rfl

theorem addAll_append {K : Type} [LinearOrder K] (m : OMap K Nat) (xs ys : List (K × Nat)) :
    OMap.addAll m (xs ++ ys) = OMap.addAll (OMap.addAll m xs) ys := by
  simp [OMap.addAll, List.foldl_append]

/-- The branch counters as sums over the entries. -/
theorem lbr_addAll (r : Reader) : ∀ (ss : List Sample) (g : Agg), OMap.Sorted g.branches →
    (aggregateLBR r ss g).branches = OMap.addAll g.branches ((ss.flatMap (usedBranches r)).map fun k => (toLex k, 1))
  | [], _, _ => rfl
  | s :: ss, g, hg => by
    have e : aggregateLBR r (s :: ss) g = aggregateLBR r ss (aggSample r g s) := rfl
    have hs : (aggSample r g s).branches = OMap.addAll g.branches ((usedBranches r s).map fun k => (toLex k, 1)) := by
      unfold aggSample usedBranches
      cases r.pidOf s.pid with
      | none => rfl
      | some pid =>
        rw [entries_addAll]
        refine OMap.addAll_perm hg ?_
        rw [List.map_map]
        exact (List.reverse_perm s.brs).map _
    have hso : OMap.Sorted (aggSample r g s).branches := by rw [hs]; exact OMap.Sorted.addAll hg _
    rw [e, lbr_addAll r ss _ hso, hs, ← addAll_append, List.flatMap_cons, List.map_append]

theorem keys_length {K : Type} [LinearOrder K] (P : K → Bool) (xs : List (K × Nat)) :
    ((OMap.addAll [] xs).filter fun e => P e.1).length = ((xs.map Prod.fst).filter P).dedup.length := by
  have hs : OMap.Sorted (OMap.addAll ([] : OMap K Nat) xs) := OMap.Sorted.addAll OMap.sorted_nil xs
  have hp : (((OMap.addAll [] xs).filter fun e => P e.1).map Prod.fst).Perm ((xs.map Prod.fst).filter P).dedup := by
    rw [List.perm_ext_iff_of_nodup]
    · intro k
      rw [List.mem_dedup, List.mem_filter]
      have h := OMap.mem_keys_iff (m := OMap.addAll [] xs) k
      rw [OMap.find?_addAll OMap.sorted_nil] at h
      have h2 : k ∈ (OMap.addAll [] xs).map Prod.fst ↔ k ∈ xs.map Prod.fst := by
        rw [h]; split
        · rename_i hc; simpa [OMap.find?] using hc
        · rename_i hc; simp [OMap.find?] at hc; simpa using hc
      rw [← h2]
      simp only [List.mem_map, List.mem_filter]
      constructor
      · rintro ⟨e, ⟨h1, hp⟩, rfl⟩; exact ⟨⟨e, h1, rfl⟩, hp⟩
      · rintro ⟨⟨e, h1, rfl⟩, h2⟩; exact ⟨e, ⟨h1, h2⟩, rfl⟩
    · refine List.Nodup.of_map id ?_
      rw [List.map_id]
      have h3 : ((OMap.addAll [] xs).filter fun e => P e.1).Pairwise (fun a b => a.1 < b.1) := List.Pairwise.filter _ hs
      rw [List.nodup_iff_pairwise_ne, List.pairwise_map]
      exact h3.imp fun h => ne_of_lt h
    · exact List.nodup_dedup _
  rw [← hp.length_eq, List.length_map]

theorem check_fold (dis : Nat → Option Bool) : ∀ (m : List (Nat × Nat)) (st : DisStats),
    m.foldl (checkStep dis) st =
      ⟨⟨st.bad.absolute + (m.filter fun e => decide (dis e.1 = none)).length, st.bad.weighted + ((m.filter fun e => decide (dis e.1 = none)).map Prod.snd).sum⟩,
       ⟨st.flow.absolute + (m.filter fun e => decide (dis e.1 = some true)).length, st.flow.weighted + ((m.filter fun e => decide (dis e.1 = some true)).map Prod.snd).sum⟩,
       ⟨st.noFlow.absolute + (m.filter fun e => decide (dis e.1 = some false)).length, st.noFlow.weighted + ((m.filter fun e => decide (dis e.1 = some false)).map Prod.snd).sum⟩⟩
  | [], st => by simp
  | e :: m, st => by
    rw [List.foldl_cons, check_fold dis m]
    have h : dis e.1 = none ∨ dis e.1 = some true ∨ dis e.1 = some false := by
      cases dis e.1 with
      | none => simp
      | some b => cases b <;> simp
    rcases h with h | h | h <;> simp [checkStep, h, Stat.inc] <;> omega

/-- Distinct sources and number of entries, from the counters. -/
theorem class_stat (P : Nat → Bool) (brs : List (Nat × Nat)) (m : OMap (Nat ×ₗ Nat) Nat)
    (hm : m = OMap.addAll [] (brs.map fun k => (toLex k, 1))) :
    (⟨((OMap.addAll [] ((m.filter fun e => (ofLex e.1).1 ≠ invalid).map fun e => ((ofLex e.1).1, e.2))).filter fun e => P e.1).length,
      (((OMap.addAll [] ((m.filter fun e => (ofLex e.1).1 ≠ invalid).map fun e => ((ofLex e.1).1, e.2))).filter fun e => P e.1).map Prod.snd).sum⟩ : Stat) =
      statOf P brs := by
  unfold statOf
  congr 1
  · rw [keys_length]
    refine List.Perm.length_eq ?_
    rw [List.perm_ext_iff_of_nodup (List.nodup_dedup _) (List.nodup_dedup _)]
    intro a
    have hk : ∀ k : Nat × Nat, (∃ n, (toLex k, n) ∈ m) ↔ k ∈ brs := by
      intro k
      have h := OMap.mem_keys_iff (m := m) (toLex k)
      rw [hm, OMap.find?_addAll OMap.sorted_nil] at h
      rw [← hm] at h
      have h1 : toLex k ∈ m.map Prod.fst ↔ ∃ n, (toLex k, n) ∈ m := by simp
      rw [← h1, h]
      have h2 : (toLex k ∈ (brs.map fun k => ((toLex k : Nat ×ₗ Nat), 1)).map Prod.fst) ↔ k ∈ brs := by
        rw [List.map_map, List.mem_map]
        constructor
        · rintro ⟨x, hx, e⟩
          have : x = k := toLex.injective e
          exact this ▸ hx
        · intro hx; exact ⟨k, hx, rfl⟩
      simp only [OMap.find?, Option.isSome_none, Bool.false_eq_true, or_false, h2]
      split <;> simp_all
    rw [List.mem_dedup, List.mem_dedup, List.mem_filter, List.mem_filter]
    simp only [List.map_map, List.mem_map, List.mem_filter, Function.comp]
    constructor
    · rintro ⟨⟨e, ⟨h1, h2⟩, rfl⟩, h3⟩
      have hb := (hk (ofLex e.1)).mp ⟨e.2, h1⟩
      exact ⟨⟨_, hb, rfl⟩, by simp at h2 h3 ⊢; exact ⟨h2, h3⟩⟩
    · rintro ⟨⟨k, h1, rfl⟩, h2⟩
      obtain ⟨n, hn⟩ := (hk k).mpr h1
      simp only [Bool.and_eq_true, decide_eq_true_eq] at h2
      exact ⟨⟨(toLex k, n), ⟨hn, decide_eq_true h2.1⟩, rfl⟩, h2.2⟩
  · rw [addAll_sum]
    rw [List.filter_map, List.map_map, List.filter_filter]
    have e1 : ((m.filter fun e => ((fun e : Nat × Nat => P e.1) ∘ fun e : (Nat ×ₗ Nat) × Nat => ((ofLex e.1).1, e.2)) e && decide ((ofLex e.1).1 ≠ invalid)).map
        (Prod.snd ∘ fun e : (Nat ×ₗ Nat) × Nat => ((ofLex e.1).1, e.2))).sum =
        ((m.filter fun e => (fun k : Nat ×ₗ Nat => P (ofLex k).1 && decide ((ofLex k).1 ≠ invalid)) e.1).map Prod.snd).sum := rfl
    rw [e1, hm, addAll_sum (fun k : Nat ×ₗ Nat => P (ofLex k).1 && decide ((ofLex k).1 ≠ invalid))]
    clear e1 hm
    induction brs with
    | nil => rfl
    | cons k t ih =>
      rw [List.map_cons, List.countP_cons]
      by_cases hp : (P k.1 && decide (k.1 ≠ invalid)) = true
      · rw [List.filter_cons_of_pos (by exact hp), List.map_cons, List.sum_cons, ih]
        have : (decide (k.1 ≠ invalid) && P k.1) = true := by rw [Bool.and_comm]; exact hp
        rw [if_pos this]; omega
      · rw [List.filter_cons_of_neg (by exact hp), ih]
        have : ¬ (decide (k.1 ≠ invalid) && P k.1) = true := by rw [Bool.and_comm]; exact hp
        rw [if_neg this, Nat.add_zero]

/-- **C90**: every taken branch whose source is in the binary is counted in exactly one of the three statistics, by what is at
its source; each source is counted once in the absolute numbers. -/
theorem checkLbr_spec (dis : Nat → Option Bool) (brs : List (Nat × Nat)) (m : OMap (Nat ×ₗ Nat) Nat)
    (hm : m = OMap.addAll [] (brs.map fun k => (toLex k, 1))) :
    (checkLbr dis m).bad = statOf (fun a => dis a = none) brs ∧
    (checkLbr dis m).flow = statOf (fun a => dis a = some true) brs ∧
    (checkLbr dis m).noFlow = statOf (fun a => dis a = some false) brs ∧
    (checkLbr dis m).bad.weighted + (checkLbr dis m).flow.weighted + (checkLbr dis m).noFlow.weighted =
      brs.countP fun k => k.1 ≠ invalid := by
  have h1 := class_stat (fun a => decide (dis a = none)) brs m hm
  have h2 := class_stat (fun a => decide (dis a = some true)) brs m hm
  have h3 := class_stat (fun a => decide (dis a = some false)) brs m hm
  have e : checkLbr dis m = ⟨statOf (fun a => decide (dis a = none)) brs, statOf (fun a => decide (dis a = some true)) brs,
      statOf (fun a => decide (dis a = some false)) brs⟩ := by
    rw [checkLbr, check_fold, ← h1, ← h2, ← h3]
    simp only [Nat.zero_add]
  rw [e]
  refine ⟨rfl, rfl, rfl, ?_⟩
  unfold statOf
  clear h1 h2 h3 e hm
  induction brs with
  | nil => rfl
  | cons k t ih =>
    simp only [List.countP_cons] at ih ⊢
    by_cases hv : k.1 = invalid
    · simp [hv]; simpa using ih
    · have h : dis k.1 = none ∨ dis k.1 = some true ∨ dis k.1 = some false := by
        cases dis k.1 with
        | none => simp
        | some b => cases b <;> simp
      rcases h with h | h | h <;> simp [hv, h] <;> simp at ih <;> omega

/-! ### The loop -/

theorem loop_error {G : Type} (o : Options) (b : Bin) (add : Reader → File → G → G) (e : Nat) (post : List Outcome) :
    ∀ (pre : List Outcome) (g : G) (st : Stats), AllOk pre → (loop o b add (pre ++ .error e :: post) g st).1 = .error (.provider e)
  | [], _, _, _ => rfl
  | x :: pre, g, st, h => by
    obtain ⟨f, rfl⟩ := h x (by simp)
    have h' : AllOk pre := fun y hy => h y (by simp [hy])
    rw [List.cons_append, loop]
    split
    · exact loop_error o b add e post pre g st h'
    · exact loop_error o b add e post pre _ _ h'

theorem loop_ok {G : Type} (o : Options) (b : Bin) (add : Reader → File → G → G) : ∀ (outs : List Outcome) (g : G) (st : Stats), AllOk outs →
    loop o b add outs g st = (.ok ((readable o b outs).foldl (fun g p => add p.1 p.2 g) g),
      { st with mmaps := st.mmaps + ((readable o b outs).map fun p => p.1.mm.length).sum, parsed := st.parsed + (readable o b outs).length })
  | [], _, _, _ => rfl
  | x :: outs, g, st, h => by
    obtain ⟨f, rfl⟩ := h x (by simp)
    have h' : AllOk outs := fun y hy => h y (by simp [hy])
    rw [loop]
    cases hr : readerOf o b f with
    | none =>
      have e : readable o b (.ok f :: outs) = readable o b outs := by simp [readable, hr]
      rw [e]; exact loop_ok o b add outs g st h'
    | some p =>
      have e : readable o b (.ok f :: outs) = p :: readable o b outs := by simp [readable, hr]
      rw [e]
      obtain ⟨rd, f'⟩ := p
      simp only []
      rw [loop_ok o b add outs _ _ h']
      simp only [List.foldl_cons, List.map_cons, List.sum_cons, List.length_cons]
      congr 2 <;> omega

theorem lbr_fold (fs : List (Reader × File)) : ∀ (g : Agg), GoodAgg g →
    (fs.foldl (fun g p => aggregateLBR p.1 p.2.samples g) g).branches = OMap.addAll g.branches ((allBranches fs).map fun k => (toLex k, 1)) ∧
    ∀ k : Nat × Nat, OMap.get0 (fs.foldl (fun g p => aggregateLBR p.1 p.2.samples g) g).falls (toLex k) =
      OMap.get0 g.falls (toLex k) + (allRuns fs).count k := by
  induction fs with
  | nil => intro g _; exact ⟨rfl, fun k => by simp [allRuns]⟩
  | cons p fs ih =>
    intro g hg
    obtain ⟨h1, h2⟩ := aggregateLBR_spec p.1 p.2.samples g hg
    obtain ⟨i1, i2⟩ := ih _ h1
    rw [List.foldl_cons]
    refine ⟨?_, fun k => ?_⟩
    · rw [i1, lbr_addAll p.1 p.2.samples g hg.1, ← addAll_append, ← List.map_append]
      rfl
    · rw [i2 k, (h2 k).2]
      have e : allRuns (p :: fs) = (p.2.samples.flatMap fun s => runs (usedBranches p.1 s)).filter validRun ++ allRuns fs := rfl
      rw [e, List.count_append, fallCount]; omega

theorem spe_fold (fs : List (Reader × File)) : ∀ (g : Freq),
    (fs.foldl (fun g p => aggregateSpe p.1 p.2.recs g) g).taken = OMap.addAll g.taken ((allTaken fs).map fun k => (toLex k, 1)) ∧
    (fs.foldl (fun g p => aggregateSpe p.1 p.2.recs g) g).notTaken = OMap.addAll g.notTaken ((allNotTaken fs).map fun a => (a, 1)) := by
  induction fs with
  | nil => intro g; exact ⟨rfl, rfl⟩
  | cons p fs ih =>
    intro g
    obtain ⟨i1, i2⟩ := ih (aggregateSpe p.1 p.2.recs g)
    obtain ⟨j1, j2⟩ := agg_addAll p.1 p.2.recs g
    rw [List.foldl_cons, i1, i2, j1, j2, ← addAll_append, ← addAll_append]
    have e1 : (p.2.recs.filterMap fun x => (takenBy p.1 x).map fun k => ((toLex k : Nat ×ₗ Nat), 1)) =
        (p.2.recs.filterMap (takenBy p.1)).map fun k => (toLex k, 1) := by rw [List.map_filterMap]
    have e2 : (p.2.recs.filterMap fun x => (notTakenBy p.1 x).map fun k => (k, 1)) =
        (p.2.recs.filterMap (notTakenBy p.1)).map fun k => (k, 1) := by rw [List.map_filterMap]
    rw [e1, e2, ← List.map_append, ← List.map_append]
    exact ⟨rfl, rfl⟩

theorem sumAt_ones {K : Type} [LinearOrder K] {X : Type} [BEq X] [LawfulBEq X] (f : X → K) (hf : Function.Injective f) (l : List X) (k : X) :
    OMap.sumAt (l.map fun x => (f x, 1)) (f k) = l.count k := by
  induction l with
  | nil => rfl
  | cons a t ih =>
    unfold OMap.sumAt at ih ⊢
    rw [List.map_cons]
    by_cases h : a = k
    · subst h
      rw [List.filter_cons_of_pos (by simp), List.map_cons, List.sum_cons, ih]; simp; omega
    · have hn : f a ≠ f k := fun e => h (hf e)
      rw [List.filter_cons_of_neg (by simpa using hn), ih, List.count_cons_of_ne h]

theorem total_ones {K : Type} [LinearOrder K] {X : Type} (f : X → K) (l : List X) :
    OMap.total (OMap.addAll [] (l.map fun x => (f x, 1))) = l.length := by
  rw [OMap.total_addAll]
  simp [OMap.total, Function.comp_def]

/-- **C90**: the first error of the provider ends the collection with that error, for both kinds of profile. -/
theorem provider_error (o : Options) (b : Bin) (pre post : List Outcome) (e : Nat) (st : Stats) (h : AllOk pre) :
    (aggregateLbr o b (pre ++ .error e :: post) st).1 = .error (.provider e) ∧
    (aggregateFreq o b (pre ++ .error e :: post) st).1 = .error (.provider e) := by
  constructor
  · have := loop_error o b (fun rd f => aggregateLBR rd f.samples) e post pre ⟨[], []⟩ st h
    unfold aggregateLbr
    revert this
    generalize loop o b (fun rd f => aggregateLBR rd f.samples) (pre ++ .error e :: post) ⟨[], []⟩ st = x
    obtain ⟨x1, x2⟩ := x
    intro he; simp only at he; subst he; rfl
  · have := loop_error o b (fun rd f => aggregateSpe rd f.recs) e post pre ⟨[], []⟩ st h
    unfold aggregateFreq
    revert this
    generalize loop o b (fun rd f => aggregateSpe rd f.recs) (pre ++ .error e :: post) ⟨[], []⟩ st = x
    obtain ⟨x1, x2⟩ := x
    intro he; simp only at he; subst he; rfl

/-- **C90**: with a provider that does not fail and fresh statistics, the collection of LBR data fails exactly if the binary is mapped in
no readable recording, or the disassembler cannot be made. -/
theorem lbr_fails_iff (o : Options) (b : Bin) (outs : List Outcome) (st : Stats) (h : AllOk outs) (h0 : st.parsed = 0) :
    ((aggregateLbr o b outs st).1 = .error .noFile ↔ readable o b outs = []) ∧
    ((aggregateLbr o b outs st).1 = .error .noDisassembler ↔ readable o b outs ≠ [] ∧ b.decoder = none) ∧
    ((∃ g, (aggregateLbr o b outs st).1 = .ok g) ↔ readable o b outs ≠ [] ∧ b.decoder ≠ none) := by
  unfold aggregateLbr
  rw [loop_ok o b _ outs _ st h]
  simp only [h0, Nat.zero_add, List.length_eq_zero_iff]
  by_cases hr : readable o b outs = []
  · simp [hr]
  · simp only [hr, if_false]
    cases b.decoder <;> simp [hr]

/-- **C90**: when LBR data is collected, every counter is the number of entries (of straight-line runs) in all the readable
recordings together; the statistics count the recordings, their mapped processes and the entries, and classify the sources. -/
theorem lbr_spec (o : Options) (b : Bin) (outs : List Outcome) (st : Stats) (g : Agg) (h : AllOk outs)
    (hg : (aggregateLbr o b outs st).1 = .ok g) :
    (∀ k : Nat × Nat, OMap.get0 g.branches (toLex k) = (allBranches (readable o b outs)).count k) ∧
    (∀ k : Nat × Nat, OMap.get0 g.falls (toLex k) = (allRuns (readable o b outs)).count k) ∧
    (aggregateLbr o b outs st).2.parsed = st.parsed + (readable o b outs).length ∧
    (aggregateLbr o b outs st).2.mmaps = st.mmaps + ((readable o b outs).map fun p => p.1.mm.length).sum ∧
    ((allBranches (readable o b outs)).length < 2 ^ 31 → st.branches + (allBranches (readable o b outs)).length < 2 ^ 64 →
      (aggregateLbr o b outs st).2.branches = st.branches + (allBranches (readable o b outs)).length) ∧
    ∃ d, b.decoder = some d ∧
      (aggregateLbr o b outs st).2.dis.bad = statOf (fun a => disassembleOne d b.sections a = none) (allBranches (readable o b outs)) ∧
      (aggregateLbr o b outs st).2.dis.flow = statOf (fun a => disassembleOne d b.sections a = some true) (allBranches (readable o b outs)) ∧
      (aggregateLbr o b outs st).2.dis.noFlow = statOf (fun a => disassembleOne d b.sections a = some false) (allBranches (readable o b outs)) := by
  have hl := loop_ok o b (fun rd f => aggregateLBR rd f.samples) outs ⟨[], []⟩ st h
  obtain ⟨f1, f2⟩ := lbr_fold (readable o b outs) ⟨[], []⟩ ⟨OMap.sorted_nil, OMap.sorted_nil⟩
  unfold aggregateLbr at hg ⊢
  rw [hl] at hg ⊢
  simp only [] at hg ⊢
  revert f1 f2 hg
  generalize (readable o b outs).foldl (fun g p => aggregateLBR p.1 p.2.samples g) ⟨[], []⟩ = G
  intro f1 f2 hg
  split at hg
  · simp at hg
  rename_i hp
  rw [if_neg hp]
  cases hd : b.decoder with
  | none => rw [hd] at hg; simp at hg
  | some d =>
    rw [hd] at hg
    simp only [Except.ok.injEq] at hg
    subst hg
    simp only []
    obtain ⟨c1, c2, c3, _⟩ := checkLbr_spec (disassembleOne d b.sections) (allBranches (readable o b outs)) G.branches f1
    refine ⟨fun k => ?_, fun k => ?_, trivial, trivial, fun h1 h2 => ?_, d, rfl, c1, c2, c3⟩
    · rw [f1, OMap.get0_addAll OMap.sorted_nil, sumAt_ones (fun k : Nat × Nat => (toLex k : Nat ×ₗ Nat)) toLex.injective]
      simp [OMap.get0, OMap.find?]
    · rw [f2 k]; simp [OMap.get0, OMap.find?]
    · have ht : OMap.total G.branches = (allBranches (readable o b outs)).length := by
        rw [f1]; exact total_ones (fun k : Nat × Nat => (toLex k : Nat ×ₗ Nat)) _
      rw [numBranches_exact _ (by rw [ht]; exact h1), ht]
      unfold addCounters
      omega

/-- **C90**: the same for SPE data; it fails exactly if the binary is mapped in no readable recording. -/
theorem freq_spec (o : Options) (b : Bin) (outs : List Outcome) (st : Stats) (h : AllOk outs) :
    (st.parsed = 0 → ((aggregateFreq o b outs st).1 = .error .noFile ↔ readable o b outs = [])) ∧
    (readable o b outs ≠ [] → ∃ g, (aggregateFreq o b outs st).1 = .ok g) ∧
    ∀ g, (aggregateFreq o b outs st).1 = .ok g →
      (∀ k : Nat × Nat, OMap.get0 g.taken (toLex k) = (allTaken (readable o b outs)).count k) ∧
      (∀ a, OMap.get0 g.notTaken a = (allNotTaken (readable o b outs)).count a) ∧
      (aggregateFreq o b outs st).2.parsed = st.parsed + (readable o b outs).length ∧
      (aggregateFreq o b outs st).2.mmaps = st.mmaps + ((readable o b outs).map fun p => p.1.mm.length).sum ∧
      ((allTaken (readable o b outs)).length < 2 ^ 31 → st.branches + (allTaken (readable o b outs)).length < 2 ^ 64 →
        (aggregateFreq o b outs st).2.branches = st.branches + (allTaken (readable o b outs)).length) := by
  have hl := loop_ok o b (fun rd f => aggregateSpe rd f.recs) outs ⟨[], []⟩ st h
  obtain ⟨f1, f2⟩ := spe_fold (readable o b outs) ⟨[], []⟩
  unfold aggregateFreq
  rw [hl]
  simp only []
  revert f1 f2
  generalize (readable o b outs).foldl (fun g p => aggregateSpe p.1 p.2.recs g) ⟨[], []⟩ = G
  intro f1 f2
  refine ⟨fun h0 => ?_, fun hr => ?_, fun g hg => ?_⟩
  · rw [h0, Nat.zero_add]
    by_cases hr : readable o b outs = []
    · simp [hr]
    · simp [hr]
  · have : ¬ (st.parsed + (readable o b outs).length = 0) := by
      have := List.length_pos_iff.mpr hr; omega
    rw [if_neg this]; exact ⟨_, rfl⟩
  · split at hg
    · simp at hg
    rename_i hp
    rw [if_neg hp]
    simp only [Except.ok.injEq] at hg
    subst hg
    refine ⟨fun k => ?_, fun a => ?_, rfl, rfl, fun h1 h2 => ?_⟩
    · rw [f1, OMap.get0_addAll OMap.sorted_nil, sumAt_ones (fun k : Nat × Nat => (toLex k : Nat ×ₗ Nat)) toLex.injective]
      simp [OMap.get0, OMap.find?]
    · rw [f2, OMap.get0_addAll OMap.sorted_nil]
      have := sumAt_ones (fun a : Nat => a) (fun _ _ e => e) (allNotTaken (readable o b outs)) a
      rw [this]
      simp [OMap.get0, OMap.find?]
    · have ht : OMap.total G.taken = (allTaken (readable o b outs)).length := by
        rw [f1]; exact total_ones (fun k : Nat × Nat => (toLex k : Nat ×ₗ Nat)) _
      simp only
      rw [numBranches_exact _ (by rw [ht]; exact h1), ht]
      unfold addCounters
      omega

/-- **C90**: a recording that cannot be read, or in which the binary is not mapped, has no influence. -/
theorem skipped (o : Options) (b : Bin) (pre post : List Outcome) (f : Option File) (st : Stats) (hf : readerOf o b f = none) :
    aggregateLbr o b (pre ++ .ok f :: post) st = aggregateLbr o b (pre ++ post) st ∧
    aggregateFreq o b (pre ++ .ok f :: post) st = aggregateFreq o b (pre ++ post) st := by
  have key : ∀ {G : Type} (add : Reader → File → G → G) (pre : List Outcome) (g : G) (st : Stats),
      loop o b add (pre ++ .ok f :: post) g st = loop o b add (pre ++ post) g st := by
    intro G add pre
    induction pre with
    | nil => intro g st; simp only [List.nil_append]; rw [loop, hf]
    | cons x pre ih =>
      intro g st
      cases x with
      | error e => rfl
      | ok f' =>
        rw [List.cons_append, List.cons_append, loop, loop]
        split
        · exact ih _ _
        · exact ih _ _
  unfold aggregateLbr aggregateFreq
  rw [key, key]
  exact ⟨rfl, rfl⟩

/-- Statistics that already count a recording hide that none was found. -/
theorem stats_reused_violated (o : Options) (b : Bin) :
    (aggregateFreq o b [] ⟨0, 1, 0, ⟨⟨0, 0⟩, ⟨0, 0⟩, ⟨0, 0⟩⟩⟩).1 = .ok ⟨[], []⟩ := rfl

/-! ### Example -/

def exOpts : Options := { optionsOf (fun _ => []) exFlags with profiledBinary := some (strBytes "/x") }
def exBin : Bin := ⟨[], false, [], [⟨0x10, 0x100, true, false, some (List.replicate 0x100 7)⟩], some fun c a => if c = [] then none else some (decide (a = 0x40))⟩
def exFile : File := ⟨[], [⟨some 1, some 0, some 0x1000, none, some (strBytes "/x")⟩],
  [⟨some 1, [(0x40, 0x20), (0x30, 0x20), (0x900, 0x20), (0x5000, 0x20)]⟩],
  [(⟨true, true, true, true, 0x30, 0x40⟩, 1), (⟨true, true, false, true, 0x44, 0x20⟩, 1)]⟩

theorem ex_lbr : (aggregateLbr exOpts exBin [.ok none, .ok (some exFile), .ok (some exFile)] ⟨0, 0, 0, ⟨⟨0, 0⟩, ⟨0, 0⟩, ⟨0, 0⟩⟩⟩).2 =
    ⟨2, 2, 8, ⟨⟨1, 2⟩, ⟨1, 2⟩, ⟨1, 2⟩⟩⟩ := by decide +kernel

theorem ex_lbr_ok : ((aggregateLbr exOpts exBin [.ok none, .ok (some exFile)] ⟨0, 0, 0, ⟨⟨0, 0⟩, ⟨0, 0⟩, ⟨0, 0⟩⟩⟩).1.toOption =
    some ⟨[(toLex (0x30, 0x20), 1), (toLex (0x40, 0x20), 1), (toLex (0x900, 0x20), 1), (toLex (invalid, 0x20), 1)],
      [(toLex (0x20, 0x30), 1), (toLex (0x20, 0x40), 1), (toLex (0x20, 0x900), 1)]⟩) ∧
    (aggregateFreq exOpts exBin [.ok (some exFile), .ok none] ⟨0, 0, 0, ⟨⟨0, 0⟩, ⟨0, 0⟩, ⟨0, 0⟩⟩⟩).1.toOption =
    some ⟨[(toLex (0x44, 0x20), 1)], [(0x30, 1)]⟩ := by
  refine ⟨by decide +kernel, by decide +kernel⟩

end Verif.PropFiles

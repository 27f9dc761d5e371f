import Verif.PerfMMap
import Mathlib.Data.Prod.Lex
import Mathlib.Data.List.Count

/-! # C24: aggregation of branch records (perfdata_reader.cc:383-460, perf aggregators) -/
namespace Verif.PerfAgg
open Verif Verif.PerfMMap

/-- A sample event: process and LBR entries `(from_ip, to_ip)`, newest first. -/
structure Sample where
  pid : Option Nat
  brs : List (Nat × Nat)

/-- `LbrAggregation` (lbr_aggregation.h:22-37). Counters are unbounded (`int64_t` in the code). -/
structure Agg where
  branches : OMap (Nat ×ₗ Nat) Nat
  falls : OMap (Nat ×ₗ Nat) Nat
deriving DecidableEq

/-- The per-process data of a reader: its mappings, and what the binary looks like. -/
structure Reader where
  mm : MMaps
  pie : Bool
  segs : List Segment

def Reader.tr (r : Reader) (pid a : Nat) : Nat := toBinary r.mm r.pie r.segs pid a

/-- `IsKernelMode` (perfdata_reader.cc:455-457). -/
def Reader.kernel (r : Reader) : Bool := (OMap.find? r.mm kernelPid).isSome

/-- The process used for a sample, if it is used (perfdata_reader.cc:388-398). -/
def Reader.pidOf (r : Reader) (pid : Option Nat) : Option Nat :=
  if r.kernel then some kernelPid
  else pid.filter fun p => (OMap.find? r.mm p).isSome

/-- One branch of the stack (perfdata_reader.cc:403-421); the state is the counters and `last_to`. -/
def stepEntry (tr : Nat → Nat) (st : Agg × Nat) (b : Nat × Nat) : Agg × Nat :=
  (⟨OMap.add st.1.branches (toLex (tr b.1, tr b.2), 1),
    if st.2 ≠ invalid ∧ st.2 ≤ tr b.1 then OMap.add st.1.falls (toLex (st.2, tr b.1), 1) else st.1.falls⟩, tr b.2)

/-- The sample callback of `AggregateLBR` (perfdata_reader.cc:386-423): oldest branch first. -/
def aggSample (r : Reader) (g : Agg) (s : Sample) : Agg :=
  match r.pidOf s.pid with
  | none => g
  | some pid => (s.brs.reverse.foldl (stepEntry (r.tr pid)) (g, invalid)).1

/-- `AggregateLBR` over all the samples of a file. -/
def aggregateLBR (r : Reader) (samples : List Sample) (g : Agg) : Agg := samples.foldl (aggSample r) g

/-- `PerfLbrAggregator::AggregateLbrData` (llvm_propeller_perf_lbr_aggregator.cc:27-77): files for which no reader can be
built are skipped; error when no file was parsed. -/
def aggregateAll (files : List (Option Reader × List Sample)) : Option Agg :=
  if files.any (fun f => f.1.isSome) then
    some (files.foldl (fun g f => match f.1 with | none => g | some r => aggregateLBR r f.2 g) ⟨[], []⟩)
  else none

/-! ### Specification -/

/-- Translated branches of a sample that is used, newest first. -/
def usedBranches (r : Reader) (s : Sample) : List (Nat × Nat) :=
  match r.pidOf s.pid with
  | none => []
  | some pid => s.brs.map fun b => (r.tr pid b.1, r.tr pid b.2)

/-- Straight-line runs of a sample: from the target of a branch to the source of the next newer one. -/
def runs (brs : List (Nat × Nat)) : List (Nat × Nat) := (brs.zip brs.tail).map fun p => (p.2.2, p.1.1)

/-- A run that is counted: starts at a known address and does not run backwards. -/
def validRun (x : Nat × Nat) : Bool := decide (x.1 ≠ invalid) && decide (x.1 ≤ x.2)

def branchCount (r : Reader) (samples : List Sample) (k : Nat × Nat) : Nat :=
  (samples.flatMap (usedBranches r)).count k

def fallCount (r : Reader) (samples : List Sample) (k : Nat × Nat) : Nat :=
  ((samples.flatMap fun s => runs (usedBranches r s)).filter validRun).count k

/-! ### Proofs -/

def GoodAgg (g : Agg) : Prop := OMap.Sorted g.branches ∧ OMap.Sorted g.falls

/-- Runs of an oldest-first list after a branch with target `last`. -/
def runsFwd : Nat → List (Nat × Nat) → List (Nat × Nat)
  | _, [] => []
  | last, b :: l => (last, b.1) :: runsFwd b.2 l

theorem get0_add {m : OMap (Nat ×ₗ Nat) Nat} (hm : OMap.Sorted m) (k x : Nat × Nat) :
    OMap.get0 (OMap.add m (toLex k, 1)) (toLex x) = OMap.get0 m (toLex x) + if k = x then 1 else 0 := by
  unfold OMap.get0
  rw [OMap.find?_add hm]
  by_cases h : x = k
  · subst h; simp [OMap.get0]
  · have h' : ¬ (toLex x = toLex k) := fun hc => h (toLex.injective hc)
    simp [h', show ¬ k = x from fun hc => h hc.symm]

theorem fold_entries (tr : Nat → Nat) : ∀ (l : List (Nat × Nat)) (g : Agg) (last : Nat), GoodAgg g →
    GoodAgg (l.foldl (stepEntry tr) (g, last)).1 ∧ ∀ k : Nat × Nat,
      OMap.get0 (l.foldl (stepEntry tr) (g, last)).1.branches (toLex k) =
        OMap.get0 g.branches (toLex k) + (l.map fun b => (tr b.1, tr b.2)).count k ∧
      OMap.get0 (l.foldl (stepEntry tr) (g, last)).1.falls (toLex k) =
        OMap.get0 g.falls (toLex k) + ((runsFwd last (l.map fun b => (tr b.1, tr b.2))).filter validRun).count k := by
  intro l
  induction l with
  | nil => intro g last hg; exact ⟨hg, fun k => by simp [runsFwd]⟩
  | cons b l ih =>
    intro g last hg
    rw [List.foldl_cons]
    have hst : stepEntry tr (g, last) b = ((stepEntry tr (g, last) b).1, tr b.2) := rfl
    have hg1 : GoodAgg (stepEntry tr (g, last) b).1 := by
      refine ⟨OMap.Sorted.add hg.1 _, ?_⟩
      show OMap.Sorted (if last ≠ invalid ∧ last ≤ tr b.1 then _ else _)
      split
      · exact OMap.Sorted.add hg.2 _
      · exact hg.2
    rw [hst]
    obtain ⟨i1, i2⟩ := ih (stepEntry tr (g, last) b).1 (tr b.2) hg1
    refine ⟨i1, ?_⟩
    intro k
    obtain ⟨j1, j2⟩ := i2 k
    rw [j1, j2]
    have e1 : OMap.get0 (stepEntry tr (g, last) b).1.branches (toLex k) =
        OMap.get0 g.branches (toLex k) + if (tr b.1, tr b.2) = k then 1 else 0 := get0_add hg.1 (tr b.1, tr b.2) k
    have e2 : OMap.get0 (stepEntry tr (g, last) b).1.falls (toLex k) =
        OMap.get0 g.falls (toLex k) + if validRun (last, tr b.1) = true ∧ (last, tr b.1) = k then 1 else 0 := by
      show OMap.get0 (if last ≠ invalid ∧ last ≤ tr b.1 then _ else _) (toLex k) = _
      by_cases hv : last ≠ invalid ∧ last ≤ tr b.1
      · have hv' : validRun (last, tr b.1) = true := by simpa [validRun] using hv
        rw [if_pos hv]
        have := get0_add hg.2 (last, tr b.1) k
        simp only [hv', true_and]; exact this
      · have hv' : ¬ validRun (last, tr b.1) = true := by simpa [validRun] using hv
        rw [if_neg hv]; simp [hv']
    rw [e1, e2]
    simp only [List.map_cons, runsFwd, List.count_cons, List.filter_cons, beq_iff_eq]
    constructor
    · omega
    · by_cases hv : validRun (last, tr b.1) = true
      · simp only [hv, true_and, if_true, List.count_cons, beq_iff_eq]; omega
      · simp only [hv, false_and, if_false]; simp

theorem runs_append (a : List (Nat × Nat)) (x y : Nat × Nat) : runs (a ++ [x, y]) = runs (a ++ [x]) ++ [(y.2, x.1)] := by
  induction a with
  | nil => rfl
  | cons b a ih =>
    cases a with
    | nil => rfl
    | cons c a =>
      have h1 : runs (b :: c :: a ++ [x, y]) = (c.2, b.1) :: runs (c :: a ++ [x, y]) := rfl
      have h2 : runs (b :: c :: a ++ [x]) = (c.2, b.1) :: runs (c :: a ++ [x]) := rfl
      rw [h1, h2, ih]; rfl

theorem runsFwd_reverse : ∀ (l : List (Nat × Nat)) (x : Nat × Nat),
    (runsFwd x.2 l).reverse = runs (l.reverse ++ [x]) := by
  intro l
  induction l with
  | nil => intro x; rfl
  | cons b l ih =>
    intro x
    rw [runsFwd, List.reverse_cons, ih b, List.reverse_cons, List.append_assoc, List.singleton_append, runs_append]

theorem runs_valid (l : List (Nat × Nat)) (k : Nat × Nat) :
    ((runsFwd invalid l).filter validRun).count k = ((runs l.reverse).filter validRun).count k := by
  cases l with
  | nil => rfl
  | cons b l =>
    have hinv : validRun (invalid, b.1) = false := by simp [validRun]
    rw [runsFwd, List.filter_cons, if_neg (by rw [hinv]; simp), List.reverse_cons, ← runsFwd_reverse,
      List.filter_reverse, List.count_reverse]

theorem aggSample_spec (r : Reader) (g : Agg) (hg : GoodAgg g) (s : Sample) :
    GoodAgg (aggSample r g s) ∧ ∀ k : Nat × Nat,
      OMap.get0 (aggSample r g s).branches (toLex k) = OMap.get0 g.branches (toLex k) + (usedBranches r s).count k ∧
      OMap.get0 (aggSample r g s).falls (toLex k) =
        OMap.get0 g.falls (toLex k) + ((runs (usedBranches r s)).filter validRun).count k := by
  unfold aggSample usedBranches
  cases r.pidOf s.pid with
  | none => exact ⟨hg, fun k => by simp [runs]⟩
  | some pid =>
    simp only
    obtain ⟨h1, h2⟩ := fold_entries (r.tr pid) s.brs.reverse g invalid hg
    refine ⟨h1, ?_⟩
    intro k
    obtain ⟨h3, h4⟩ := h2 k
    rw [h3, h4, runs_valid, List.map_reverse, List.count_reverse, List.reverse_reverse]
    exact ⟨rfl, rfl⟩

/-- **C24**: after aggregating the samples of a file, the counter of a branch grew by the number of times the branch
occurs in the used samples, and the counter of a fallthrough by the number of times it runs between consecutive
branches. -/
theorem aggregateLBR_spec (r : Reader) : ∀ (samples : List Sample) (g : Agg), GoodAgg g →
    GoodAgg (aggregateLBR r samples g) ∧ ∀ k : Nat × Nat,
      OMap.get0 (aggregateLBR r samples g).branches (toLex k) = OMap.get0 g.branches (toLex k) + branchCount r samples k ∧
      OMap.get0 (aggregateLBR r samples g).falls (toLex k) = OMap.get0 g.falls (toLex k) + fallCount r samples k := by
  intro samples
  induction samples with
  | nil => intro g hg; exact ⟨hg, fun k => by simp [aggregateLBR, branchCount, fallCount]⟩
  | cons s l ih =>
    intro g hg
    obtain ⟨h1, h2⟩ := aggSample_spec r g hg s
    obtain ⟨i1, i2⟩ := ih (aggSample r g s) h1
    refine ⟨i1, ?_⟩
    intro k
    obtain ⟨j1, j2⟩ := i2 k
    obtain ⟨l1, l2⟩ := h2 k
    have e : aggregateLBR r (s :: l) g = aggregateLBR r l (aggSample r g s) := rfl
    rw [e, j1, j2, l1, l2]
    unfold branchCount fallCount
    simp only [List.flatMap_cons, List.count_append, List.filter_append]
    exact ⟨by omega, by omega⟩

/-- Sums over the readable files. -/
def filesBranch (files : List (Option Reader × List Sample)) (k : Nat × Nat) : Nat :=
  (files.map fun f => match f.1 with | none => 0 | some r => branchCount r f.2 k).sum
def filesFall (files : List (Option Reader × List Sample)) (k : Nat × Nat) : Nat :=
  (files.map fun f => match f.1 with | none => 0 | some r => fallCount r f.2 k).sum

theorem files_fold : ∀ (files : List (Option Reader × List Sample)) (g : Agg), GoodAgg g →
    GoodAgg (files.foldl (fun g f => match f.1 with | none => g | some r => aggregateLBR r f.2 g) g) ∧ ∀ k : Nat × Nat,
      OMap.get0 (files.foldl (fun g f => match f.1 with | none => g | some r => aggregateLBR r f.2 g) g).branches (toLex k) =
        OMap.get0 g.branches (toLex k) + filesBranch files k ∧
      OMap.get0 (files.foldl (fun g f => match f.1 with | none => g | some r => aggregateLBR r f.2 g) g).falls (toLex k) =
        OMap.get0 g.falls (toLex k) + filesFall files k := by
  intro files
  induction files with
  | nil => intro g hg; exact ⟨hg, fun k => by simp [filesBranch, filesFall]⟩
  | cons f l ih =>
    intro g hg
    rw [List.foldl_cons]
    obtain ⟨o, ss⟩ := f
    cases o with
    | none =>
      obtain ⟨i1, i2⟩ := ih g hg
      refine ⟨i1, fun k => ?_⟩
      simpa [filesBranch, filesFall] using i2 k
    | some r =>
      obtain ⟨h1, h2⟩ := aggregateLBR_spec r ss g hg
      obtain ⟨i1, i2⟩ := ih (aggregateLBR r ss g) h1
      refine ⟨i1, fun k => ?_⟩
      obtain ⟨j1, j2⟩ := i2 k
      obtain ⟨l1, l2⟩ := h2 k
      simp only [j1, j2, l1, l2]
      unfold filesBranch filesFall
      simp only [List.map_cons, List.sum_cons]
      exact ⟨by omega, by omega⟩

/-- **C24**: aggregating several files adds up; it fails exactly when no file could be read. -/
theorem aggregateAll_spec (files : List (Option Reader × List Sample)) :
    (aggregateAll files = none ↔ ∀ f ∈ files, f.1 = none) ∧
    ∀ g, aggregateAll files = some g → ∀ k : Nat × Nat,
      OMap.get0 g.branches (toLex k) = filesBranch files k ∧ OMap.get0 g.falls (toLex k) = filesFall files k := by
  unfold aggregateAll
  constructor
  · split
    · rename_i h
      simp only [List.any_eq_true, Option.isSome_iff_ne_none] at h
      simp only [reduceCtorEq, false_iff, not_forall]
      obtain ⟨f, h1, h2⟩ := h
      exact ⟨f, h1, h2⟩
    · rename_i h
      simp only [true_iff]
      intro f hf
      by_contra hc
      exact h (List.any_eq_true.mpr ⟨f, hf, by simpa [Option.isSome_iff_ne_none] using hc⟩)
  · intro g hg k
    split at hg
    · cases hg
      have := (files_fold files ⟨[], []⟩ ⟨OMap.sorted_nil, OMap.sorted_nil⟩).2 k
      simpa [OMap.get0, OMap.find?] using this
    · cases hg

/-- **C24**: the order of the files, and of the samples in a file, does not matter. -/
theorem aggregateAll_perm (files files' : List (Option Reader × List Sample)) (h : files.Perm files') (k : Nat × Nat) :
    filesBranch files k = filesBranch files' k ∧ filesFall files k = filesFall files' k :=
  ⟨(h.map _).sum_nat, (h.map _).sum_nat⟩

theorem counts_perm (r : Reader) (ss ss' : List Sample) (h : ss.Perm ss') (k : Nat × Nat) :
    branchCount r ss k = branchCount r ss' k ∧ fallCount r ss k = fallCount r ss' k :=
  ⟨(h.flatMap_right _).count_eq k, ((h.flatMap_right _).filter _).count_eq k⟩

/-- The whole aggregation does not depend on the order of the files. -/
theorem aggregateAll_order (files files' : List (Option Reader × List Sample)) (h : files.Perm files') (g g' : Agg)
    (hg : aggregateAll files = some g) (hg' : aggregateAll files' = some g') (k : Nat × Nat) :
    OMap.get0 g.branches (toLex k) = OMap.get0 g'.branches (toLex k) ∧
    OMap.get0 g.falls (toLex k) = OMap.get0 g'.falls (toLex k) := by
  obtain ⟨h1, h2⟩ := (aggregateAll_spec files).2 g hg k
  obtain ⟨h3, h4⟩ := (aggregateAll_spec files').2 g' hg' k
  obtain ⟨h5, h6⟩ := aggregateAll_perm files files' h k
  rw [h1, h2, h3, h4, h5, h6]; exact ⟨rfl, rfl⟩

def exReader : Reader := ⟨[(1, [⟨1, 0, 0x1000, 0, [65]⟩])], false, []⟩

/-- Concrete case: the example of lbr_aggregation.h:16-21 (entries listed newest first there and here). -/
theorem aggregate_example :
    aggregateAll [(none, [⟨some 1, [(1, 2)]⟩]),
      (some exReader, [⟨some 1, [(0x40, 0x20), (0x40, 0x20), (0x10, 0x20)]⟩, ⟨some 7, [(0x10, 0x20)]⟩])] =
    some ⟨[(toLex (0x10, 0x20), 1), (toLex (0x40, 0x20), 2)], [(toLex (0x20, 0x40), 2)]⟩ := by decide +kernel

/-- A branch whose source is not in the binary still ends a fallthrough, up to the invalid address. -/
theorem aggregate_invalid_end_violated :
    aggregateAll [(some exReader, [⟨some 1, [(0x5000, 0x30), (0x10, 0x20)]⟩])] =
    some ⟨[(toLex (0x10, 0x20), 1), (toLex (invalid, 0x30), 1)], [(toLex (0x20, invalid), 1)]⟩ := by decide +kernel

/-! ### SPE records (perfdata_reader.cc:427-453) -/

/-- The fields of an SPE record that are used. -/
structure SpeRec where
  retired : Bool
  branch : Bool
  cond : Bool
  notTaken : Bool
  ip : Nat
  target : Nat

/-- `BranchFrequencies` (branch_frequencies.h). -/
structure Freq where
  taken : OMap (Nat ×ₗ Nat) Nat
  notTaken : OMap Nat Nat
deriving DecidableEq

/-- The record callback of `AggregateSpe` (perfdata_reader.cc:431-452). -/
def speStep (r : Reader) (g : Freq) (x : SpeRec × Nat) : Freq :=
  let pid := if r.kernel then kernelPid else x.2
  if (OMap.find? r.mm pid).isNone then g
  else if !x.1.retired || !x.1.branch then g
  else if x.1.cond && x.1.notTaken then { g with notTaken := OMap.add g.notTaken (r.tr pid x.1.ip, 1) }
  else { g with taken := OMap.add g.taken (toLex (r.tr pid x.1.ip, r.tr pid x.1.target), 1) }

/-- `AggregateSpe` (perfdata_reader.cc:427-453). -/
def aggregateSpe (r : Reader) (recs : List (SpeRec × Nat)) (g : Freq) : Freq := recs.foldl (speStep r) g

/-- The process of a record, when the record is a retired branch of a mapped process. -/
def spePid (r : Reader) (x : SpeRec × Nat) : Option Nat :=
  let p := if r.kernel then kernelPid else x.2
  if x.1.retired && x.1.branch && (OMap.find? r.mm p).isSome then some p else none

/-- A record of a taken branch from `k.1` to `k.2`. -/
def takenRec (r : Reader) (k : Nat × Nat) (x : SpeRec × Nat) : Bool :=
  match spePid r x with
  | none => false
  | some p => !(x.1.cond && x.1.notTaken) && decide ((r.tr p x.1.ip, r.tr p x.1.target) = k)

/-- A record of a not taken conditional branch at `a`. -/
def notTakenRec (r : Reader) (a : Nat) (x : SpeRec × Nat) : Bool :=
  match spePid r x with
  | none => false
  | some p => x.1.cond && x.1.notTaken && decide (r.tr p x.1.ip = a)

theorem speStep_spec (r : Reader) (g : Freq) (h1 : OMap.Sorted g.taken) (h2 : OMap.Sorted g.notTaken) (x : SpeRec × Nat) :
    OMap.Sorted (speStep r g x).taken ∧ OMap.Sorted (speStep r g x).notTaken ∧
    (∀ k : Nat × Nat, OMap.get0 (speStep r g x).taken (toLex k) = OMap.get0 g.taken (toLex k) + if takenRec r k x then 1 else 0) ∧
    ∀ a, OMap.get0 (speStep r g x).notTaken a = OMap.get0 g.notTaken a + if notTakenRec r a x then 1 else 0 := by
  unfold speStep takenRec notTakenRec spePid
  simp only
  generalize hp : (if r.kernel = true then kernelPid else x.2) = p
  rcases Option.eq_none_or_eq_some (OMap.find? r.mm p) with hf | ⟨es, hf⟩
  · simp only [hf]; simp [h1, h2]
  · simp only [hf]
    have ht : ∀ k : Nat × Nat, OMap.get0 (OMap.add g.taken (toLex (r.tr p x.1.ip, r.tr p x.1.target), 1)) (toLex k) =
        OMap.get0 g.taken (toLex k) + if (r.tr p x.1.ip, r.tr p x.1.target) = k then 1 else 0 := get0_add h1 _
    have hnt : ∀ a, OMap.get0 (OMap.add g.notTaken (r.tr p x.1.ip, 1)) a =
        OMap.get0 g.notTaken a + if r.tr p x.1.ip = a then 1 else 0 := by
      intro a; unfold OMap.get0; rw [OMap.find?_add h2]
      by_cases h : a = r.tr p x.1.ip
      · subst h; simp [OMap.get0]
      · simp [h, show ¬ r.tr p x.1.ip = a from fun hh => h hh.symm]
    have s1 := OMap.Sorted.add h1 (toLex (r.tr p x.1.ip, r.tr p x.1.target), 1)
    have s2 := OMap.Sorted.add h2 (r.tr p x.1.ip, 1)
    cases hr : x.1.retired <;> cases hb : x.1.branch <;> cases hc : x.1.cond <;> cases hn : x.1.notTaken <;>
      simp only [Bool.not_true, Bool.not_false, Bool.or_true, Bool.true_or, Bool.or_false, Bool.or_self, Bool.and_true,
        Bool.true_and, Bool.false_and, Bool.and_false, Bool.and_self, Option.isSome_some, Option.isNone_some, if_true,
        Bool.false_eq_true, if_false, decide_eq_true_eq, Nat.add_zero, implies_true, and_true, true_and] <;>
      first
        | exact ⟨h1, h2⟩
        | exact ⟨s1, h2, ht⟩
        | exact ⟨h1, s2, hnt⟩

/-- **C24**: SPE records: every retired branch record of a mapped process is counted once, as taken or not taken. -/
theorem aggregateSpe_spec (r : Reader) : ∀ (recs : List (SpeRec × Nat)) (g : Freq), OMap.Sorted g.taken → OMap.Sorted g.notTaken →
    (∀ k : Nat × Nat, OMap.get0 (aggregateSpe r recs g).taken (toLex k) =
      OMap.get0 g.taken (toLex k) + recs.countP (takenRec r k)) ∧
    ∀ a, OMap.get0 (aggregateSpe r recs g).notTaken a = OMap.get0 g.notTaken a + recs.countP (notTakenRec r a) := by
  intro recs
  induction recs with
  | nil => intro g _ _; simp [aggregateSpe]
  | cons x l ih =>
    intro g h1 h2
    obtain ⟨s1, s2, s3, s4⟩ := speStep_spec r g h1 h2 x
    obtain ⟨i1, i2⟩ := ih _ s1 s2
    have e : aggregateSpe r (x :: l) g = aggregateSpe r l (speStep r g x) := rfl
    rw [e]
    constructor
    · intro k; rw [i1, s3, List.countP_cons]; omega
    · intro a; rw [i2, s4, List.countP_cons]; omega

theorem spe_example : aggregateSpe exReader [(⟨true, true, true, true, 0x10, 0x20⟩, 1), (⟨true, true, false, true, 0x14, 0x20⟩, 1),
      (⟨true, true, true, false, 0x14, 0x20⟩, 1), (⟨false, true, true, false, 0x14, 0x20⟩, 1), (⟨true, true, true, false, 0x14, 0x20⟩, 5)] ⟨[], []⟩ =
    ⟨[(toLex (0x14, 0x20), 2)], [(0x10, 1)]⟩ := by decide +kernel

/-! ### Number of branch records (lbr_aggregation.h:23-27) -/

/-- Value of an `int` after storing an `int64_t`. -/
def toInt32 (x : Int) : Int := (x + 2 ^ 31) % 2 ^ 32 - 2 ^ 31

/-- `GetNumberOfBranchCounters`: `absl::c_accumulate` with initial value `0` accumulates in an `int`. -/
def numBranches (m : OMap (Nat ×ₗ Nat) Nat) : Int := m.foldl (fun acc p => toInt32 (acc + p.2)) 0

/-- The reported number of branch records is their total while it fits in 31 bits. -/
theorem numBranches_exact (m : OMap (Nat ×ₗ Nat) Nat) (h : OMap.total m < 2 ^ 31) : numBranches m = OMap.total m := by
  have gen : ∀ (m : OMap (Nat ×ₗ Nat) Nat) (acc : Nat), acc + OMap.total m < 2 ^ 31 →
      m.foldl (fun acc p => toInt32 (acc + p.2)) (acc : Int) = ((acc + OMap.total m : Nat) : Int) := by
    intro m
    induction m with
    | nil => intro acc _; simp [OMap.total]
    | cons p m ih =>
      intro acc hacc
      have ht : OMap.total (p :: m) = p.2 + OMap.total m := by simp [OMap.total]
      rw [ht] at hacc
      rw [List.foldl_cons]
      have : toInt32 ((acc : Int) + (p.2 : Int)) = ((acc + p.2 : Nat) : Int) := by
        unfold toInt32; omega
      rw [this, ih _ (by omega), ht, Nat.add_assoc]
  have := gen m 0 (by omega)
  simpa [numBranches] using this

/-- With 2^31 records the reported number is negative. -/
theorem numBranches_violated : numBranches [(toLex (1, 2), 2 ^ 31)] = - 2 ^ 31 := by decide +kernel

end Verif.PerfAgg

import Verif.SpeFreq
import Verif.PerfAgg
import Verif.MMapSelector
import Verif.AddrLookup
import Verif.SampleProps

/-!
# C86: the full reader of Arm SPE recordings
Model of `PerfSpeDataSampleReader` (spe_sample_reader.cc), on top of the models of `SelectMMaps` (`MMapSelector`, `PerfMMap`), `AggregateSpe`
(`PerfAgg`), `ConvertBranchFrequenciesToAutofdoRangeSample` (`SpeFreq`) and `GetFileOffsetFromStaticVaddr` (`AddrLookup`).  The records of the
file, decoded and with their process, are an input, as is the disassembler.
-/
namespace Verif.SpeReader
open Verif.SpeRanges (Rng)
open Verif Verif.Sample Verif.PerfAgg Verif.SpeFreq Verif.MMapSelector Verif.AddrLookup

/-- The binary: `IsAArch64` (spe_sample_reader.cc:131-135), the fields of `BinaryContent` that are used, the segments that
`ReadLoadableExecSegmentInfo` finds (by kernel mode), and `MayAffectControlFlow(a).value_or(true)` of the disassembler. -/
structure Binary where
  aarch64 : Bool
  buildId : Name
  pie : Bool
  segs : List PerfMMap.Segment
  loads : Bool → List Seg
  flow : Nat → Bool

/-- A perf file: the names in its mmap events, its build ids, its mmap events and its SPE records with their process (`none`: an error). -/
structure File where
  names : List Name
  ids : List BuildId
  evs : List PerfMMap.Event
  recs : Option (List (SpeRec × Nat))

/-- `CreatePerfDataReader` (spe_sample_reader.cc:163-196); `re` is the search for the regular expression. -/
def mkReader (re : Name → Bool) (b : Binary) (f : File) : Option Reader :=
  (choose (if b.buildId = [] then f.names.filter re else []) f.ids b.buildId).bind fun s =>
    (PerfMMap.select s.test f.evs).map fun mm => ⟨mm, b.pie, b.segs⟩

/-- Conversion of `uint64_t` to `int64_t`. -/
def s64 (a : Nat) : Int := if a < 2 ^ 63 then a else (a : Int) - 2 ^ 64

/-- Conversion of `int64_t` to `uint64_t`. -/
def u64 (a : Int) : Nat := (a % 2 ^ 64).toNat

/-- An address as `SpeFreq` has it. -/
def optAddr (a : Nat) : Option Int := if a = PerfMMap.invalid then none else some (s64 a)

/-- `taken_branch_counters`. -/
def takenOf (g : Freq) : Taken := g.taken.map fun e => ((optAddr (ofLex e.1).1, optAddr (ofLex e.1).2), e.2)

/-- `not_taken_branch_counters`. -/
def notTakenOf (g : Freq) : OMap Int Nat := OMap.addAll [] (g.notTaken.map fun e => (s64 e.1, e.2))

/-- `BranchIdStrategy` (spe_sample_reader.h:32-40). -/
inductive Strategy where
  | disassembly
  | sampling
deriving DecidableEq

/-- The branch identifiers (spe_sample_reader.cc:50-128). -/
def mayAffect (st : Strategy) (b : Binary) (g : Freq) (a : Int) : Bool :=
  match st with
  | .disassembly => b.flow (u64 a)
  | .sampling => decide (u64 a ∈ g.taken.map fun e => (ofLex e.1).1) || decide (u64 a ∈ g.notTaken.map Prod.fst)

/-- The callback for file offsets (spe_sample_reader.cc:233-235); 0 where the program stops. -/
def offOf (segs : List Seg) (a : Int) : Int := ((fileOffset segs (u64 a) none).getD 0 : Nat)

/-- A key of the `AutofdoRangeSample`, which holds `uint64_t`. -/
def natKey (e : (Int ×ₗ Int) × Nat) : Pair × Nat := (toLex ((ofLex e.1).1.toNat, (ofLex e.1).2.toNat), e.2)

/-- The translation of every branch and range in the binary succeeds: `GetFileOffsetFromStaticVaddr` does not stop the program. -/
def offsetsOk (segs : List Seg) (tb : Taken) (l : List (Rng Int)) : Bool :=
  (tb.all fun e => match e.1 with
    | (some f, some t) => (fileOffset segs (u64 f) none).isSome && (fileOffset segs (u64 t) none).isSome
    | _ => true) &&
  l.all fun r => (fileOffset segs (u64 r.start) none).isSome && (fileOffset segs (u64 r.stop) none).isSome

/-- `AddBranchesAndRanges` (spe_sample_reader.cc:239-247). -/
def addSample (S : Maps) (branches ranges : OMap (Int ×ₗ Int) Nat) : Maps :=
  ⟨OMap.addAll S.range (ranges.map natKey), S.addr, OMap.addAll S.branch (branches.map natKey)⟩

/-- `Append` and `GenerateAutofdoProfile` (spe_sample_reader.cc:198-237); `f = none`: the file cannot be read.  `none`: the program stops. -/
def append (st : Strategy) (re : Name → Bool) (b : Binary) (f : Option File) (S : Maps) : Option (Maps × Bool) :=
  if !b.aarch64 then some (S, false)
  else
    match f.bind fun f => (mkReader re b f).bind fun r => f.recs.map fun recs => (r, aggregateSpe r recs ⟨[], []⟩) with
    | none => some (S, false)
    | some (r, g) =>
      if offsetsOk (b.loads r.kernel) (takenOf g) (toRanges (mayAffect st b g) 4 (takenOf g) (notTakenOf g)) then
        some (addSample S (toBranches (offOf (b.loads r.kernel)) (takenOf g))
          (toRangeMap (offOf (b.loads r.kernel)) (toRanges (mayAffect st b g) 4 (takenOf g) (notTakenOf g))), true)
      else none

/-! ## Specification -/

/-- The taken branch of a record: its ends in the binary (`invalid` if outside). -/
def takenBy (r : Reader) (x : SpeRec × Nat) : Option (Nat × Nat) :=
  (spePid r x).bind fun p => if x.1.cond && x.1.notTaken then none else some (r.tr p x.1.ip, r.tr p x.1.target)

/-- The branch of a record that was not taken. -/
def notTakenBy (r : Reader) (x : SpeRec × Nat) : Option Nat :=
  (spePid r x).bind fun p => if x.1.cond && x.1.notTaken then some (r.tr p x.1.ip) else none

/-- Addresses are 64-bit words. -/
def Words (r : Reader) (recs : List (SpeRec × Nat)) : Prop :=
  ∀ x ∈ recs, (∀ f t, takenBy r x = some (f, t) → f < 2 ^ 64 ∧ t < 2 ^ 64) ∧ ∀ a, notTakenBy r x = some a → a < 2 ^ 64

/-- The record is a taken branch between the file offsets `x` and `y`. -/
def branchAt (r : Reader) (segs : List Seg) (k : Nat × Nat) (x : SpeRec × Nat) : Bool :=
  match takenBy r x with
  | none => false
  | some (f, t) => decide (f ≠ PerfMMap.invalid ∧ t ≠ PerfMMap.invalid ∧ fileOffset segs f none = some k.1 ∧ fileOffset segs t none = some k.2)

/-- The record is a branch taken to the address `a` of the binary. -/
def entersAt (r : Reader) (a : Int) (x : SpeRec × Nat) : Bool :=
  match takenBy r x with
  | none => false
  | some (_, t) => decide (t ≠ PerfMMap.invalid ∧ s64 t = a)

/-- The record is a branch not taken at the address `a`. -/
def passesAt (r : Reader) (a : Int) (x : SpeRec × Nat) : Bool :=
  match notTakenBy r x with
  | none => false
  | some t => decide (s64 t = a)

/-- What falls through to `s` from the range before it. -/
def flowTo (cf : Int → Bool) (notTaken : Int → Nat) (l : List (Rng Int)) (s : Int) : Nat :=
  match l.find? fun r => decide (r.stop + 4 = s) with
  | none => 0
  | some r => if cf r.stop then notTaken r.stop else r.weight

/-- The ranges executed, given which instructions can affect the control flow, how often each address was entered and each branch not taken. -/
structure Executed (cf : Int → Bool) (into notTaken : Int → Nat) (l : List (Rng Int)) : Prop where
  /-- A range has a weight and whole instructions, of which only the last can be a branch, and no target after its first instruction. -/
  each : ∀ r ∈ l, 0 < r.weight ∧ (∃ n : Nat, r.stop = r.start + n * 4) ∧ (∀ n : Nat, r.start + n * 4 < r.stop → cf (r.start + n * 4) = false) ∧
    (∀ t, 0 < into t → r.start < t → r.stop < t)
  /-- It was entered by branches, or begins after a branch. -/
  origin : ∀ r ∈ l, 0 < into r.start ∨ cf (r.start - 4) = true
  /-- Its weight: the branches into it and what falls through from the range before. -/
  weight : ∀ r ∈ l, r.weight = into r.start + flowTo cf notTaken l r.start
  disjoint : l.Pairwise fun a b => a.stop < b.start
  /-- No branch target is missing. -/
  complete : ∀ t, 0 < into t → ∃ r ∈ l, r.start = t
  /-- What falls through is not lost, up to 0x1000 bytes after the last target. -/
  next : ∀ r ∈ l, (if cf r.stop then 0 < notTaken r.stop else 0 < r.weight) → (∃ r' ∈ l, r'.start = r.stop + 4) ∨
    ∃ t, 0 < into t ∧ r.stop + 4 = t + 0x1000 ∧ ∀ t', 0 < into t' → t' ≤ t

/-- The samples of the ranges between the file offsets `x` and `y`. -/
def weightAt (segs : List Seg) (l : List (Rng Int)) (k : Nat × Nat) : Nat :=
  ((l.filter fun r => decide (fileOffset segs (u64 r.start) none = some k.1 ∧ fileOffset segs (u64 r.stop) none = some k.2)).map (·.weight)).sum

/-! ## Proofs -/

theorem u64_s64 (a : Nat) (h : a < 2 ^ 64) : u64 (s64 a) = a := by
  unfold u64 s64
  split <;> omega

/-- The conversion is the one of two's complement: the only number of 64-bit signed range with the same remainder. -/
theorem s64_spec (a : Nat) (h : a < 2 ^ 64) : -2 ^ 63 ≤ s64 a ∧ s64 a < 2 ^ 63 ∧ s64 a % 2 ^ 64 = a := by
  unfold s64
  split <;> omega

theorem s64_inj {a b : Nat} (ha : a < 2 ^ 64) (hb : b < 2 ^ 64) (h : s64 a = s64 b) : a = b := by
  rw [← u64_s64 a ha, h, u64_s64 b hb]

/-- The counters as sums over the records. -/
theorem agg_addAll (r : Reader) (recs : List (SpeRec × Nat)) (g : Freq) :
    (aggregateSpe r recs g).taken = OMap.addAll g.taken (recs.filterMap fun x => (takenBy r x).map fun k => (toLex k, 1)) ∧
    (aggregateSpe r recs g).notTaken = OMap.addAll g.notTaken (recs.filterMap fun x => (notTakenBy r x).map fun a => (a, 1)) := by
  induction recs generalizing g with
  | nil => exact ⟨rfl, rfl⟩
  | cons x t ih =>
    have e : aggregateSpe r (x :: t) g = aggregateSpe r t (speStep r g x) := rfl
    rw [e]
    obtain ⟨h1, h2⟩ := ih (speStep r g x)
    rw [h1, h2]
    have hs : ((takenBy r x = none ∧ (speStep r g x).taken = g.taken) ∨
        ∃ k, takenBy r x = some k ∧ (speStep r g x).taken = OMap.add g.taken (toLex k, 1)) ∧
        ((notTakenBy r x = none ∧ (speStep r g x).notTaken = g.notTaken) ∨
        ∃ a, notTakenBy r x = some a ∧ (speStep r g x).notTaken = OMap.add g.notTaken (a, 1)) := by
      unfold takenBy notTakenBy spePid speStep
      simp only
      generalize (if r.kernel = true then PerfMMap.kernelPid else x.2) = p
      rcases Option.eq_none_or_eq_some (OMap.find? r.mm p) with hf | ⟨es, hf⟩
      · simp [hf]
      · cases hr : x.1.retired <;> cases hb : x.1.branch <;> cases hc : x.1.cond <;> cases hn : x.1.notTaken <;> simp [hf]
    obtain ⟨ht, hn⟩ := hs
    constructor
    · rcases ht with ⟨e1, e2⟩ | ⟨k, e1, e2⟩
      · rw [List.filterMap_cons, e1, e2]; rfl
      · rw [List.filterMap_cons, e1, e2]; rfl
    · rcases hn with ⟨e1, e2⟩ | ⟨k, e1, e2⟩
      · rw [List.filterMap_cons, e1, e2]; rfl
      · rw [List.filterMap_cons, e1, e2]; rfl

theorem addAll_sum {K : Type} [LinearOrder K] (P : K → Bool) (xs : List (K × Nat)) :
    (((OMap.addAll [] xs).filter fun e => P e.1).map Prod.snd).sum = ((xs.filter fun e => P e.1).map Prod.snd).sum := by
  have h : ∀ l : List (K × Nat), ((l.filter fun e => P e.1).map Prod.snd).sum = (l.map fun p => p.2 * (if P p.1 then 1 else 0)).sum := by
    intro l
    induction l with
    | nil => rfl
    | cons a t ih =>
      cases hp : P a.1
      · rw [List.filter_cons_of_neg (by simp [hp]), ih]; simp [hp]
      · rw [List.filter_cons_of_pos (by simpa using hp)]; simp [hp, ih]
  rw [h, h]
  have := weighted_sum_addAll (fun k => if P k then 1 else 0) [] xs
  simpa using this

theorem filterMap_count {K X : Type} (P : K → Bool) (f : X → Option K) (l : List X) :
    (((l.filterMap fun x => (f x).map fun k => (k, 1)).filter fun e : K × Nat => P e.1).map Prod.snd).sum =
      l.countP fun x => (f x).any P := by
  induction l with
  | nil => rfl
  | cons x t ih =>
    rw [List.filterMap_cons, List.countP_cons]
    cases hf : f x with
    | none => simpa using ih
    | some k =>
      simp only [Option.map_some, Option.any_some]
      by_cases hp : P k = true
      · rw [List.filter_cons_of_pos (by simp [hp]), List.map_cons, List.sum_cons, ih]; simp [hp]; omega
      · rw [List.filter_cons_of_neg (by simp [hp]), ih]; simp [hp]

/-- Sums over the taken branches count records. -/
theorem taken_sum (r : Reader) (recs : List (SpeRec × Nat)) (P : Option Int × Option Int → Bool) :
    (((takenOf (aggregateSpe r recs ⟨[], []⟩)).filter fun e => P e.1).map (·.2)).sum =
      recs.countP fun x => (takenBy r x).any fun k => P (optAddr k.1, optAddr k.2) := by
  have h := addAll_sum (K := Nat ×ₗ Nat) (fun k => P (optAddr (ofLex k).1, optAddr (ofLex k).2))
    (recs.filterMap fun x => (takenBy r x).map fun k => (toLex k, 1))
  have h2 := filterMap_count (fun k : Nat ×ₗ Nat => P (optAddr (ofLex k).1, optAddr (ofLex k).2))
    (fun x => (takenBy r x).map toLex) recs
  simp only [Option.map_map, Option.any_map] at h2
  unfold takenOf
  rw [(agg_addAll r recs ⟨[], []⟩).1, List.filter_map, List.map_map]
  exact h.trans h2

theorem weightInto_eq (r : Reader) (recs : List (SpeRec × Nat)) (a : Int) :
    weightInto (takenOf (aggregateSpe r recs ⟨[], []⟩)) a = recs.countP (entersAt r a) := by
  unfold weightInto
  have := taken_sum r recs (fun e => decide (e.2 = some a))
  rw [this]
  refine List.countP_congr (fun x _ => ?_)
  unfold entersAt
  cases takenBy r x with
  | none => simp
  | some k =>
    simp only [Option.any_some, optAddr, decide_eq_true_eq]
    by_cases h : k.2 = PerfMMap.invalid
    · simp [h]
    · simp [h]

theorem target_iff (r : Reader) (recs : List (SpeRec × Nat)) (a : Int) :
    Target (takenOf (aggregateSpe r recs ⟨[], []⟩)) a ↔ 0 < recs.countP (entersAt r a) := by
  rw [List.countP_pos_iff]
  unfold Target takenOf
  rw [(agg_addAll r recs ⟨[], []⟩).1]
  constructor
  · rintro ⟨e, he, ha⟩
    obtain ⟨m, hm, rfl⟩ := List.mem_map.1 he
    have hk : m.1 ∈ (OMap.addAll ([] : OMap (Nat ×ₗ Nat) Nat) (recs.filterMap fun x => (takenBy r x).map fun k => (toLex k, 1))).map Prod.fst :=
      List.mem_map_of_mem hm
    rw [OMap.mem_keys_iff, OMap.find?_addAll OMap.sorted_nil] at hk
    have hk' : m.1 ∈ (recs.filterMap fun x => (takenBy r x).map fun k => ((toLex k : Nat ×ₗ Nat), 1)).map Prod.fst := by
      by_contra hc
      rw [if_neg (by simpa [OMap.find?] using hc)] at hk
      cases hk
    obtain ⟨y, hy, hye⟩ := List.mem_map.1 hk'
    obtain ⟨x, hx, hxe⟩ := List.mem_filterMap.1 hy
    refine ⟨x, hx, ?_⟩
    obtain ⟨k, hk1, rfl⟩ := Option.map_eq_some_iff.1 hxe
    unfold entersAt
    rw [hk1]
    simp only at ha hye ⊢
    rw [← hye] at ha
    simp only [ofLex_toLex] at ha
    unfold optAddr at ha
    split at ha
    · cases ha
    · rename_i h
      simp only [Option.some.injEq] at ha
      simpa using ⟨h, ha⟩
  · rintro ⟨x, hx, he⟩
    unfold entersAt at he
    cases ht : takenBy r x with
    | none => rw [ht] at he; cases he
    | some k =>
      rw [ht] at he
      simp only [ne_eq, decide_eq_true_eq] at he
      have hkey : (toLex k : Nat ×ₗ Nat) ∈ (recs.filterMap fun x => (takenBy r x).map fun k => ((toLex k : Nat ×ₗ Nat), 1)).map Prod.fst := by
        refine List.mem_map.2 ⟨(toLex k, 1), List.mem_filterMap.2 ⟨x, hx, ?_⟩, rfl⟩
        rw [ht]; rfl
      have hk : (toLex k : Nat ×ₗ Nat) ∈
          (OMap.addAll ([] : OMap (Nat ×ₗ Nat) Nat) (recs.filterMap fun x => (takenBy r x).map fun k => (toLex k, 1))).map Prod.fst := by
        rw [OMap.mem_keys_iff, OMap.find?_addAll OMap.sorted_nil, if_pos (Or.inl hkey)]
        rfl
      obtain ⟨m, hm, hme⟩ := List.mem_map.1 hk
      refine ⟨_, List.mem_map.2 ⟨m, hm, rfl⟩, ?_⟩
      simp only [hme, ofLex_toLex]
      unfold optAddr
      rw [if_neg he.1, he.2]

theorem notTaken_eq (r : Reader) (recs : List (SpeRec × Nat)) (a : Int) :
    OMap.get0 (notTakenOf (aggregateSpe r recs ⟨[], []⟩)) a = recs.countP (passesAt r a) := by
  unfold notTakenOf
  rw [OMap.get0_addAll OMap.sorted_nil, (agg_addAll r recs ⟨[], []⟩).2]
  have h0 : OMap.get0 ([] : OMap Int Nat) a = 0 := rfl
  rw [h0, Nat.zero_add]
  have h := addAll_sum (K := Nat) (fun k => decide (s64 k = a)) (recs.filterMap fun x => (notTakenBy r x).map fun a => (a, 1))
  have h2 := filterMap_count (fun k => decide (s64 k = a)) (notTakenBy r) recs
  unfold OMap.sumAt
  rw [List.filter_map, List.map_map]
  refine Eq.trans ?_ ((h.trans h2).trans (List.countP_congr (fun x _ => ?_)))
  · rfl
  · unfold passesAt
    cases notTakenBy r x <;> simp

theorem sumAt_natKey (l : List ((Int ×ₗ Int) × Nat)) (hl : ∀ e ∈ l, 0 ≤ (ofLex e.1).1 ∧ 0 ≤ (ofLex e.1).2) (x y : Nat) :
    OMap.sumAt (l.map natKey) (toLex (x, y)) = OMap.sumAt l (toLex ((x : Int), (y : Int))) := by
  unfold OMap.sumAt
  rw [List.filter_map, List.map_map]
  congr 1
  have : l.filter ((fun e : Pair × Nat => decide (e.1 = toLex (x, y))) ∘ natKey) = l.filter fun e => decide (e.1 = toLex ((x : Int), (y : Int))) := by
    refine List.filter_congr (fun e he => ?_)
    obtain ⟨h1, h2⟩ := hl e he
    obtain ⟨⟨a, b⟩, c⟩ := e
    rw [Bool.eq_iff_iff, decide_eq_true_iff, Function.comp_apply, decide_eq_true_iff]
    simp only [natKey] at h1 h2 ⊢
    constructor
    · intro h
      have h3 := congrArg ofLex h
      simp only [ofLex_toLex, Prod.mk.injEq] at h3
      have e1 : (ofLex (α := Int × Int) (a, b)).1 = a := rfl
      have e2 : (ofLex (α := Int × Int) (a, b)).2 = b := rfl
      rw [e1] at h1 h3
      rw [e2] at h2 h3
      have : a = (x : Int) := by omega
      have : b = (y : Int) := by omega
      subst a; subst b
      rfl
    · intro h
      rw [h]
      simp
  rw [this]
  rfl

theorem toBranches_nonneg (segs : List Seg) (tb : Taken) :
    ∀ e ∈ toBranches (offOf segs) tb, 0 ≤ (ofLex e.1).1 ∧ 0 ≤ (ofLex e.1).2 := by
  intro e he
  have hk : e.1 ∈ (toBranches (offOf segs) tb).map Prod.fst := List.mem_map_of_mem he
  unfold toBranches at hk
  rw [OMap.mem_keys_iff, OMap.find?_addAll OMap.sorted_nil] at hk
  split at hk
  · rename_i h
    rcases h with h | h
    · obtain ⟨y, hy, hye⟩ := List.mem_map.1 h
      obtain ⟨x, hx, hxe⟩ := List.mem_filterMap.1 hy
      split at hxe
      · cases hxe
        rw [← hye]
        simp only [ofLex_toLex, offOf]
        omega
      · cases hxe
    · cases h
  · cases hk

theorem toRangeMap_nonneg (segs : List Seg) (l : List (Rng Int)) :
    ∀ e ∈ toRangeMap (offOf segs) l, 0 ≤ (ofLex e.1).1 ∧ 0 ≤ (ofLex e.1).2 := by
  intro e he
  have hk : e.1 ∈ (toRangeMap (offOf segs) l).map Prod.fst := List.mem_map_of_mem he
  unfold toRangeMap at hk
  rw [OMap.mem_keys_iff, OMap.find?_addAll OMap.sorted_nil] at hk
  split at hk
  · rename_i h
    rcases h with h | h
    · obtain ⟨y, hy, hye⟩ := List.mem_map.1 h
      obtain ⟨x, hx, hxe⟩ := List.mem_map.1 hy
      subst hxe
      rw [← hye]
      simp only [ofLex_toLex, offOf]
      omega
    · cases h
  · cases hk

theorem off_iff {segs : List Seg} {a : Int} (h : (fileOffset segs (u64 a) none).isSome) (x : Nat) :
    offOf segs a = (x : Int) ↔ fileOffset segs (u64 a) none = some x := by
  obtain ⟨v, hv⟩ := Option.isSome_iff_exists.1 h
  unfold offOf
  rw [hv]
  simp

theorem branches_eq (r : Reader) (recs : List (SpeRec × Nat)) (hw : Words r recs) (segs : List Seg) (l : List (Rng Int))
    (hok : offsetsOk segs (takenOf (aggregateSpe r recs ⟨[], []⟩)) l = true) (x y : Nat) :
    OMap.get0 (toBranches (offOf segs) (takenOf (aggregateSpe r recs ⟨[], []⟩))) (toLex ((x : Int), (y : Int))) =
      recs.countP (branchAt r segs (x, y)) := by
  rw [toBranches_get0]
  have h := taken_sum r recs (fun e => decide (e.1.map (offOf segs) = some (x : Int) ∧ e.2.map (offOf segs) = some (y : Int)))
  refine Eq.trans ?_ (h.trans (List.countP_congr (fun rec hrec => ?_)))
  · rfl
  · unfold branchAt
    cases ht : takenBy r rec with
    | none => simp
    | some k =>
      obtain ⟨f, t⟩ := k
      obtain ⟨wf, wt⟩ := (hw rec hrec).1 f t ht
      simp only [Option.any_some, decide_eq_true_eq]
      unfold optAddr
      by_cases hf : f = PerfMMap.invalid
      · simp [hf]
      · by_cases htt : t = PerfMMap.invalid
        · simp [htt]
        · rw [if_neg hf, if_neg htt]
          simp only [Option.map_some, Option.some.injEq]
          -- the entry of this record
          have hmem : ((some (s64 f), some (s64 t)) : Option Int × Option Int) ∈
              (takenOf (aggregateSpe r recs ⟨[], []⟩)).map Prod.fst := by
            have hkey : (toLex (f, t) : Nat ×ₗ Nat) ∈
                (recs.filterMap fun x => (takenBy r x).map fun k => ((toLex k : Nat ×ₗ Nat), 1)).map Prod.fst := by
              refine List.mem_map.2 ⟨(toLex (f, t), 1), List.mem_filterMap.2 ⟨rec, hrec, ?_⟩, rfl⟩
              rw [ht]; rfl
            have hk : (toLex (f, t) : Nat ×ₗ Nat) ∈ (aggregateSpe r recs ⟨[], []⟩).taken.map Prod.fst := by
              rw [(agg_addAll r recs ⟨[], []⟩).1, OMap.mem_keys_iff, OMap.find?_addAll OMap.sorted_nil, if_pos (Or.inl hkey)]
              rfl
            obtain ⟨m, hm, hme⟩ := List.mem_map.1 hk
            refine List.mem_map.2 ⟨_, List.mem_map.2 ⟨m, hm, rfl⟩, ?_⟩
            simp only [hme, ofLex_toLex]
            unfold optAddr
            rw [if_neg hf, if_neg htt]
          obtain ⟨e, he, hee⟩ := List.mem_map.1 hmem
          have hall := (Bool.and_eq_true_iff.1 hok).1
          have := List.all_eq_true.1 hall e he
          rw [hee] at this
          simp only [Bool.and_eq_true] at this
          rw [off_iff this.1, off_iff this.2, u64_s64 f wf, u64_s64 t wt]
          simp [hf, htt]

theorem ranges_eq (segs : List Seg) (tb : Taken) (l : List (Rng Int)) (hok : offsetsOk segs tb l = true) (x y : Nat) :
    OMap.get0 (toRangeMap (offOf segs) l) (toLex ((x : Int), (y : Int))) = weightAt segs l (x, y) := by
  unfold toRangeMap
  rw [OMap.get0_addAll OMap.sorted_nil]
  have h0 : OMap.get0 ([] : OMap (Int ×ₗ Int) Nat) (toLex ((x : Int), (y : Int))) = 0 := rfl
  rw [h0, Nat.zero_add]
  unfold OMap.sumAt weightAt
  rw [List.filter_map, List.map_map]
  have hall := List.all_eq_true.1 (Bool.and_eq_true_iff.1 hok).2
  have : l.filter ((fun e : (Int ×ₗ Int) × Nat => decide (e.1 = toLex ((x : Int), (y : Int)))) ∘
      fun r => ((toLex (offOf segs r.start, offOf segs r.stop) : Int ×ₗ Int), r.weight)) =
      l.filter fun r => decide (fileOffset segs (u64 r.start) none = some x ∧ fileOffset segs (u64 r.stop) none = some y) := by
    refine List.filter_congr (fun r hr => ?_)
    have := hall r hr
    rw [Bool.and_eq_true] at this
    simp only [Function.comp_apply, decide_eq_decide]
    rw [← off_iff this.1, ← off_iff this.2]
    constructor
    · intro h
      have h3 := congrArg ofLex h
      simp only [ofLex_toLex, Prod.mk.injEq] at h3
      exact h3
    · rintro ⟨h1, h2⟩
      rw [h1, h2]
  rw [this]
  rfl

/-- **C86.** Reading a recording fails, and changes nothing, if the binary is not for AArch64, the file is unreadable, or no mapping is selected.
Otherwise (and if the program does not stop at an address outside of the segments) the sample gains, for every pair of file offsets, the number of
retired taken branch records of the binary's processes between them, and the weights of the executed ranges between them; other samples stay. -/
theorem append_spec (st : Strategy) (re : Name → Bool) (b : Binary) (f : Option File) (S S' : Maps) (ok : Bool)
    (hS : OMap.Sorted S.range ∧ OMap.Sorted S.branch)
    (h : append st re b f S = some (S', ok)) :
    (ok = false → S' = S) ∧
    (ok = false ↔ b.aarch64 = false ∨ f = none ∨ ∃ f', f = some f' ∧ (mkReader re b f' = none ∨ f'.recs = none)) ∧
    (ok = true → ∃ f' r recs, f = some f' ∧ mkReader re b f' = some r ∧ f'.recs = some recs ∧ S'.addr = S.addr ∧
      (Words r recs → ∀ k : Nat × Nat, OMap.get0 S'.branch (toLex k) = OMap.get0 S.branch (toLex k) +
        recs.countP (branchAt r (b.loads r.kernel) k)) ∧
      ((∀ t t', 0 < recs.countP (entersAt r t) → 0 < recs.countP (entersAt r t') → (4 : Int) ∣ t - t') →
        ∃ l, Executed (mayAffect st b (aggregateSpe r recs ⟨[], []⟩)) (fun a => recs.countP (entersAt r a)) (fun a => recs.countP (passesAt r a)) l ∧
          ∀ k : Nat × Nat, OMap.get0 S'.range (toLex k) = OMap.get0 S.range (toLex k) + weightAt (b.loads r.kernel) l k)) := by
  unfold append at h
  by_cases hb : b.aarch64 = true
  · rw [if_neg (by simp [hb])] at h
    cases f with
    | none =>
      simp only [Option.bind_none] at h
      cases h
      simp
    | some f' =>
      simp only [Option.bind_some] at h
      cases hr : mkReader re b f' with
      | none =>
        rw [hr] at h
        simp only [Option.bind_none] at h
        cases h
        simp [hr]
      | some r =>
        rw [hr] at h
        simp only [Option.bind_some] at h
        cases hrec : f'.recs with
        | none =>
          rw [hrec] at h
          simp only [Option.map_none] at h
          cases h
          simp [hrec]
        | some recs =>
          rw [hrec] at h
          simp only [Option.map_some] at h
          split at h
          · rename_i hok
            cases h
            refine ⟨by simp, by simp [hb, hr, hrec], fun _ => ⟨f', r, recs, rfl, hr, hrec, rfl, ?_, ?_⟩⟩
            · intro hw k
              obtain ⟨x, y⟩ := k
              simp only [addSample]
              rw [OMap.get0_addAll hS.2, sumAt_natKey _ (toBranches_nonneg _ _),
                OMap.sumAt_of_sorted (by unfold toBranches; exact OMap.Sorted.addAll OMap.sorted_nil _), branches_eq r recs hw _ _ hok]
            · intro hal
              have hal' : AlignedTargets 4 (takenOf (aggregateSpe r recs ⟨[], []⟩)) := fun t t' h1 h2 =>
                hal t t' ((target_iff r recs t).1 h1) ((target_iff r recs t').1 h2)
              obtain ⟨o1, o2⟩ := toRanges_ok (mayAffect st b (aggregateSpe r recs ⟨[], []⟩)) 4 (takenOf (aggregateSpe r recs ⟨[], []⟩))
                (notTakenOf (aggregateSpe r recs ⟨[], []⟩)) (by decide) (by decide) hal'
              obtain ⟨c1, c2⟩ := toRanges_complete (mayAffect st b (aggregateSpe r recs ⟨[], []⟩)) 4 (takenOf (aggregateSpe r recs ⟨[], []⟩))
                (notTakenOf (aggregateSpe r recs ⟨[], []⟩)) (by decide) (by decide) hal'
              refine ⟨_, ⟨?_, ?_, ?_, o2, ?_, ?_⟩, ?_⟩
              · intro x hx
                have := (o1 x hx).1
                refine ⟨this.pos, this.whole, this.straight, fun t ht hlt => this.noTarget t ((target_iff r recs t).2 ht) hlt⟩
              · intro x hx
                rcases (o1 x hx).1.origin with h | h
                · exact Or.inl ((target_iff r recs _).1 h)
                · exact Or.inr h
              · intro x hx
                have := (o1 x hx).2
                rw [this, weightInto_eq]
                congr 1
                unfold SpeFreq.flowInto flowTo
                cases List.find? _ _ with
                | none => rfl
                | some q => simp only [notTaken_eq]
              · intro t ht
                exact c1 t ((target_iff r recs t).2 ht) (by rw [weightInto_eq]; exact ht)
              · intro x hx hp
                rcases c2 x hx (by rw [notTaken_eq]; exact hp) with h | ⟨t, h1, h2, h3⟩
                · exact Or.inl h
                · exact Or.inr ⟨t, (target_iff r recs t).1 h1, h2, fun t' ht' => h3 t' ((target_iff r recs t').2 ht')⟩
              · intro k
                obtain ⟨x, y⟩ := k
                simp only [addSample]
                rw [OMap.get0_addAll hS.1, sumAt_natKey _ (toRangeMap_nonneg _ _),
                  OMap.sumAt_of_sorted (by unfold toRangeMap; exact OMap.Sorted.addAll OMap.sorted_nil _), ranges_eq _ _ _ hok]
          · cases h
  · have hb' : b.aarch64 = false := by simpa using hb
    rw [if_pos (by simp [hb'])] at h
    cases h
    simp [hb']

/-- The sampled branches as branch identifier: the instructions with a branch record in a process of the binary. -/
theorem sampling_spec (b : Binary) (r : Reader) (recs : List (SpeRec × Nat)) (a : Int) :
    mayAffect .sampling b (aggregateSpe r recs ⟨[], []⟩) a = true ↔
      ∃ x ∈ recs, (∃ t, takenBy r x = some (u64 a, t)) ∨ notTakenBy r x = some (u64 a) := by
  unfold mayAffect
  simp only [Bool.or_eq_true, decide_eq_true_eq]
  obtain ⟨e1, e2⟩ := agg_addAll r recs ⟨[], []⟩
  have k1 : ∀ k : Nat ×ₗ Nat, k ∈ (aggregateSpe r recs ⟨[], []⟩).taken.map Prod.fst ↔ ∃ x ∈ recs, takenBy r x = some (ofLex k) := by
    intro k
    rw [e1, OMap.mem_keys_iff, OMap.find?_addAll OMap.sorted_nil]
    have : k ∈ (recs.filterMap fun x => (takenBy r x).map fun k => ((toLex k : Nat ×ₗ Nat), 1)).map Prod.fst ↔ ∃ x ∈ recs, takenBy r x = some (ofLex k) := by
      rw [List.mem_map]
      constructor
      · rintro ⟨y, hy, rfl⟩
        obtain ⟨x, hx, hxe⟩ := List.mem_filterMap.1 hy
        obtain ⟨k', hk', rfl⟩ := Option.map_eq_some_iff.1 hxe
        exact ⟨x, hx, hk'⟩
      · rintro ⟨x, hx, hk⟩
        refine ⟨(k, 1), List.mem_filterMap.2 ⟨x, hx, ?_⟩, rfl⟩
        rw [hk]; rfl
    rw [← this]
    split
    · rename_i h
      rcases h with h | h
      · simp [h]
      · cases h
    · rename_i h
      simp only [not_or] at h
      simp [h.1]
  have k2 : ∀ k : Nat, k ∈ (aggregateSpe r recs ⟨[], []⟩).notTaken.map Prod.fst ↔ ∃ x ∈ recs, notTakenBy r x = some k := by
    intro k
    rw [e2, OMap.mem_keys_iff, OMap.find?_addAll OMap.sorted_nil]
    have : k ∈ (recs.filterMap fun x => (notTakenBy r x).map fun k => (k, 1)).map Prod.fst ↔ ∃ x ∈ recs, notTakenBy r x = some k := by
      rw [List.mem_map]
      constructor
      · rintro ⟨y, hy, rfl⟩
        obtain ⟨x, hx, hxe⟩ := List.mem_filterMap.1 hy
        obtain ⟨k', hk', rfl⟩ := Option.map_eq_some_iff.1 hxe
        exact ⟨x, hx, hk'⟩
      · rintro ⟨x, hx, hk⟩
        refine ⟨(k, 1), List.mem_filterMap.2 ⟨x, hx, ?_⟩, rfl⟩
        rw [hk]; rfl
    rw [← this]
    split
    · rename_i h
      rcases h with h | h
      · simp [h]
      · cases h
    · rename_i h
      simp only [not_or] at h
      simp [h.1]
  rw [k2]
  constructor
  · rintro (h | ⟨x, hx, h⟩)
    · obtain ⟨e, he, hee⟩ := List.mem_map.1 h
      obtain ⟨x, hx, hxe⟩ := (k1 e.1).1 (List.mem_map_of_mem he)
      exact ⟨x, hx, Or.inl ⟨(ofLex e.1).2, by rw [hxe, ← hee]⟩⟩
    · exact ⟨x, hx, Or.inr h⟩
  · rintro ⟨x, hx, (⟨t, ht⟩ | h)⟩
    · left
      have := (k1 (toLex (u64 a, t))).2 ⟨x, hx, ht⟩
      obtain ⟨e, he, hee⟩ := List.mem_map.1 this
      exact List.mem_map.2 ⟨e, he, by rw [hee]; rfl⟩
    · exact Or.inr ⟨x, hx, h⟩

/-- Which mappings are used: by build id if the binary has one, otherwise by the names that match the expression. -/
theorem mkReader_spec (re : Name → Bool) (b : Binary) (f : File) (r : Reader) (h : mkReader re b f = some r) :
    ∃ s, choose (if b.buildId = [] then f.names.filter re else []) f.ids b.buildId = some s ∧ PerfMMap.select s.test f.evs = some r.mm ∧
      r.pie = b.pie ∧ r.segs = b.segs := by
  unfold mkReader at h
  obtain ⟨s, hs, h⟩ := Option.bind_eq_some_iff.1 h
  obtain ⟨mm, hm, rfl⟩ := Option.map_eq_some_iff.1 h
  exact ⟨s, hs, hm, rfl, rfl⟩

/-- Without a build id and without a mapping whose name matches, reading fails. -/
theorem no_match_fails (re : Name → Bool) (b : Binary) (f : File) (hb : b.buildId = []) (h : ∀ n ∈ f.names, re n = false) :
    mkReader re b f = none := by
  unfold mkReader
  rw [if_pos hb, List.filter_eq_nil_iff.2 (by simpa using h), hb]
  rfl

/-! ## Example -/

/-- A binary at 0x1000, in the file at 0; the branch at 0x1010 is taken to 0x1040 twice and not taken once. -/
def exBin : Binary := ⟨true, [], false, [], fun _ => [⟨0, 0x1000⟩], fun a => decide (a = 0x1010) || decide (a = 0x1050)⟩
def exFile : File := ⟨[[65]], [], [⟨some 1, some 0x1000, some 0x1000, none, some [65]⟩],
  some [(⟨true, true, true, false, 0x1010, 0x1040⟩, 1), (⟨true, true, true, false, 0x1010, 0x1040⟩, 1), (⟨true, true, true, true, 0x1010, 0⟩, 1),
    (⟨true, true, true, false, 0x1050, 0x1000⟩, 1), (⟨false, true, true, false, 0x1010, 0x1040⟩, 1), (⟨true, true, true, false, 0x1010, 0x1040⟩, 7)]⟩

theorem ex_append : append .disassembly (fun _ => true) exBin (some exFile) Maps.empty =
    some (⟨[(toLex (0, 0x10), 1), (toLex (0x14, 0x3c), 1), (toLex (0x40, 0x50), 3)], [], [(toLex (0x10, 0x40), 2), (toLex (0x50, 0), 1)]⟩, true) := by
  decide +kernel

/-- A branch in the mapping but below the first segment stops the program. -/
theorem ex_stop_violated : append .disassembly (fun _ => true) { exBin with loads := fun _ => [⟨0x20, 0x1020⟩] } (some exFile) Maps.empty = none := by
  decide +kernel
end Verif.SpeReader

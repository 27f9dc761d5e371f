import Verif.OMap
import Mathlib.Data.Prod.Lex
import Mathlib.Tactic.Linarith

/-! # C42: ranges synthesised from sampled branches

Two implementations: `SimpleSpeDataSampleReader::SynthesizeRanges` (simple_spe_sample_reader.cc:70-118)
and `ToRangeCountMap` (branch_frequencies_autofdo_sample.cc:88-146).  Both produce a list of weighted
ranges, added up in a map; counts are natural numbers (64-bit overflow of counts is not modelled). -/
namespace Verif.SpeRanges
open Verif

/-- A synthesised range: first and last instruction address, and its weight. -/
structure Rng (A : Type) where
  start : A
  stop : A
  weight : Nat
  deriving DecidableEq

/-- 64-bit addition of `uint64_t` values. -/
def add64 (a b : Nat) : Nat := if a + b < 2 ^ 64 then a + b else a + b - 2 ^ 64
/-- 64-bit subtraction of `uint64_t` values. -/
def sub64 (a b : Nat) : Nat := if b ≤ a then a - b else a + 2 ^ 64 - b

theorem sub64_eq {a b : Nat} (h4 : b ≤ a) : sub64 a b = a - b := if_pos h4
theorem add64_eq {a b : Nat} (h : a + b < 2 ^ 64) : add64 a b = a + b := if_pos h
theorem add64_cases (a b : Nat) :
    (a + b < 2 ^ 64 ∧ add64 a b = a + b) ∨ (2 ^ 64 ≤ a + b ∧ add64 a b = a + b - 2 ^ 64) := by
  unfold add64; split
  · left; exact ⟨‹_›, rfl⟩
  · right; exact ⟨by omega, rfl⟩

/-! ## SimpleSpeDataSampleReader -/

/-- `branch_count_map_`: (source, target) and count. -/
abbrev BranchCounts := List ((Nat × Nat) × Nat)

/-- `incoming_weights` (simple_spe_sample_reader.cc:75-78). -/
def incoming (bm : BranchCounts) : OMap Nat Nat := OMap.addAll [] (bm.map fun e => (e.1.2, e.2))

/-- `branch_addrs` (simple_spe_sample_reader.cc:83-85): an ordered set. -/
def branchAddrs (bm : BranchCounts) (am : OMap Nat Nat) : OMap Nat Nat :=
  OMap.addAll (OMap.addAll [] (bm.map fun e => (e.1.1, 0))) (am.map fun e => (e.1, 0))

/-- `branch_addrs.lower_bound(x)`. -/
def lowerBound (s : OMap Nat Nat) (x : Nat) : Option Nat := (List.find? (fun p => decide (x ≤ p.1)) s).map (·.1)

/-- The `while` loop (simple_spe_sample_reader.cc:94-112). `none`: the fuel ran out. -/
def scan (am addrs : OMap Nat Nat) (scanEnd : Nat) : Nat → Nat → Nat → Option (List (Rng Nat))
  | 0, _, _ => none
  | fuel + 1, start, weight =>
    if 0 < weight ∧ start < scanEnd then
      let hit := (lowerBound addrs start).filter fun b => decide (b < scanEnd)
      let stop := hit.getD (sub64 scanEnd 4)
      let here := if start ≤ stop then [Rng.mk start stop weight] else []
      match hit with
      | some b => (scan am addrs scanEnd fuel (add64 b 4) (OMap.get0 am b)).map (here ++ ·)
      | none => some here
    else some []

/-- `scan_end` (simple_spe_sample_reader.cc:91-92). -/
def scanEndOf (t : Nat) : OMap Nat Nat → Nat
  | (t', _) :: _ => t'
  | [] => add64 t 0x1000

/-- The `for` loop (simple_spe_sample_reader.cc:88-113). -/
def scanAll (am addrs : OMap Nat Nat) : OMap Nat Nat → Option (List (Rng Nat))
  | [] => some []
  | (t, w) :: rest => do
    let a ← scan am addrs (scanEndOf t rest) (addrs.length + 1) t w
    let b ← scanAll am addrs rest
    return a ++ b

/-- `SynthesizeRanges` (simple_spe_sample_reader.cc:70-118): the ranges in the order in which they are
added to `range_count_map_`. -/
def synthesize (bm : BranchCounts) (am : OMap Nat Nat) : Option (List (Rng Nat)) :=
  scanAll am (branchAddrs bm am) (incoming bm)

/-- `range_count_map_[Range(start, end)] += weight` (simple_spe_sample_reader.cc:100) for all of them. -/
def rangeCounts (l : List (Rng Nat)) : OMap (Nat ×ₗ Nat) Nat :=
  OMap.addAll [] (l.map fun r => (toLex (r.start, r.stop), r.weight))

/-! ### Specification -/

/-- `a` is the address of a sampled branch, taken or not. -/
def Sampled (bm : BranchCounts) (am : OMap Nat Nat) (a : Nat) : Prop :=
  (∃ e ∈ bm, e.1.1 = a) ∨ (∃ e ∈ am, e.1 = a)

/-- `a` is the target of a sampled taken branch. -/
def Target (bm : BranchCounts) (a : Nat) : Prop := ∃ e ∈ bm, e.1.2 = a

/-- Total count of the taken branches to `a`. -/
def weightInto (bm : BranchCounts) (a : Nat) : Nat := ((bm.filter fun e => e.1.2 = a).map (·.2)).sum

/-- All addresses are 64-bit addresses of 4-byte aligned instructions. -/
def Aligned (bm : BranchCounts) (am : OMap Nat Nat) : Prop :=
  (∀ e ∈ bm, (e.1.1 % 4 = 0 ∧ e.1.1 < 2 ^ 64) ∧ (e.1.2 % 4 = 0 ∧ e.1.2 < 2 ^ 64)) ∧
  (∀ e ∈ am, e.1 % 4 = 0 ∧ e.1 < 2 ^ 64)

/-- What a user may rely on for each range. -/
structure RangeOk (bm : BranchCounts) (am : OMap Nat Nat) (r : Rng Nat) : Prop where
  /-- Positive weight. -/
  pos : 0 < r.weight
  /-- Never empty. -/
  nonempty : r.start ≤ r.stop
  /-- It starts at a branch target with that target's weight, or just after a sampled branch with
  the branch's not-taken count. -/
  origin : (Target bm r.start ∧ r.weight = weightInto bm r.start) ∨
    (¬ Target bm r.start ∧ ∃ b, r.start = b + 4 ∧ (b, r.weight) ∈ am)
  /-- No sampled branch before its last instruction. -/
  noBranch : ∀ a, Sampled bm am a → r.start ≤ a → r.stop ≤ a
  /-- No branch target after its first instruction. -/
  noTarget : ∀ t, Target bm t → r.start < t → r.stop < t
  /-- It ends at a sampled branch, just before a target, or at the bound 0x1000 after the last target. -/
  ending : Sampled bm am r.stop ∨ Target bm (r.stop + 4) ∨
    (∃ t, Target bm t ∧ r.stop + 4 = t + 0x1000 ∧ ∀ t', Target bm t' → t' ≤ t)

/-! ### Proofs -/

theorem addAll_keys {m : OMap Nat Nat} (hm : OMap.Sorted m) (xs : List (Nat × Nat)) (k : Nat) :
    (∃ p ∈ OMap.addAll m xs, p.1 = k) ↔ (∃ p ∈ m, p.1 = k) ∨ ∃ p ∈ xs, p.1 = k := by
  have hs := OMap.Sorted.addAll hm xs
  have key : ∀ (m : OMap Nat Nat), OMap.Sorted m → ((∃ p ∈ m, p.1 = k) ↔ OMap.find? m k ≠ none) := by
    intro m hm
    constructor
    · rintro ⟨p, hp, rfl⟩
      rw [OMap.find?_some_of_mem hm (v := p.2) hp]; simp
    · intro h
      obtain ⟨v, hv⟩ := Option.ne_none_iff_exists'.mp h
      exact ⟨(k, v), OMap.mem_of_find?_some hv, rfl⟩
  induction xs generalizing m with
  | nil => simp [OMap.addAll]
  | cons x xs ih =>
    show (∃ p ∈ OMap.addAll (OMap.add m x) xs, p.1 = k) ↔ _
    refine (ih (OMap.Sorted.add hm x) (OMap.Sorted.addAll (OMap.Sorted.add hm x) xs)).trans ?_
    rw [key _ (OMap.Sorted.add hm x), OMap.find?_add hm, key _ hm]
    simp only [List.mem_cons, exists_eq_or_imp]
    by_cases h : k = x.1
    · simp [h]
    · have : ¬ x.1 = k := fun e => h e.symm
      simp [h, this]

theorem incoming_sorted (bm : BranchCounts) : OMap.Sorted (incoming bm) :=
  OMap.Sorted.addAll OMap.sorted_nil _

theorem branchAddrs_sorted (bm : BranchCounts) (am : OMap Nat Nat) : OMap.Sorted (branchAddrs bm am) :=
  OMap.Sorted.addAll (OMap.Sorted.addAll OMap.sorted_nil _) _

theorem mem_incoming (bm : BranchCounts) (t : Nat) :
    (∃ p ∈ incoming bm, p.1 = t) ↔ Target bm t := by
  unfold incoming Target
  rw [addAll_keys OMap.sorted_nil]
  simp only [List.not_mem_nil, false_and, exists_false, false_or, List.mem_map]
  constructor
  · rintro ⟨_, ⟨e, he, rfl⟩, h⟩; exact ⟨e, he, h⟩
  · rintro ⟨e, he, h⟩; exact ⟨_, ⟨e, he, rfl⟩, h⟩

theorem mem_branchAddrs (bm : BranchCounts) (am : OMap Nat Nat) (a : Nat) :
    (∃ p ∈ branchAddrs bm am, p.1 = a) ↔ Sampled bm am a := by
  unfold branchAddrs Sampled
  rw [addAll_keys (OMap.Sorted.addAll OMap.sorted_nil _), addAll_keys OMap.sorted_nil]
  simp

theorem incoming_weight (bm : BranchCounts) {p : Nat × Nat} (hp : p ∈ incoming bm) :
    p.2 = weightInto bm p.1 := by
  have h := OMap.get0_addAll (m := []) OMap.sorted_nil (bm.map fun e => (e.1.2, e.2)) p.1
  have h2 := OMap.find?_some_of_mem (incoming_sorted bm) (k := p.1) (v := p.2) hp
  have h3 : OMap.get0 (incoming bm) p.1 = p.2 := by simp [OMap.get0, h2]
  unfold incoming at h3
  rw [h3] at h
  rw [h]
  unfold weightInto OMap.sumAt
  simp [OMap.get0, OMap.find?, List.filter_map, Function.comp_def]

theorem lowerBound_some {s : OMap Nat Nat} (hs : OMap.Sorted s) {x b : Nat} (h : lowerBound s x = some b) :
    (∃ p ∈ s, p.1 = b) ∧ x ≤ b ∧ ∀ p ∈ s, x ≤ p.1 → b ≤ p.1 := by
  unfold lowerBound at h
  induction s with
  | nil => simp at h
  | cons p s ih =>
    rw [List.find?_cons] at h
    by_cases hx : x ≤ p.1
    · simp only [hx, decide_true, Option.map_some, Option.some.injEq] at h
      subst h
      refine ⟨⟨p, by simp, rfl⟩, hx, ?_⟩
      intro q hq _
      rcases List.mem_cons.mp hq with rfl | hq
      · exact le_refl _
      · exact le_of_lt ((List.pairwise_cons.mp hs).1 q hq)
    · simp only [hx, decide_false] at h
      obtain ⟨⟨q, hq, e⟩, h2, h3⟩ := ih (List.pairwise_cons.mp hs).2 h
      refine ⟨⟨q, by simp [hq], e⟩, h2, ?_⟩
      intro r hr hxr
      rcases List.mem_cons.mp hr with rfl | hr
      · exact absurd hxr hx
      · exact h3 r hr hxr

theorem lowerBound_none {s : OMap Nat Nat} {x : Nat} (h : lowerBound s x = none) :
    ∀ p ∈ s, p.1 < x := by
  unfold lowerBound at h
  rw [Option.map_eq_none_iff, List.find?_eq_none] at h
  intro p hp
  have := h p hp
  simpa using this

/-- The scan loop, for aligned addresses: it terminates, and its ranges are well formed. -/
theorem scan_spec (am addrs : OMap Nat Nat) (has : OMap.Sorted addrs) (scanEnd : Nat)
    (hal : ∀ p ∈ addrs, p.1 % 4 = 0 ∧ p.1 < 2 ^ 64) (hse : scanEnd % 4 = 0 ∧ scanEnd < 2 ^ 64) :
    ∀ fuel start weight, (addrs.filter fun p => decide (start ≤ p.1)).length < fuel → start % 4 = 0 →
    ∃ l, scan am addrs scanEnd fuel start weight = some l ∧
      (∀ r ∈ l, 0 < r.weight ∧ start ≤ r.start ∧ r.start ≤ r.stop ∧ r.stop + 4 ≤ scanEnd ∧
        ((r.start = start ∧ r.weight = weight) ∨ (start < r.start ∧ ∃ b, r.start = b + 4 ∧
          (∃ p ∈ addrs, p.1 = b) ∧ r.weight = OMap.get0 am b)) ∧
        (∀ p ∈ addrs, r.start ≤ p.1 → r.stop ≤ p.1) ∧
        ((∃ p ∈ addrs, p.1 = r.stop) ∨ r.stop + 4 = scanEnd)) ∧
      (0 < weight → start < scanEnd → ∃ r ∈ l, r.start = start ∧ r.weight = weight) ∧
      l.Pairwise (fun a b => a.stop < b.start) ∧
      (∀ r ∈ l, ∀ p ∈ addrs, p.1 = r.stop → r.stop + 4 < scanEnd → 0 < OMap.get0 am r.stop →
        ∃ r' ∈ l, r'.start = r.stop + 4 ∧ r'.weight = OMap.get0 am r.stop) := by
  intro fuel
  induction fuel with
  | zero => intro start weight h; omega
  | succ fuel ih =>
    intro start weight hfuel hst
    rw [scan]
    by_cases hc : 0 < weight ∧ start < scanEnd
    · rw [if_pos hc]
      cases hlb : lowerBound addrs start with
      | none =>
        simp only [Option.filter_none, Option.getD_none]
        have hsub : sub64 scanEnd 4 = scanEnd - 4 := sub64_eq (by omega)
        rw [hsub, if_pos (by omega)]
        have hlt := lowerBound_none hlb
        refine ⟨_, rfl, ?_, ?_, by simp, ?_⟩
        · intro r hr
          rw [List.mem_singleton] at hr; subst hr
          refine ⟨hc.1, le_refl _, by show start ≤ scanEnd - 4; omega, by show scanEnd - 4 + 4 ≤ scanEnd; omega,
            Or.inl ⟨rfl, rfl⟩, ?_, Or.inr (by show scanEnd - 4 + 4 = scanEnd; omega)⟩
          intro p hp hle
          have := hlt p hp
          simp only at hle; omega
        · intro _ _; exact ⟨_, List.mem_cons_self, rfl, rfl⟩
        · intro r hr p hp e
          rw [List.mem_singleton] at hr; subst hr
          have := hlt p hp
          simp only at e; omega
      | some b =>
        obtain ⟨⟨q, hq, hqb⟩, hsb, hmin⟩ := lowerBound_some has hlb
        by_cases hb : b < scanEnd
        · simp only [Option.filter_some, hb, decide_true, if_true, Option.getD_some, hsb]
          have hb4 := hal q hq
          rw [hqb] at hb4
          have hadd : add64 b 4 = b + 4 := add64_eq (by omega)
          have hdec : (addrs.filter fun p => decide (b + 4 ≤ p.1)).length < fuel := by
            have h1 : ((addrs.filter fun p => decide (start ≤ p.1)).filter fun p => decide (b + 4 ≤ p.1)).length
                < (addrs.filter fun p => decide (start ≤ p.1)).length := by
              apply List.length_filter_lt_length_iff_exists.mpr
              refine ⟨q, by simp [hq]; omega, by simp; omega⟩
            rw [List.filter_filter] at h1
            have h2 : (addrs.filter fun p => decide (b + 4 ≤ p.1) && decide (start ≤ p.1)) =
                addrs.filter fun p => decide (b + 4 ≤ p.1) := by
              apply List.filter_congr
              intro p _
              by_cases h : b + 4 ≤ p.1
              · have : start ≤ p.1 := by omega
                simp [h, this]
              · simp [h]
            rw [h2] at h1
            omega
          obtain ⟨l, hl, hall, hne, hpw, hnext⟩ := ih (b + 4) (OMap.get0 am b) hdec (by omega)
          rw [hadd, hl]
          refine ⟨_, rfl, ?_, ?_, ?_, ?_⟩
          · intro r hr
            simp only [List.cons_append, List.nil_append, List.mem_cons] at hr
            rcases hr with rfl | hr
            · refine ⟨hc.1, le_refl _, hsb, by show b + 4 ≤ scanEnd; omega, Or.inl ⟨rfl, rfl⟩, ?_, Or.inl ⟨q, hq, hqb⟩⟩
              intro p hp hle
              exact hmin p hp hle
            · obtain ⟨h1, h2, h3, h4, h5, h6, h7⟩ := hall r hr
              refine ⟨h1, by omega, h3, h4, Or.inr ⟨by omega, ?_⟩, h6, h7⟩
              rcases h5 with ⟨h5, h8⟩ | h5
              · exact ⟨b, h5, ⟨q, hq, hqb⟩, h8⟩
              · exact h5.2
          · intro _ _; exact ⟨_, List.mem_cons_self, rfl, rfl⟩
          · simp only [List.cons_append, List.nil_append, List.pairwise_cons]
            refine ⟨?_, hpw⟩
            intro r hr
            have := (hall r hr).2.1
            show b < r.start
            omega
          · intro r hr p hp hpe hlt hpos
            simp only [List.cons_append, List.nil_append, List.mem_cons] at hr ⊢
            rcases hr with rfl | hr
            · obtain ⟨r', h1, h2, h3⟩ := hne hpos hlt
              exact ⟨r', Or.inr h1, h2, h3⟩
            · obtain ⟨r', h1, h2⟩ := hnext r hr p hp hpe hlt hpos
              exact ⟨r', Or.inr h1, h2⟩
        · simp only [Option.filter_some, hb, decide_false]
          have hsub : sub64 scanEnd 4 = scanEnd - 4 := sub64_eq (by omega)
          simp only [Bool.false_eq_true, if_false, Option.getD_none]
          rw [hsub, if_pos (by omega)]
          refine ⟨_, rfl, ?_, ?_, by simp, ?_⟩
          · intro r hr
            rw [List.mem_singleton] at hr; subst hr
            refine ⟨hc.1, le_refl _, by show start ≤ scanEnd - 4; omega, by show scanEnd - 4 + 4 ≤ scanEnd; omega,
              Or.inl ⟨rfl, rfl⟩, ?_, Or.inr (by show scanEnd - 4 + 4 = scanEnd; omega)⟩
            intro p hp hle
            have := hmin p hp hle
            show scanEnd - 4 ≤ p.1
            omega
          · intro _ _; exact ⟨_, List.mem_cons_self, rfl, rfl⟩
          · intro r hr p hp e hlt
            rw [List.mem_singleton] at hr; subst hr
            simp only at e hlt; omega
    · rw [if_neg hc]
      refine ⟨[], rfl, by simp, ?_, by simp, by simp⟩
      intro h1 h2; exact absurd ⟨h1, h2⟩ hc

/-- What the outer loop guarantees for the targets still to be scanned. -/
structure AllOk (am addrs tm : OMap Nat Nat) (l : List (Rng Nat)) : Prop where
  each : ∀ r ∈ l, 0 < r.weight ∧ r.start ≤ r.stop ∧ r.stop < 2 ^ 64 ∧
    (∃ p ∈ tm, p.1 ≤ r.start ∧
      ((r.start = p.1 ∧ r.weight = p.2) ∨ (p.1 < r.start ∧ ∃ b, r.start = b + 4 ∧
          (∃ q ∈ addrs, q.1 = b) ∧ r.weight = OMap.get0 am b)) ∧
      (∀ q ∈ tm, p.1 < q.1 → r.stop + 4 ≤ q.1) ∧
      ((∃ q ∈ addrs, q.1 = r.stop) ∨ (∃ q ∈ tm, q.1 = r.stop + 4) ∨
        (r.stop + 4 = p.1 + 0x1000 ∧ ∀ q ∈ tm, q.1 ≤ p.1))) ∧
    (∀ p ∈ addrs, r.start ≤ p.1 → r.stop ≤ p.1)
  start : ∀ p ∈ tm, 0 < p.2 → p.1 + 0x1000 < 2 ^ 64 → ∃ r ∈ l, r.start = p.1 ∧ r.weight = p.2
  disj : l.Pairwise (fun a b => a.stop < b.start)
  cont : ∀ r ∈ l, (∃ p ∈ addrs, p.1 = r.stop) → (∃ q ∈ tm, r.stop + 4 < q.1) → (¬ ∃ q ∈ tm, q.1 = r.stop + 4) →
    0 < OMap.get0 am r.stop → ∃ r' ∈ l, r'.start = r.stop + 4 ∧ r'.weight = OMap.get0 am r.stop

theorem scanAll_spec (am addrs : OMap Nat Nat) (has : OMap.Sorted addrs)
    (hal : ∀ p ∈ addrs, p.1 % 4 = 0 ∧ p.1 < 2 ^ 64) :
    ∀ tm : OMap Nat Nat, OMap.Sorted tm → (∀ p ∈ tm, p.1 % 4 = 0 ∧ p.1 < 2 ^ 64) →
    ∃ l, scanAll am addrs tm = some l ∧ AllOk am addrs tm l := by
  intro tm
  induction tm with
  | nil => intro _ _; exact ⟨[], rfl, by constructor <;> simp⟩
  | cons p rest ih =>
    intro hs htm
    obtain ⟨t, w⟩ := p
    have hs' := List.pairwise_cons.mp hs
    obtain ⟨b, hb, hB⟩ := ih hs'.2 (fun p hp => htm p (by simp [hp]))
    have ht := htm (t, w) (by simp)
    have hcase := add64_cases t 0x1000
    have hse : scanEndOf t rest % 4 = 0 ∧ scanEndOf t rest < 2 ^ 64 := by
      cases rest with
      | nil => simp only [scanEndOf]; simp only at ht; omega
      | cons q r => exact htm q (by simp)
    have hnext : ∀ q ∈ rest, scanEndOf t rest ≤ q.1 := by
      intro q hq
      cases rest with
      | nil => simp at hq
      | cons q' r =>
        simp only [scanEndOf]
        rcases List.mem_cons.mp hq with rfl | hq
        · exact le_refl _
        · exact le_of_lt ((List.pairwise_cons.mp hs'.2).1 q hq)
    have hfl : (addrs.filter fun p => decide (t ≤ p.1)).length < addrs.length + 1 := by
      have := List.length_filter_le (fun p : Nat × Nat => decide (t ≤ p.1)) addrs
      omega
    obtain ⟨a, ha, h1, h2, h3, h4⟩ := scan_spec am addrs has (scanEndOf t rest) hal hse
      (addrs.length + 1) t w hfl ht.1
    refine ⟨a ++ b, by simp [scanAll, ha, hb], ?_⟩
    -- ranges of `a` end before the next target, ranges of `b` start at or after it
    have hbstart : ∀ r ∈ b, ∃ q ∈ rest, q.1 ≤ r.start := by
      intro r hr
      obtain ⟨_, _, _, ⟨q, hq, hle, _⟩, _⟩ := hB.each r hr
      exact ⟨q, hq, hle⟩
    constructor
    · intro r hr
      rcases List.mem_append.mp hr with hr | hr
      · obtain ⟨e1, e2, e3, e4, e5, e6, e7⟩ := h1 r hr
        refine ⟨e1, e3, by omega, ⟨(t, w), by simp, e2, e5, ?_, ?_⟩, e6⟩
        · intro q hq hlt
          rcases List.mem_cons.mp hq with rfl | hq
          · exact absurd hlt (lt_irrefl _)
          · have := hnext q hq; omega
        · rcases e7 with e7 | e7
          · exact Or.inl e7
          · right
            cases rest with
            | nil =>
              right
              refine ⟨?_, by simp⟩
              simp only [scanEndOf] at e7 e4
              simp only at e2 ⊢
              simp only at ht
              clear e5 h1 h2 h3 h4 hB
              omega
            | cons q r' => left; exact ⟨q, by simp, by simp only [scanEndOf] at e7; omega⟩
      · obtain ⟨e1, e2, e3, ⟨p, hp, e4, e5, e6, e7⟩, e8⟩ := hB.each r hr
        refine ⟨e1, e2, e3, ⟨p, by simp [hp], e4, e5, ?_, ?_⟩, e8⟩
        · intro q hq hlt
          rcases List.mem_cons.mp hq with rfl | hq
          · have := hs'.1 p hp; simp only at this hlt; omega
          · exact e6 q hq hlt
        · rcases e7 with e7 | ⟨q, hq, e7⟩ | ⟨e7, e9⟩
          · exact Or.inl e7
          · exact Or.inr (Or.inl ⟨q, by simp [hq], e7⟩)
          · refine Or.inr (Or.inr ⟨e7, ?_⟩)
            intro q hq
            rcases List.mem_cons.mp hq with rfl | hq
            · have := hs'.1 p hp; simp only at this ⊢; omega
            · exact e9 q hq
    · intro p hp hpos hlt
      rcases List.mem_cons.mp hp with rfl | hp
      · have : t < scanEndOf t rest := by
          cases rest with
          | nil => simp only [scanEndOf]; simp only at hlt; omega
          | cons q r => exact hs'.1 q (by simp)
        obtain ⟨r, hr, e⟩ := h2 hpos this
        exact ⟨r, by simp [hr], e⟩
      · obtain ⟨r, hr, e⟩ := hB.start p hp hpos hlt
        exact ⟨r, by simp [hr], e⟩
    · rw [List.pairwise_append]
      refine ⟨h3, hB.disj, ?_⟩
      intro r hr r' hr'
      obtain ⟨q, hq, hle⟩ := hbstart r' hr'
      have := hnext q hq
      have := (h1 r hr).2.2.2.1
      omega
    · intro r hr hex hlt hnt hpos
      rcases List.mem_append.mp hr with hr | hr
      · obtain ⟨p, hp, hpe⟩ := hex
        have hlt' : r.stop + 4 < scanEndOf t rest := by
          obtain ⟨q, hq, hq2⟩ := hlt
          have hle := (h1 r hr).2.2.2.1
          rcases List.mem_cons.mp hq with rfl | hq
          · have hge := (h1 r hr).2.1
            have := (h1 r hr).2.2.1
            simp only at hq2; omega
          · cases rest with
            | nil => simp at hq
            | cons q' rr =>
              have : scanEndOf t (q' :: rr) = q'.1 := rfl
              rw [this] at hle ⊢
              by_contra hh
              exact hnt ⟨q', by simp, by omega⟩
        obtain ⟨r', hr', e⟩ := h4 r hr p hp hpe hlt' hpos
        exact ⟨r', by simp [hr'], e⟩
      · have hlt2 : ∃ q ∈ rest, r.stop + 4 < q.1 := by
          obtain ⟨q, hq, hq2⟩ := hlt
          rcases List.mem_cons.mp hq with rfl | hq
          · obtain ⟨q', hq', hle⟩ := hbstart r hr
            have := hs'.1 q' hq'
            have := (hB.each r hr).2.1
            simp only at *
            omega
          · exact ⟨q, hq, hq2⟩
        have hnt2 : ¬ ∃ q ∈ rest, q.1 = r.stop + 4 := fun ⟨q, hq, e⟩ => hnt ⟨q, by simp [hq], e⟩
        obtain ⟨r', hr', e⟩ := hB.cont r hr hex hlt2 hnt2 hpos
        exact ⟨r', by simp [hr'], e⟩

theorem find?_get0 {am : OMap Nat Nat} {b w : Nat} (h : OMap.get0 am b = w) (hw : 0 < w) : (b, w) ∈ am := by
  unfold OMap.get0 at h
  cases hf : OMap.find? am b with
  | none => rw [hf] at h; simp at h; omega
  | some v => rw [hf] at h; simp at h; subst h; exact OMap.mem_of_find?_some hf

theorem aligned_addrs {bm : BranchCounts} {am : OMap Nat Nat} (h : Aligned bm am) :
    ∀ p ∈ branchAddrs bm am, p.1 % 4 = 0 ∧ p.1 < 2 ^ 64 := by
  intro p hp
  rcases (mem_branchAddrs bm am p.1).mp ⟨p, hp, rfl⟩ with ⟨e, he, h1⟩ | ⟨e, he, h1⟩
  · rw [← h1]; exact (h.1 e he).1
  · rw [← h1]; exact h.2 e he

theorem aligned_targets {bm : BranchCounts} {am : OMap Nat Nat} (h : Aligned bm am) :
    ∀ p ∈ incoming bm, p.1 % 4 = 0 ∧ p.1 < 2 ^ 64 := by
  intro p hp
  obtain ⟨e, he, h1⟩ := (mem_incoming bm p.1).mp ⟨p, hp, rfl⟩
  rw [← h1]; exact (h.1 e he).2

/-- **C42** (simple reader).  On aligned samples the synthesis terminates; every range is well formed;
ranges do not overlap and come in address order, so each is added once. -/
theorem synthesize_ok (bm : BranchCounts) (am : OMap Nat Nat) (h : Aligned bm am) :
    ∃ l, synthesize bm am = some l ∧ (∀ r ∈ l, RangeOk bm am r) ∧
      l.Pairwise (fun a b => a.stop < b.start) := by
  obtain ⟨l, hl, hok⟩ := scanAll_spec am (branchAddrs bm am) (branchAddrs_sorted bm am) (aligned_addrs h)
    (incoming bm) (incoming_sorted bm) (aligned_targets h)
  refine ⟨l, hl, ?_, hok.disj⟩
  intro r hr
  obtain ⟨h1, h2, _, ⟨p, hp, h3, h4, h5, h6⟩, h7⟩ := hok.each r hr
  have htp : Target bm p.1 := (mem_incoming bm p.1).mp ⟨p, hp, rfl⟩
  have hnot : ∀ t, Target bm t → r.start < t → r.stop + 4 ≤ t := by
    intro t ht hlt
    obtain ⟨q, hq, e⟩ := (mem_incoming bm t).mpr ht
    have := h5 q hq (by omega)
    omega
  refine ⟨h1, h2, ?_, ?_, ?_, ?_⟩
  · rcases h4 with ⟨h4, h8⟩ | ⟨h4, b, hb, _, h8⟩
    · left
      rw [h4, h8]
      exact ⟨htp, incoming_weight bm hp⟩
    · right
      refine ⟨?_, b, hb, find?_get0 h8.symm h1⟩
      intro ht
      obtain ⟨q, hq, e⟩ := (mem_incoming bm r.start).mpr ht
      have := h5 q hq (by omega)
      omega
  · intro a ha hle
    obtain ⟨q, hq, e⟩ := (mem_branchAddrs bm am a).mpr ha
    have := h7 q hq (by omega)
    omega
  · intro t ht hlt
    have := hnot t ht hlt
    omega
  · rcases h6 with ⟨q, hq, e⟩ | ⟨q, hq, e⟩ | ⟨e, h8⟩
    · exact Or.inl ((mem_branchAddrs bm am r.stop).mp ⟨q, hq, e⟩)
    · exact Or.inr (Or.inl ((mem_incoming bm _).mp ⟨q, hq, e⟩))
    · refine Or.inr (Or.inr ⟨p.1, htp, e, ?_⟩)
      intro t' ht'
      obtain ⟨q, hq, e⟩ := (mem_incoming bm t').mpr ht'
      have := h8 q hq
      omega

/-- **C42** (simple reader), completeness: each target with a positive weight starts a range carrying it,
and a range ending at a sampled branch is continued by a range with the branch's not-taken count, unless
that count is zero, a target follows directly, or it is beyond the last target. -/
theorem synthesize_complete (bm : BranchCounts) (am : OMap Nat Nat) (h : Aligned bm am) :
    ∃ l, synthesize bm am = some l ∧
      (∀ t, Target bm t → 0 < weightInto bm t → t + 0x1000 < 2 ^ 64 →
        ∃ r ∈ l, r.start = t ∧ r.weight = weightInto bm t) ∧
      (∀ r ∈ l, Sampled bm am r.stop → (∃ t, Target bm t ∧ r.stop + 4 < t) → ¬ Target bm (r.stop + 4) →
        0 < OMap.get0 am r.stop → ∃ r' ∈ l, r'.start = r.stop + 4 ∧ r'.weight = OMap.get0 am r.stop) := by
  obtain ⟨l, hl, hok⟩ := scanAll_spec am (branchAddrs bm am) (branchAddrs_sorted bm am) (aligned_addrs h)
    (incoming bm) (incoming_sorted bm) (aligned_targets h)
  refine ⟨l, hl, ?_, ?_⟩
  · intro t ht hpos hlt
    obtain ⟨p, hp, rfl⟩ := (mem_incoming bm t).mpr ht
    have := incoming_weight bm hp
    rw [← this]
    exact hok.start p hp (by omega) hlt
  · intro r hr hs ⟨t, ht, hlt⟩ hnt hpos
    obtain ⟨q, hq, e⟩ := (mem_incoming bm t).mpr ht
    exact hok.cont r hr ((mem_branchAddrs bm am _).mpr hs) ⟨q, hq, by omega⟩
      (fun hh => hnt ((mem_incoming bm _).mp hh)) hpos

/-- The range map holds exactly the synthesised ranges with their weights. -/
theorem rangeCounts_spec {l : List (Rng Nat)} (hp : l.Pairwise (fun a b => a.stop < b.start))
    (hne : ∀ r ∈ l, r.start ≤ r.stop ∧ 0 < r.weight) (s e w : Nat) :
    OMap.find? (rangeCounts l) (toLex (s, e)) = some w ↔ (Rng.mk s e w) ∈ l := by
  have hsum : ∀ l : List (Rng Nat), l.Pairwise (fun a b => a.stop < b.start) →
      (∀ r ∈ l, r.start ≤ r.stop ∧ 0 < r.weight) → ∀ r ∈ l,
      OMap.sumAt (l.map fun r => (toLex (r.start, r.stop), r.weight)) (toLex (r.start, r.stop)) = r.weight := by
    intro l
    induction l with
    | nil => simp
    | cons a l ih =>
      intro hp hne r hr
      have hp' := List.pairwise_cons.mp hp
      have hz : ∀ (x : Rng Nat), (∀ y ∈ l, y.start ≠ x.start) →
          OMap.sumAt (l.map fun r => (toLex (r.start, r.stop), r.weight)) (toLex (x.start, x.stop)) = 0 := by
        intro x hx
        unfold OMap.sumAt
        have : List.filter (fun p => decide (p.1 = toLex (x.start, x.stop)))
          (l.map fun r => (toLex (r.start, r.stop), r.weight)) = [] := by
          rw [List.filter_eq_nil_iff]
          intro p hp
          obtain ⟨y, hy, rfl⟩ := List.mem_map.mp hp
          have := hx y hy
          simp only [decide_eq_true_eq]
          intro hh
          have := congrArg ofLex hh
          simp at this
          exact hx y hy this.1
        first
          | simp [this]
          | (simp at this ⊢; simp [this])
      have hcons : ∀ x : Nat ×ₗ Nat, OMap.sumAt ((a :: l).map fun r => (toLex (r.start, r.stop), r.weight)) x =
          (if toLex (a.start, a.stop) = x then a.weight else 0) +
          OMap.sumAt (l.map fun r => (toLex (r.start, r.stop), r.weight)) x := by
        intro x
        have := OMap.sumAt_append [(toLex (a.start, a.stop), a.weight)]
          (l.map fun r => (toLex (r.start, r.stop), r.weight)) x
        simp only [List.map_cons]
        rw [List.singleton_append] at this
        rw [this]
        congr 1
        unfold OMap.sumAt
        by_cases h : toLex (a.start, a.stop) = x <;> simp [h]
      rw [hcons]
      rcases List.mem_cons.mp hr with rfl | hr
      · rw [if_pos rfl, hz r]
        · rfl
        · intro y hy
          have h1 := hp'.1 y hy
          have h2 := (hne r (by simp)).1
          omega
      · have h1 := hp'.1 r hr
        have h2 := (hne a (by simp)).1
        rw [if_neg, ih hp'.2 (fun r hr => hne r (by simp [hr])) r hr, Nat.zero_add]
        intro hh
        have := congrArg ofLex hh
        simp at this
        omega
  unfold rangeCounts
  rw [OMap.find?_addAll OMap.sorted_nil]
  constructor
  · intro h
    by_cases hex : ∃ r ∈ l, toLex (r.start, r.stop) = toLex (s, e)
    · obtain ⟨r, hr, hre⟩ := hex
      have h1 := hsum l hp hne r hr
      rw [hre] at h1
      have h3 := congrArg ofLex hre
      simp at h3
      split at h
      · simp [OMap.get0, OMap.find?] at h
        rw [h1] at h
        obtain ⟨rfl, rfl⟩ := h3
        subst h
        exact hr
      · simp [OMap.find?] at h
    · exfalso
      split at h
      · rename_i hh
        simp at hh
        rcases hh with ⟨r, hr, h1, h2⟩ | hh
        · exact hex ⟨r, hr, by rw [h1, h2]⟩
        · cases hh
      · simp [OMap.find?] at h
  · intro hr
    have h1 := hsum l hp hne _ hr
    simp only at h1
    rw [if_pos]
    · simp [OMap.get0, OMap.find?, h1]
    · simp
      exact Or.inl ⟨_, hr, rfl, rfl⟩

/-- A concrete case: two targets 0x100 and 0x200, a not-taken branch at 0x110 and a taken one at 0x140. -/
theorem synthesize_example :
    Aligned [((0x140, 0x200), 7), ((0x80, 0x100), 5)] [(0x110, 3)] ∧
    synthesize [((0x140, 0x200), 7), ((0x80, 0x100), 5)] [(0x110, 3)] =
      some [⟨0x100, 0x110, 5⟩, ⟨0x114, 0x140, 3⟩, ⟨0x200, 0x11fc, 7⟩] := by
  constructor
  · unfold Aligned; simp
  · decide +kernel

/-- Without alignment a reversed or huge range may be recorded: `scan_end - 4` wraps around when a target is
below 4. -/
theorem synthesize_wraps_violated :
    synthesize [((0x80, 0), 5), ((0x84, 2), 5)] [] =
      some [⟨0, 2 ^ 64 - 2, 5⟩, ⟨2, 0x80, 5⟩] := by
  decide +kernel

end Verif.SpeRanges

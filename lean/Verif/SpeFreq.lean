import Verif.SpeRanges

/-! # C42, second implementation: branch frequencies to AutoFDO ranges
(branch_frequencies_autofdo_sample.cc).

Addresses are integers (no overflow of `int64_t`), counts natural numbers.  `none` of an address is
`kInvalidBinaryAddress`. `cf a` is `may_affect_control_flow(a).value_or(true)`; the translation of binary
addresses to symbol offsets is left out of the ranges (it is applied pointwise, see `translate`). -/
namespace Verif.SpeFreq
open Verif Verif.SpeRanges

/-- `taken_branch_counters`: source and target (`none`: outside of the binary) and count. -/
abbrev Taken := List ((Option Int × Option Int) × Nat)

/-- `GetIncomingBranchWeights` (branch_frequencies_autofdo_sample.cc:25-36). -/
def incoming (tb : Taken) : OMap Int Nat :=
  OMap.addAll [] (tb.filterMap fun e => e.1.2.map fun t => (t, e.2))

/-- `FirstControlFlowInstruction` (branch_frequencies_autofdo_sample.cc:40-52); the fuel bounds the
iterations, it suffices when it is at least `stop - start` and the instruction size is positive. -/
def firstCF (cf : Int → Bool) (k : Int) : Nat → Int → Int → Option Int
  | 0, _, _ => none
  | fuel + 1, a, stop => if a < stop then (if cf a then some a else firstCF cf k fuel (a + k) stop) else none

/-- The `while` loop (branch_frequencies_autofdo_sample.cc:119-142): the ranges and the final weight. -/
def scan (cf : Int → Bool) (k : Int) (nt : OMap Int Nat) (scanEnd : Int) :
    Nat → Int → Nat → List (Rng Int) × Nat
  | 0, _, w => ([], w)
  | fuel + 1, s, w =>
    if 0 < w ∧ s < scanEnd then
      match firstCF cf k (scanEnd - s).toNat s scanEnd with
      | some b =>
        let r := scan cf k nt scanEnd fuel (b + k) (OMap.get0 nt b)
        (⟨s, b, w⟩ :: r.1, r.2)
      | none =>
        let r := scan cf k nt scanEnd fuel (scanEnd - k + k) w
        (⟨s, scanEnd - k, w⟩ :: r.1, r.2)
    else ([], w)

/-- `scan_end` (branch_frequencies_autofdo_sample.cc:115-117). -/
def scanEndOf (t : Int) : OMap Int Nat → Int
  | (t', _) :: _ => t'
  | [] => t + 0x1000

/-- The `for` loop (branch_frequencies_autofdo_sample.cc:107-143) with `range_weight` as argument. -/
def scanAll (cf : Int → Bool) (k : Int) (nt : OMap Int Nat) : OMap Int Nat → Nat → List (Rng Int)
  | [], _ => []
  | (t, w) :: rest, carry =>
    let r := scan cf k nt (scanEndOf t rest) (scanEndOf t rest - t).toNat t (carry + w)
    r.1 ++ scanAll cf k nt rest r.2

/-- `ToRangeCountMap` (branch_frequencies_autofdo_sample.cc:88-146), before translation. -/
def toRanges (cf : Int → Bool) (k : Int) (tb : Taken) (nt : OMap Int Nat) : List (Rng Int) :=
  scanAll cf k nt (incoming tb) 0

/-- `ToBranchCountMap` (branch_frequencies_autofdo_sample.cc:66-83). -/
def toBranches (off : Int → Int) (tb : Taken) : OMap (Int ×ₗ Int) Nat :=
  OMap.addAll [] (tb.filterMap fun e =>
    match e.1 with
    | (some f, some t) => some (toLex (off f, off t), e.2)
    | _ => none)

/-- `range_counts[range] += range_weight` (branch_frequencies_autofdo_sample.cc:128-131). -/
def toRangeMap (off : Int → Int) (l : List (Rng Int)) : OMap (Int ×ₗ Int) Nat :=
  OMap.addAll [] (l.map fun r => (toLex (off r.start, off r.stop), r.weight))

/-! ### Specification -/

/-- `a` is a branch target in the binary. -/
def Target (tb : Taken) (a : Int) : Prop := ∃ e ∈ tb, e.1.2 = some a

/-- Total count of taken branches to `a`. -/
def weightInto (tb : Taken) (a : Int) : Nat := ((tb.filter fun e => e.1.2 = some a).map (·.2)).sum

/-- Weight falling through into `s`: from the range whose last instruction precedes `s`, its own weight, or
the not-taken count when the range ends in a control flow instruction. -/
def flowInto (cf : Int → Bool) (k : Int) (nt : OMap Int Nat) (l : List (Rng Int)) (s : Int) : Nat :=
  match l.find? fun r => decide (r.stop + k = s) with
  | none => 0
  | some r => if cf r.stop then OMap.get0 nt r.stop else r.weight

structure RangeOk (cf : Int → Bool) (k : Int) (tb : Taken) (r : Rng Int) : Prop where
  pos : 0 < r.weight
  nonempty : r.start ≤ r.stop
  whole : ∃ n : Nat, r.stop = r.start + n * k
  /-- It starts at a target or just after a control flow instruction. -/
  origin : Target tb r.start ∨ cf (r.start - k) = true
  /-- Only its last instruction can affect control flow. -/
  straight : ∀ n : Nat, r.start + n * k < r.stop → cf (r.start + n * k) = false
  noTarget : ∀ t, Target tb t → r.start < t → r.stop < t
  ending : cf r.stop = true ∨ Target tb (r.stop + k) ∨
    (∃ t, Target tb t ∧ r.stop + k = t + 0x1000 ∧ ∀ t', Target tb t' → t' ≤ t)

/-! ### Proofs -/

theorem addAll_keys {m : OMap Int Nat} (hm : OMap.Sorted m) (xs : List (Int × Nat)) (k : Int) :
    (∃ p ∈ OMap.addAll m xs, p.1 = k) ↔ (∃ p ∈ m, p.1 = k) ∨ ∃ p ∈ xs, p.1 = k := by
  have key : ∀ (m : OMap Int Nat), OMap.Sorted m → ((∃ p ∈ m, p.1 = k) ↔ OMap.find? m k ≠ none) := by
    intro m hm
    constructor
    · rintro ⟨p, hp, rfl⟩
      rw [OMap.find?_some_of_mem hm (v := p.2) hp]; simp
    · intro h
      obtain ⟨v, hv⟩ := Option.ne_none_iff_exists'.mp h
      exact ⟨(k, v), OMap.mem_of_find?_some hv, rfl⟩
  induction xs generalizing m with
  | nil => simp [OMap.addAll]
  | cons x xs ih =>
    show (∃ p ∈ OMap.addAll (OMap.add m x) xs, p.1 = k) ↔ _
    refine (ih (OMap.Sorted.add hm x)).trans ?_
    rw [key _ (OMap.Sorted.add hm x), OMap.find?_add hm, key _ hm]
    simp only [List.mem_cons, exists_eq_or_imp]
    by_cases h : k = x.1
    · simp [h]
    · have : ¬ x.1 = k := fun e => h e.symm
      simp [h, this]

theorem incoming_sorted (tb : Taken) : OMap.Sorted (incoming tb) := OMap.Sorted.addAll OMap.sorted_nil _

theorem mem_incoming (tb : Taken) (t : Int) : (∃ p ∈ incoming tb, p.1 = t) ↔ Target tb t := by
  unfold incoming Target
  rw [addAll_keys OMap.sorted_nil]
  simp only [List.not_mem_nil, false_and, exists_false, false_or, List.mem_filterMap, Option.map_eq_some_iff]
  constructor
  · rintro ⟨_, ⟨e, he, a, ha, rfl⟩, rfl⟩; exact ⟨e, he, ha⟩
  · rintro ⟨e, he, h⟩; exact ⟨_, ⟨e, he, t, h, rfl⟩, rfl⟩

theorem sumAt_incoming (tb : Taken) (t : Int) :
    OMap.sumAt (tb.filterMap fun e => e.1.2.map fun t => (t, e.2)) t = weightInto tb t := by
  induction tb with
  | nil => rfl
  | cons e tb ih =>
    obtain ⟨⟨f, t'⟩, c⟩ := e
    cases t' with
    | none => simpa [weightInto, OMap.sumAt] using ih
    | some t' =>
      have h1 := OMap.sumAt_append [(t', c)] (tb.filterMap fun e => e.1.2.map fun t => (t, e.2)) t
      rw [List.singleton_append, ih] at h1
      simp only [List.filterMap_cons, Option.map_some]
      rw [h1]
      unfold weightInto OMap.sumAt
      by_cases h : t' = t <;> simp [h]

theorem get0_incoming (tb : Taken) (t : Int) : OMap.get0 (incoming tb) t = weightInto tb t := by
  unfold incoming
  rw [OMap.get0_addAll OMap.sorted_nil, sumAt_incoming]
  simp [OMap.get0, OMap.find?]

theorem incoming_weight (tb : Taken) {p : Int × Nat} (hp : p ∈ incoming tb) : p.2 = weightInto tb p.1 := by
  rw [← get0_incoming]
  simp [OMap.get0, OMap.find?_some_of_mem (incoming_sorted tb) (k := p.1) (v := p.2) hp]

theorem firstCF_some {cf : Int → Bool} {k : Int} (hk : 0 < k) : ∀ fuel a stop b,
    firstCF cf k fuel a stop = some b → cf b = true ∧ a ≤ b ∧ b < stop ∧ (∃ n : Nat, b = a + n * k) ∧
      ∀ n : Nat, a + n * k < b → cf (a + n * k) = false := by
  intro fuel
  induction fuel with
  | zero => intro a stop b h; simp [firstCF] at h
  | succ fuel ih =>
    intro a stop b h
    rw [firstCF] at h
    split at h
    · rename_i hlt
      split at h
      · rename_i hc
        cases h
        refine ⟨hc, le_refl _, hlt, ⟨0, by simp⟩, ?_⟩
        intro n hn
        have : 0 ≤ (n : Int) * k := by positivity
        omega
      · rename_i hc
        obtain ⟨h1, h2, h3, ⟨n, h4⟩, h5⟩ := ih _ _ _ h
        refine ⟨h1, by omega, h3, ⟨n + 1, by push_cast; rw [h4]; ring⟩, ?_⟩
        intro m hm
        cases m with
        | zero => simpa using hc
        | succ m =>
          have := h5 m (by push_cast at hm; linarith)
          push_cast
          rw [← this]; congr 1; ring
    · cases h

theorem firstCF_none {cf : Int → Bool} {k : Int} (hk : 0 < k) : ∀ fuel a stop,
    (stop - a).toNat ≤ fuel → firstCF cf k fuel a stop = none →
      ∀ n : Nat, a + n * k < stop → cf (a + n * k) = false := by
  intro fuel
  induction fuel with
  | zero =>
    intro a stop hf _ n hn
    have : 0 ≤ (n : Int) * k := by positivity
    omega
  | succ fuel ih =>
    intro a stop hf h n hn
    have h0 : 0 ≤ (n : Int) * k := by positivity
    rw [firstCF, if_pos (by omega)] at h
    split at h
    · cases h
    · rename_i hc
      cases n with
      | zero => simpa using hc
      | succ n =>
        have := ih _ _ (by omega) h n (by push_cast at hn; linarith)
        push_cast
        rw [← this]; congr 1; ring

/-- Weight leaving a range at its end. -/
def out (cf : Int → Bool) (nt : OMap Int Nat) (r : Rng Int) : Nat :=
  if cf r.stop then OMap.get0 nt r.stop else r.weight

/-- The ranges of one scan form a chain: each but the first continues the previous one. -/
def Chained (cf : Int → Bool) (k : Int) (nt : OMap Int Nat) : List (Rng Int) → Prop
  | [] => True
  | [_] => True
  | a :: b :: l => b.start = a.stop + k ∧ b.weight = out cf nt a ∧ cf a.stop = true ∧ Chained cf k nt (b :: l)

theorem scan_spec {cf : Int → Bool} {k : Int} (hk : 0 < k) (nt : OMap Int Nat) (scanEnd : Int) :
    ∀ fuel s w, (scanEnd - s).toNat ≤ fuel → s ≤ scanEnd → (∃ n : Nat, scanEnd = s + n * k) →
      (∀ r ∈ (scan cf k nt scanEnd fuel s w).1, 0 < r.weight ∧ s ≤ r.start ∧ r.start ≤ r.stop ∧
        r.stop + k ≤ scanEnd ∧ (∃ n : Nat, r.stop = r.start + n * k) ∧
        (r.start = s ∨ cf (r.start - k) = true) ∧
        (∀ n : Nat, r.start + n * k < r.stop → cf (r.start + n * k) = false) ∧
        (cf r.stop = true ∨ r.stop + k = scanEnd)) ∧
      Chained cf k nt (scan cf k nt scanEnd fuel s w).1 ∧
      (∀ r, (scan cf k nt scanEnd fuel s w).1.head? = some r → r.start = s ∧ r.weight = w) ∧
      (0 < w → s < scanEnd → (scan cf k nt scanEnd fuel s w).1 ≠ []) ∧
      ((scan cf k nt scanEnd fuel s w).1 = [] → (scan cf k nt scanEnd fuel s w).2 = w) ∧
      (∀ r, (scan cf k nt scanEnd fuel s w).1.getLast? = some r →
        (scan cf k nt scanEnd fuel s w).2 = out cf nt r ∧ (r.stop + k = scanEnd ∨ out cf nt r = 0)) := by
  intro fuel
  induction fuel with
  | zero =>
    intro s w hf hle _
    refine ⟨by simp [scan], by simp [scan, Chained], by simp [scan], ?_, by simp [scan], by simp [scan]⟩
    intro _ h; omega
  | succ fuel ih =>
    intro s w hf hle hdiv
    obtain ⟨m, hm⟩ := hdiv
    rw [scan]
    by_cases hc : 0 < w ∧ s < scanEnd
    · rw [if_pos hc]
      have hmpos : 1 ≤ m := by
        rcases Nat.eq_zero_or_pos m with h | h
        · subst h; simp at hm; omega
        · exact h
      have hkm : k ≤ m * k := by nlinarith [(by exact_mod_cast hmpos : (1 : Int) ≤ m)]
      cases hcf : firstCF cf k (scanEnd - s).toNat s scanEnd with
      | some b =>
        obtain ⟨h1, h2, h3, ⟨n, h4⟩, h5⟩ := firstCF_some hk _ _ _ _ hcf
        have hbk : b + k ≤ scanEnd := by
          have : (n : Int) * k < m * k := by omega
          have hnm : (n : Int) < m := lt_of_mul_lt_mul_right this (le_of_lt hk)
          have : (n : Int) + 1 ≤ m := hnm
          nlinarith
        have hdiv' : ∃ n : Nat, scanEnd = b + k + n * k := by
          refine ⟨m - n - 1, ?_⟩
          have hnm : n + 1 ≤ m := by
            have : (n : Int) * k < m * k := by omega
            have hnm : (n : Int) < m := lt_of_mul_lt_mul_right this (le_of_lt hk)
            omega
          obtain ⟨d, rfl⟩ := Nat.exists_eq_add_of_le hnm
          rw [show n + 1 + d - n - 1 = d by omega, hm, h4]
          push_cast; ring
        obtain ⟨i1, i2, i3, i4, i5, i6⟩ := ih (b + k) (OMap.get0 nt b) (by omega) hbk hdiv'
        simp only
        set r := scan cf k nt scanEnd fuel (b + k) (OMap.get0 nt b) with hr
        refine ⟨?_, ?_, ?_, by simp, by simp, ?_⟩
        · intro x hx
          rcases List.mem_cons.mp hx with rfl | hx
          · exact ⟨hc.1, le_refl _, h2, hbk, ⟨n, h4⟩, Or.inl rfl, h5, Or.inl h1⟩
          · obtain ⟨j1, j2, j3, j4, j5, j6, j7⟩ := i1 x hx
            refine ⟨j1, by omega, j3, j4, j5, ?_, j7⟩
            rcases j6 with j6 | j6
            · right; rw [j6]; simpa using h1
            · exact Or.inr j6
        · cases hr1 : r.1 with
          | nil => simp [Chained]
          | cons x l =>
            rw [hr1] at i2 i3
            have := i3 x rfl
            refine ⟨this.1, ?_, h1, i2⟩
            rw [this.2]; simp [out, h1]
        · intro x hx; simp at hx; subst hx; exact ⟨rfl, rfl⟩
        · intro x hx
          cases hr1 : r.1 with
          | nil =>
            rw [hr1] at hx; simp at hx; subst hx
            rw [i5 hr1]
            refine ⟨by simp [out, h1], ?_⟩
            by_cases hz : 0 < OMap.get0 nt b
            · by_cases hlt : b + k < scanEnd
              · exact absurd hr1 (i4 hz hlt)
              · left; show b + k = scanEnd; omega
            · right; simp [out, h1]; omega
          | cons y l =>
            rw [hr1] at hx i6
            exact i6 x (by simpa using hx)
      | none =>
        have h5 := firstCF_none hk _ _ _ (le_refl _) hcf
        have hr : scan cf k nt scanEnd fuel (scanEnd - k + k) w = ([], w) := by
          cases fuel with
          | zero => rfl
          | succ f => rw [scan, if_neg (by omega)]
        simp only [hr]
        have hwhole : ∃ n : Nat, scanEnd - k = s + n * k := by
          refine ⟨m - 1, ?_⟩
          obtain ⟨d, rfl⟩ := Nat.exists_eq_add_of_le hmpos
          rw [show 1 + d - 1 = d by omega, hm]; push_cast; ring
        have hnc : cf (scanEnd - k) = false := by
          obtain ⟨n, hn⟩ := hwhole
          rw [hn]; exact h5 n (by omega)
        refine ⟨?_, by simp [Chained], ?_, by simp, by simp, ?_⟩
        · intro x hx
          rw [List.mem_singleton] at hx; subst hx
          refine ⟨hc.1, le_refl _, by show s ≤ scanEnd - k; omega, by show scanEnd - k + k ≤ scanEnd; omega, hwhole,
            Or.inl rfl, ?_, Or.inr (by show scanEnd - k + k = scanEnd; omega)⟩
          intro n hn
          simp only at hn
          exact h5 n (by omega)
        · intro x hx; simp at hx; subst hx; exact ⟨rfl, rfl⟩
        · intro x hx; simp at hx; subst hx
          refine ⟨by simp [out, hnc], Or.inl (by show scanEnd - k + k = scanEnd; omega)⟩
    · rw [if_neg hc]
      refine ⟨by simp, by simp [Chained], by simp, ?_, by simp, by simp⟩
      intro h1 h2; exact absurd ⟨h1, h2⟩ hc


/-- Flow along a list of ranges: weight `o` arrives at address `p`. -/
def Flow (cf : Int → Bool) (k : Int) (nt : OMap Int Nat) (inw : Int → Nat) : Int → Nat → List (Rng Int) → Prop
  | _, _, [] => True
  | p, o, r :: l => r.weight = inw r.start + (if r.start = p then o else 0) ∧
      Flow cf k nt inw (r.stop + k) (out cf nt r) l

theorem Flow.swap {cf : Int → Bool} {k : Int} {nt : OMap Int Nat} {inw : Int → Nat} {p : Int} (q : Int)
    {l : List (Rng Int)} (h : Flow cf k nt inw p 0 l) : Flow cf k nt inw q 0 l := by
  cases l with
  | nil => trivial
  | cons r l => refine ⟨?_, h.2⟩; have := h.1; simpa using this

theorem flow_append {cf : Int → Bool} {k : Int} {nt : OMap Int Nat} {inw : Int → Nat} :
    ∀ (a : List (Rng Int)) (b : List (Rng Int)) (p : Int) (o : Nat),
    Flow cf k nt inw p o a → (a = [] → Flow cf k nt inw p o b) →
    (∀ r, a.getLast? = some r → Flow cf k nt inw (r.stop + k) (out cf nt r) b) → Flow cf k nt inw p o (a ++ b) := by
  intro a
  induction a with
  | nil => intro b p o _ h _; exact h rfl
  | cons x a ih =>
    intro b p o h _ hl
    refine ⟨h.1, ih b _ _ h.2 ?_ ?_⟩
    · intro ha; subst ha; exact hl x rfl
    · intro r hr
      cases a with
      | nil => simp at hr
      | cons y a => exact hl r (by simpa using hr)

theorem flow_chained {cf : Int → Bool} {k : Int} {nt : OMap Int Nat} {inw : Int → Nat} :
    ∀ (a : List (Rng Int)) (p : Int) (o : Nat), Chained cf k nt a →
    (∀ r, a.head? = some r → r.weight = inw r.start + (if r.start = p then o else 0)) →
    (∀ r ∈ a.tail, inw r.start = 0) → Flow cf k nt inw p o a := by
  intro a
  induction a with
  | nil => intros; trivial
  | cons x a ih =>
    intro p o hc hh ht
    refine ⟨hh x rfl, ?_⟩
    cases a with
    | nil => trivial
    | cons y a =>
      obtain ⟨h1, h2, _, h4⟩ := hc
      apply ih _ _ h4
      · intro r hr
        simp at hr; subst hr
        rw [ht y (by simp), h2, h1]; simp
      · intro r hr
        exact ht r (by simp at hr ⊢; exact Or.inr hr)

theorem chained_pairwise {cf : Int → Bool} {k : Int} (hk : 0 < k) {nt : OMap Int Nat} :
    ∀ (a : List (Rng Int)), Chained cf k nt a → (∀ r ∈ a, r.start ≤ r.stop) →
    a.Pairwise (fun x y => x.stop + k ≤ y.start) ∧
    (∀ x, a.head? = some x → ∀ y ∈ a, y ≠ x → x.stop + k ≤ y.start) := by
  intro a
  induction a with
  | nil => intros; simp
  | cons x a ih =>
    intro hc hle
    cases a with
    | nil => simp
    | cons y a =>
      obtain ⟨h1, _, _, h4⟩ := hc
      obtain ⟨i1, _⟩ := ih h4 (fun r hr => hle r (by simp at hr ⊢; right; exact hr))
      have key : ∀ z ∈ y :: a, x.stop + k ≤ z.start := by
        intro z hz
        rcases List.mem_cons.mp hz with rfl | hz
        · omega
        · have := (List.pairwise_cons.mp i1).1 z hz
          have := hle y (by simp)
          omega
      refine ⟨List.pairwise_cons.mpr ⟨key, i1⟩, ?_⟩
      intro w hw z hz hne
      simp at hw; subst hw
      rcases List.mem_cons.mp hz with rfl | hz
      · exact absurd rfl hne
      · exact key z hz

theorem chained_next {cf : Int → Bool} {k : Int} {nt : OMap Int Nat} :
    ∀ (a : List (Rng Int)), Chained cf k nt a → ∀ r ∈ a, (∃ r' ∈ a, r'.start = r.stop + k) ∨ a.getLast? = some r := by
  intro a
  induction a with
  | nil => simp
  | cons x a ih =>
    intro hc r hr
    cases a with
    | nil => simp at hr; subst hr; right; rfl
    | cons y a =>
      obtain ⟨h1, _, _, h4⟩ := hc
      rcases List.mem_cons.mp hr with rfl | hr
      · left; exact ⟨y, by simp, h1⟩
      · rcases ih h4 r hr with ⟨r', h, e⟩ | h
        · left; exact ⟨r', List.mem_cons_of_mem _ h, e⟩
        · right; simpa using h

theorem flow_flowInto {cf : Int → Bool} {k : Int} {nt : OMap Int Nat} {inw : Int → Nat} :
    ∀ (l : List (Rng Int)) (p : Int) (o : Nat), 0 < k → Flow cf k nt inw p o l →
    l.Pairwise (fun x y => x.stop + k ≤ y.start) → (∀ r ∈ l, p ≤ r.start ∧ r.start ≤ r.stop) →
    ∀ r ∈ l, r.weight = inw r.start + (if r.start = p then o else flowInto cf k nt l r.start) := by
  intro l
  induction l with
  | nil => simp
  | cons x l ih =>
    intro p o hk hf hp hle r hr
    have hp' := List.pairwise_cons.mp hp
    have hx := hle x (by simp)
    rcases List.mem_cons.mp hr with rfl | hr
    · rw [hf.1]
      by_cases h : r.start = p
      · simp [h]
      · simp only [h, if_false]
        have : (List.find? (fun y => decide (y.stop + k = r.start)) (r :: l)) = none := by
          rw [List.find?_eq_none]
          intro y hy
          simp only [decide_eq_true_eq]
          rcases List.mem_cons.mp hy with rfl | hy
          · omega
          · have := hp'.1 y hy
            have := hle y (by simp [hy])
            omega
        simp [flowInto, this]
    · have h1 := hp'.1 r hr
      have := ih (x.stop + k) (out cf nt x) hk hf.2 hp'.2 (fun y hy => ⟨hp'.1 y hy, (hle y (by simp [hy])).2⟩) r hr
      rw [this, if_neg (by omega : ¬ r.start = p)]
      congr 1
      unfold flowInto
      rw [List.find?_cons]
      by_cases h : r.start = x.stop + k
      · simp [h, out]
      · have h' : ¬ x.stop + k = r.start := fun e => h e.symm
        simp [h, h']

/-- What the outer loop guarantees. -/
structure AllOk (cf : Int → Bool) (k : Int) (nt tm : OMap Int Nat) (carry : Nat) (l : List (Rng Int)) : Prop where
  each : ∀ r ∈ l, 0 < r.weight ∧ r.start ≤ r.stop ∧ (∃ n : Nat, r.stop = r.start + n * k) ∧
    (∀ n : Nat, r.start + n * k < r.stop → cf (r.start + n * k) = false) ∧
    ∃ p ∈ tm, p.1 ≤ r.start ∧ (r.start = p.1 ∨ cf (r.start - k) = true) ∧
      (∀ q ∈ tm, p.1 < q.1 → r.stop + k ≤ q.1) ∧
      (cf r.stop = true ∨ (∃ q ∈ tm, q.1 = r.stop + k) ∨ (r.stop + k = p.1 + 0x1000 ∧ ∀ q ∈ tm, q.1 ≤ p.1))
  disj : l.Pairwise (fun a b => a.stop + k ≤ b.start)
  flow : ∀ t w rest, tm = (t, w) :: rest → Flow cf k nt (OMap.get0 tm) t carry l
  start : ∀ p ∈ tm, 0 < p.2 → ∃ r ∈ l, r.start = p.1
  first : ∀ t w rest, tm = (t, w) :: rest → 0 < carry → ∃ r ∈ l, r.start = t
  next : ∀ r ∈ l, 0 < out cf nt r → (∃ r' ∈ l, r'.start = r.stop + k) ∨
    (∃ p ∈ tm, r.stop + k = p.1 + 0x1000 ∧ ∀ q ∈ tm, q.1 ≤ p.1)

theorem flow_congr {cf : Int → Bool} {k : Int} {nt : OMap Int Nat} {f g : Int → Nat} :
    ∀ (l : List (Rng Int)) (p : Int) (o : Nat), (∀ r ∈ l, f r.start = g r.start) →
    Flow cf k nt f p o l → Flow cf k nt g p o l := by
  intro l
  induction l with
  | nil => intros; trivial
  | cons x l ih =>
    intro p o h hf
    exact ⟨by rw [← h x (by simp)]; exact hf.1, ih _ _ (fun r hr => h r (by simp [hr])) hf.2⟩

theorem get0_cons (t : Int) (w : Nat) (rest : OMap Int Nat) (x : Int) :
    OMap.get0 ((t, w) :: rest) x = if x = t then w else OMap.get0 rest x := by
  unfold OMap.get0
  rw [OMap.find?]
  by_cases h : x = t
  · simp [h]
  · have : ¬ t = x := fun e => h e.symm
    simp [h, this]

theorem get0_of_not_mem {m : OMap Int Nat} {x : Int} (h : ∀ p ∈ m, p.1 ≠ x) : OMap.get0 m x = 0 := by
  induction m with
  | nil => rfl
  | cons p m ih =>
    obtain ⟨t, w⟩ := p
    rw [get0_cons, if_neg (fun e => h (t, w) (by simp) e.symm), ih (fun p hp => h p (by simp [hp]))]

theorem scanAll_spec {cf : Int → Bool} {k : Int} (hk : 0 < k) (hd : k ∣ 0x1000) (nt : OMap Int Nat) :
    ∀ (tm : OMap Int Nat) (carry : Nat), OMap.Sorted tm → (∀ p ∈ tm, ∀ q ∈ tm, k ∣ p.1 - q.1) →
    AllOk cf k nt tm carry (scanAll cf k nt tm carry) := by
  intro tm
  induction tm with
  | nil =>
    intro carry _ _
    constructor <;> simp [scanAll]
  | cons p rest ih =>
    intro carry hs hdvd
    obtain ⟨t, w⟩ := p
    have hs' := List.pairwise_cons.mp hs
    have hlt : t < scanEndOf t rest := by
      cases rest with
      | nil => simp [scanEndOf]
      | cons q r => exact hs'.1 q (by simp)
    have hdiv : ∃ n : Nat, scanEndOf t rest = t + n * k := by
      have : k ∣ scanEndOf t rest - t := by
        cases rest with
        | nil => simpa [scanEndOf] using hd
        | cons q r => exact hdvd q (by simp) (t, w) (by simp)
      obtain ⟨c, hc⟩ := this
      have hc0 : 0 ≤ c := by
        by_contra h
        have : c < 0 := by omega
        nlinarith
      refine ⟨c.toNat, ?_⟩
      rw [Int.toNat_of_nonneg hc0]; linarith
    have hnext : ∀ q ∈ rest, scanEndOf t rest ≤ q.1 := by
      intro q hq
      cases rest with
      | nil => simp at hq
      | cons q' r =>
        simp only [scanEndOf]
        rcases List.mem_cons.mp hq with rfl | hq
        · exact le_refl _
        · exact le_of_lt ((List.pairwise_cons.mp hs'.2).1 q hq)
    obtain ⟨a1, a2, a3, a4, a5, a6⟩ := scan_spec (cf := cf) hk nt (scanEndOf t rest)
      (scanEndOf t rest - t).toNat t (carry + w) (le_refl _) (le_of_lt hlt) hdiv
    rw [scanAll]
    generalize hsc : scan cf k nt (scanEndOf t rest) (scanEndOf t rest - t).toNat t (carry + w) = sc at a1 a2 a3 a4 a5 a6
    obtain ⟨a, c2⟩ := sc
    simp only at a1 a2 a3 a4 a5 a6 ⊢
    have hB := ih c2 hs'.2 (fun p hp q hq => hdvd p (by simp [hp]) q (by simp [hq]))
    generalize hb : scanAll cf k nt rest c2 = b at hB
    have hbstart : ∀ r ∈ b, ∃ q ∈ rest, q.1 ≤ r.start := by
      intro r hr
      obtain ⟨_, _, _, _, q, hq, hle, _⟩ := hB.each r hr
      exact ⟨q, hq, hle⟩
    have hbge : ∀ r ∈ b, scanEndOf t rest ≤ r.start := by
      intro r hr
      obtain ⟨q, hq, hle⟩ := hbstart r hr
      exact le_trans (hnext q hq) hle
    have hrange : ∀ r ∈ a, t ≤ r.start ∧ r.start < scanEndOf t rest := by
      intro r hr
      obtain ⟨_, e2, e3, e4, _⟩ := a1 r hr
      exact ⟨e2, by omega⟩
    have hpw := chained_pairwise hk a a2 (fun r hr => (a1 r hr).2.2.1)
    have hstart : 0 < carry + w → ∃ r ∈ a, r.start = t := by
      intro hpos
      have hne := a4 hpos hlt
      obtain ⟨x, hx⟩ : ∃ x, a.head? = some x := by
        cases a with
        | nil => exact absurd rfl hne
        | cons x _ => exact ⟨x, rfl⟩
      exact ⟨x, List.mem_of_mem_head? hx, (a3 x hx).1⟩
    constructor
    · -- each
      intro r hr
      rcases List.mem_append.mp hr with hr | hr
      · obtain ⟨e1, e2, e3, e4, e5, e6, e7, e8⟩ := a1 r hr
        refine ⟨e1, e3, e5, e7, (t, w), by simp, e2, e6, ?_, ?_⟩
        · intro q hq hq2
          rcases List.mem_cons.mp hq with rfl | hq
          · exact absurd hq2 (lt_irrefl _)
          · have := hnext q hq; omega
        · rcases e8 with e8 | e8
          · exact Or.inl e8
          · right
            cases rest with
            | nil => right; exact ⟨e8, by simp⟩
            | cons q r' => left; exact ⟨q, by simp, e8.symm⟩
      · obtain ⟨e1, e2, e3, e4, p, hp, e5, e6, e7, e8⟩ := hB.each r hr
        refine ⟨e1, e2, e3, e4, p, by simp [hp], e5, e6, ?_, ?_⟩
        · intro q hq hq2
          rcases List.mem_cons.mp hq with rfl | hq
          · have := hs'.1 p hp; simp only at this hq2; omega
          · exact e7 q hq hq2
        · rcases e8 with e8 | ⟨q, hq, e8⟩ | ⟨e8, e9⟩
          · exact Or.inl e8
          · exact Or.inr (Or.inl ⟨q, by simp [hq], e8⟩)
          · refine Or.inr (Or.inr ⟨e8, ?_⟩)
            intro q hq
            rcases List.mem_cons.mp hq with rfl | hq
            · exact le_of_lt (hs'.1 p hp)
            · exact e9 q hq
    · -- disj
      rw [List.pairwise_append]
      refine ⟨hpw.1, hB.disj, ?_⟩
      intro r hr r' hr'
      have := hbge r' hr'
      have := (a1 r hr).2.2.2.1
      omega
    · -- flow
      intro t' w' rest' heq
      cases heq
      have hbflow : ∀ t1 w1 r1, rest = (t1, w1) :: r1 → Flow cf k nt (OMap.get0 ((t, w) :: rest)) t1 c2 b := by
        intro t1 w1 r1 he
        apply flow_congr (f := OMap.get0 rest) b t1 c2 _ (hB.flow t1 w1 r1 he)
        intro r hr
        rw [get0_cons, if_neg]
        have := hbge r hr
        omega
      have hbnil : rest = [] → b = [] := by
        intro he; subst he; rw [← hb]; rfl
      apply flow_append
      · apply flow_chained a t carry a2
        · intro r hr
          obtain ⟨e1, e2⟩ := a3 r hr
          rw [e1, e2, get0_cons, if_pos rfl, if_pos rfl]; omega
        · intro r hr
          have hra : r ∈ a := List.mem_of_mem_tail hr
          rw [get0_cons]
          have hgt : t < r.start := by
            cases a with
            | nil => simp at hr
            | cons x a' =>
              have h1 := (List.pairwise_cons.mp hpw.1).1 r hr
              have h2 := (a1 x (by simp)).2.2.1
              have h3 := (hrange x (by simp)).1
              omega
          rw [if_neg (by omega)]
          apply get0_of_not_mem
          intro q hq
          have := hnext q hq
          have := (hrange r hra).2
          omega
      · intro ha
        subst ha
        have hz : carry + w = 0 := by
          by_contra h
          exact a4 (by omega) hlt rfl
        have hc2 : c2 = 0 := by rw [a5 rfl]; omega
        have hcar : carry = 0 := by omega
        cases hrest : rest with
        | nil => rw [hbnil hrest]; trivial
        | cons q r1 =>
          have := hbflow q.1 q.2 r1 hrest
          rw [hc2, hrest] at this
          rw [hcar]
          exact Flow.swap t this
      · intro r hr
        obtain ⟨e1, e2⟩ := a6 r hr
        cases hrest : rest with
        | nil => rw [hbnil hrest]; trivial
        | cons q r1 =>
          have := hbflow q.1 q.2 r1 hrest
          rw [e1, hrest] at this
          rcases e2 with e2 | e2
          · rw [e2, hrest]; exact this
          · rw [e2] at this ⊢; exact Flow.swap _ this
    · -- start
      intro p hp hpos
      rcases List.mem_cons.mp hp with rfl | hp
      · obtain ⟨r, hr, e⟩ := hstart (by simp only at hpos; omega)
        exact ⟨r, by simp [hr], e⟩
      · obtain ⟨r, hr, e⟩ := hB.start p hp hpos
        exact ⟨r, by simp [hr], e⟩
    · -- first
      intro t' w' rest' heq hpos
      cases heq
      obtain ⟨r, hr, e⟩ := hstart (by omega)
      exact ⟨r, by simp [hr], e⟩
    · -- next
      intro r hr hpos
      rcases List.mem_append.mp hr with hr | hr
      · rcases chained_next a a2 r hr with ⟨r', h, e⟩ | h
        · left; exact ⟨r', by simp [h], e⟩
        · obtain ⟨e1, e2⟩ := a6 r h
          have e3 : r.stop + k = scanEndOf t rest := by
            rcases e2 with e2 | e2
            · exact e2
            · omega
          cases hrest : rest with
          | nil => right; refine ⟨(t, w), by simp, ?_, by simp⟩; rw [e3, hrest]; rfl
          | cons q r1 =>
            left
            obtain ⟨r', h', e'⟩ := hB.first q.1 q.2 r1 hrest (by omega)
            refine ⟨r', by simp [h'], ?_⟩
            rw [e', e3, hrest]; rfl
      · rcases hB.next r hr hpos with ⟨r', h, e⟩ | ⟨p, hp, e, h2⟩
        · left; exact ⟨r', by simp [h], e⟩
        · right
          refine ⟨p, by simp [hp], e, ?_⟩
          intro q hq
          rcases List.mem_cons.mp hq with rfl | hq
          · exact le_of_lt (hs'.1 p hp)
          · exact h2 q hq

/-- All targets are a whole number of instructions apart. -/
def AlignedTargets (k : Int) (tb : Taken) : Prop := ∀ t t', Target tb t → Target tb t' → k ∣ t - t'

/-- **C42** (branch frequencies).  Every range is well formed, ranges do not overlap, and each range's
weight is the incoming branch weight plus the weight falling through from the preceding range. -/
theorem toRanges_ok (cf : Int → Bool) (k : Int) (tb : Taken) (nt : OMap Int Nat) (hk : 0 < k) (hd : k ∣ 0x1000)
    (hal : AlignedTargets k tb) :
    (∀ r ∈ toRanges cf k tb nt, RangeOk cf k tb r ∧
      r.weight = weightInto tb r.start + flowInto cf k nt (toRanges cf k tb nt) r.start) ∧
    (toRanges cf k tb nt).Pairwise (fun a b => a.stop < b.start) := by
  have hok := scanAll_spec (cf := cf) hk hd nt (incoming tb) 0 (incoming_sorted tb)
    (fun p hp q hq => hal _ _ ((mem_incoming tb _).mp ⟨p, hp, rfl⟩) ((mem_incoming tb _).mp ⟨q, hq, rfl⟩))
  constructor
  · intro r hr
    obtain ⟨h1, h2, h3, h4, p, hp, h5, h6, h7, h8⟩ := hok.each r hr
    have htp := (mem_incoming tb _).mp ⟨p, hp, rfl⟩
    constructor
    · refine ⟨h1, h2, h3, ?_, h4, ?_, ?_⟩
      · rcases h6 with h6 | h6
        · left; rw [h6]; exact htp
        · exact Or.inr h6
      · intro t ht hlt
        obtain ⟨q, hq, e⟩ := (mem_incoming tb t).mpr ht
        have := h7 q hq (by omega)
        omega
      · rcases h8 with h8 | ⟨q, hq, e⟩ | ⟨e, h9⟩
        · exact Or.inl h8
        · exact Or.inr (Or.inl ((mem_incoming tb _).mp ⟨q, hq, e⟩))
        · refine Or.inr (Or.inr ⟨p.1, htp, e, ?_⟩)
          intro t' ht'
          obtain ⟨q, hq, e⟩ := (mem_incoming tb t').mpr ht'
          have := h9 q hq
          omega
    · cases htm : incoming tb with
      | nil => rw [htm] at hp; simp at hp
      | cons x rest =>
        have hf := hok.flow x.1 x.2 rest htm
        have hf' := Flow.swap (x.1 - 1) hf
        have hlow : ∀ r ∈ toRanges cf k tb nt, x.1 ≤ r.start := by
          intro r hr
          obtain ⟨_, _, _, _, p, hp, hle, _⟩ := hok.each r hr
          rw [htm] at hp
          rcases List.mem_cons.mp hp with rfl | hp
          · exact hle
          · have := incoming_sorted tb
            rw [htm] at this
            have := (List.pairwise_cons.mp this).1 p hp
            omega
        have := flow_flowInto _ _ _ hk hf' hok.disj
          (fun r hr => ⟨by have := hlow r hr; omega, (hok.each r hr).2.1⟩) r hr
        rw [this, if_neg (by have := hlow r hr; omega), get0_incoming]
        rfl
  · apply hok.disj.imp
    intro a b h; omega

/-- **C42** (branch frequencies), completeness: every target with positive weight starts a range, and no
positive weight leaving a range is lost before the scan bound. -/
theorem toRanges_complete (cf : Int → Bool) (k : Int) (tb : Taken) (nt : OMap Int Nat) (hk : 0 < k) (hd : k ∣ 0x1000)
    (hal : AlignedTargets k tb) :
    (∀ t, Target tb t → 0 < weightInto tb t → ∃ r ∈ toRanges cf k tb nt, r.start = t) ∧
    (∀ r ∈ toRanges cf k tb nt, (if cf r.stop then 0 < OMap.get0 nt r.stop else 0 < r.weight) →
      (∃ r' ∈ toRanges cf k tb nt, r'.start = r.stop + k) ∨
      (∃ t, Target tb t ∧ r.stop + k = t + 0x1000 ∧ ∀ t', Target tb t' → t' ≤ t)) := by
  have hok := scanAll_spec (cf := cf) hk hd nt (incoming tb) 0 (incoming_sorted tb)
    (fun p hp q hq => hal _ _ ((mem_incoming tb _).mp ⟨p, hp, rfl⟩) ((mem_incoming tb _).mp ⟨q, hq, rfl⟩))
  constructor
  · intro t ht hpos
    obtain ⟨p, hp, rfl⟩ := (mem_incoming tb t).mpr ht
    exact hok.start p hp (by rw [incoming_weight tb hp]; exact hpos)
  · intro r hr hpos
    have : 0 < out cf nt r := by
      unfold out
      cases hc : cf r.stop <;> simp [hc] at hpos ⊢ <;> exact hpos
    rcases hok.next r hr this with h | ⟨p, hp, e, h2⟩
    · exact Or.inl h
    · right
      refine ⟨p.1, (mem_incoming tb _).mp ⟨p, hp, rfl⟩, e, ?_⟩
      intro t' ht'
      obtain ⟨q, hq, e⟩ := (mem_incoming tb t').mpr ht'
      have := h2 q hq
      omega

/-- The branch counts only keep branches inside the binary, and add up the counts of the branches with the
same translated ends. -/
theorem toBranches_get0 (off : Int → Int) (tb : Taken) (f t : Int) :
    OMap.get0 (toBranches off tb) (toLex (f, t)) =
      ((tb.filter fun e => (e.1.1.map off = some f ∧ e.1.2.map off = some t : Bool)).map (·.2)).sum := by
  unfold toBranches
  rw [OMap.get0_addAll OMap.sorted_nil]
  have h0 : OMap.get0 ([] : OMap (Int ×ₗ Int) Nat) (toLex (f, t)) = 0 := rfl
  rw [h0, Nat.zero_add]
  induction tb with
  | nil => rfl
  | cons e tb ih =>
    obtain ⟨⟨a, b⟩, c⟩ := e
    cases a with
    | none => simpa using ih
    | some a =>
      cases b with
      | none => simpa using ih
      | some b =>
        simp only [List.filterMap_cons]
        have h1 := OMap.sumAt_append [(toLex (off a, off b), c)] (tb.filterMap fun e =>
          match e.1 with
          | (some f, some t) => some (toLex (off f, off t), e.2)
          | _ => none) (toLex (f, t))
        rw [List.singleton_append] at h1
        rw [h1, ih]
        rw [List.filter_cons]
        have h2 : OMap.sumAt [(toLex (off a, off b), c)] (toLex (f, t)) =
            if off a = f ∧ off b = t then c else 0 := by
          unfold OMap.sumAt
          by_cases h : off a = f ∧ off b = t
          · simp [h]
          · have : ¬ (toLex (off a, off b) = toLex (f, t)) := by
              intro e; have := congrArg ofLex e; simp at this; exact h this
            rw [if_neg h]
            simp only [List.filter_cons, List.filter_nil, decide_eq_true_eq]
            rw [if_neg this]; rfl
        rw [h2]
        by_cases h : off a = f ∧ off b = t
        · simp [h]
        · simp [h]

/-- A concrete case: branch to 0x100 (from outside) and to 0x200; the instruction at 0x120 is a branch that was
not taken 3 times; its fallthrough reaches 0x200 and adds to its 7 incoming branches. -/
theorem toRanges_example :
    AlignedTargets 4 [((none, some 0x100), 5), ((some 0x180, some 0x200), 7), ((some 0x180, none), 1)] ∧
    toRanges (fun a => a = 0x120 ∨ a = 0x210) 4
      [((none, some 0x100), 5), ((some 0x180, some 0x200), 7), ((some 0x180, none), 1)] [(0x120, 3)] =
      [⟨0x100, 0x120, 5⟩, ⟨0x124, 0x1fc, 3⟩, ⟨0x200, 0x210, 10⟩] := by
  constructor
  · intro t t' h h'
    simp [Target] at h h'
    rcases h with rfl | rfl <;> rcases h' with rfl | rfl <;> decide
  · decide +kernel

/-- Misaligned targets give an empty (reversed) range: targets 0x100 and 0x102. -/
theorem toRanges_reversed_violated :
    toRanges (fun _ => false) 4 [((none, some 0x100), 5), ((none, some 0x102), 1)] [] =
      [⟨0x100, 0xfe, 5⟩, ⟨0x102, 0x10fe, 6⟩] := by
  decide +kernel

end Verif.SpeFreq

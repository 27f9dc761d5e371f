import Verif.RoundFloat
import Verif.Threshold
import Verif.SymList
import Verif.SccIncl
import Mathlib.Tactic.Push

/-! # C17, C18, C72: the floating-point products

The models of these properties multiply exactly; here the products are rounded as the code rounds them. -/
namespace Verif.FloatUses
open Verif Verif.Fl

theorem d_nonneg {q : ℚ} (h : 0 ≤ q) : 0 ≤ f64 q := rnd_nonneg (by norm_num) h
theorem d_mono {x y : ℚ} (h0 : 0 ≤ x) (h : x ≤ y) : f64 x ≤ f64 y := rnd_mono (by norm_num) h0 h
theorem s_near {q : ℚ} (h : 0 ≤ q) : Near 24 1 (f32 q) q := rnd_near (by norm_num) h
theorem s_round {k : ℕ} {x y : ℚ} (hx : 0 ≤ x) (h : Near 24 k x y) : Near 24 (k + 1) (f32 x) y := Near.round (by norm_num) hx h
theorem d_near {q : ℚ} (h : 0 ≤ q) : Near 53 1 (f64 q) q := rnd_near (by norm_num) h
theorem d_nat {n : ℕ} (h : n < 9007199254740992) : f64 (n : ℚ) = n := rnd_exact (by norm_num) (by positivity) (nat_float (by simpa using h))

/-! ## C18: the emission threshold -/

/-- `total_count * FLAGS_sample_threshold_frac` (symbol_map.cc:371, 387) as `double`, then converted to an integer
(`count_threshold_` is `int64_t`), at least `kMinSamples` (symbol_map.cc:372-374, 388-390). -/
def threshold64 (frac : ℚ) (total : ℕ) : ℕ :=
  let t := ⌊f64 (f64 (total : ℚ) * frac)⌋.toNat
  if t < Threshold.kMinSamples then Threshold.kMinSamples else t

/-- The functions written (profile_writer.h:124-132). -/
def emitted64 (frac : ℚ) (m : List Threshold.Entry) : List Threshold.Entry :=
  m.filter fun e => Threshold.shouldEmit (threshold64 frac (Threshold.totalCount m [] 0)) e.total

theorem lt_floor_iff {y : ℚ} (h : 0 ≤ y) (n : ℕ) : ⌊y⌋.toNat < n ↔ y < n := by
  have h0 : 0 ≤ ⌊y⌋ := Int.floor_nonneg.2 h
  have : ⌊y⌋ < (n : ℤ) ↔ y < ((n : ℤ) : ℚ) := Int.floor_lt
  rw [show ((n : ℤ) : ℚ) = (n : ℚ) by push_cast; rfl] at this
  rw [← this]
  omega

/-- **C18, emission with rounding**: a function is emitted iff its total exceeds 10 and the rounded product. -/
theorem emitted64_iff (frac : ℚ) (hf : 0 ≤ frac) (tot : Name → Nat) (m : List Threshold.Entry) (h : Threshold.Coherent tot m)
    (hT : ∑ n ∈ (m.map Threshold.Entry.sym).toFinset, tot n < 9007199254740992) (e : Threshold.Entry) :
    e ∈ emitted64 frac m ↔ e ∈ m ∧ e.total > 10 ∧
      f64 ((∑ n ∈ (m.map Threshold.Entry.sym).toFinset, tot n : ℕ) * frac) < (e.total : ℚ) := by
  unfold emitted64 threshold64 Threshold.shouldEmit Threshold.kMinSamples
  rw [Threshold.totalCount_spec tot m h]
  simp only [List.toFinset_nil, Finset.sdiff_empty, Nat.zero_add, List.mem_filter, decide_eq_true_eq]
  generalize (∑ n ∈ (m.map Threshold.Entry.sym).toFinset, tot n) = t at *
  rw [d_nat hT]
  refine and_congr Iff.rfl ?_
  rw [← lt_floor_iff (d_nonneg (mul_nonneg (by positivity) hf))]
  split <;> omega

/-- **C18**: an emitted function holds more than the fraction of the samples, exactly; and one that holds more than the fraction by a
relative 2⁻⁵³, and more than 10 samples, is emitted. -/
theorem emitted64_above_fraction (frac : ℚ) (hf : 0 ≤ frac) (tot : Name → Nat) (m : List Threshold.Entry) (h : Threshold.Coherent tot m)
    (hT : ∑ n ∈ (m.map Threshold.Entry.sym).toFinset, tot n < 9007199254740992) (e : Threshold.Entry)
    (he : e.total < 9007199254740992) :
    (e ∈ emitted64 frac m → (∑ n ∈ (m.map Threshold.Entry.sym).toFinset, tot n : ℕ) * frac < (e.total : ℚ)) ∧
    (e ∈ m → e.total > 10 → (∑ n ∈ (m.map Threshold.Entry.sym).toFinset, tot n : ℕ) * frac * (1 + ulp 53) < (e.total : ℚ) →
      e ∈ emitted64 frac m) := by
  rw [emitted64_iff frac hf tot m h hT]
  generalize (∑ n ∈ (m.map Threshold.Entry.sym).toFinset, tot n) = t at *
  constructor
  · rintro ⟨_, _, h3⟩
    by_contra hc
    push Not at hc
    have := d_mono (by positivity) hc
    rw [d_nat he] at this
    linarith
  · intro h1 h2 h3
    refine ⟨h1, h2, lt_of_le_of_lt ?_ h3⟩
    have := (d_near (mul_nonneg (by positivity : (0 : ℚ) ≤ (t : ℚ)) hf)).1
    rwa [pow_one] at this

/-- **C18, monotonicity with rounding.** Raising a function's count never stops it from being emitted, for fractions below 1 and
counts below `(1 - fraction) · 2⁵³`. -/
theorem emit64_monotone_partial (frac : ℚ) (hf : 0 ≤ frac) (others count more : ℕ) (hm : 0 < more)
    (hb : ((others + (count + more) : ℕ) : ℚ) < (1 - frac) * 9007199254740992) (hc : count ≤ others + count)
    (h : Threshold.shouldEmit (threshold64 frac (others + count)) count = true) :
    Threshold.shouldEmit (threshold64 frac (others + (count + more))) (count + more) = true := by
  have hn : others + (count + more) < 9007199254740992 := by
    have : ((others + (count + more) : ℕ) : ℚ) < 9007199254740992 := by nlinarith
    exact_mod_cast this
  unfold Threshold.shouldEmit threshold64 Threshold.kMinSamples at *
  simp only [decide_eq_true_eq] at *
  rw [d_nat (by omega : others + count < 9007199254740992)] at h
  rw [d_nat hn]
  have a0 : 0 ≤ ((others + count : ℕ) : ℚ) * frac := mul_nonneg (by positivity) hf
  have b0 : 0 ≤ ((others + (count + more) : ℕ) : ℚ) * frac := mul_nonneg (by positivity) hf
  have h10 : count > 10 := by split at h <;> omega
  have h1 : f64 (((others + count : ℕ) : ℚ) * frac) < count := by
    rw [← lt_floor_iff (d_nonneg a0)]
    split at h <;> omega
  have h2 : ((others + count : ℕ) : ℚ) * frac < count := by
    by_contra hcon
    push Not at hcon
    have := d_mono (by positivity) hcon
    rw [d_nat (by omega : count < 9007199254740992)] at this
    linarith
  have h3 : f64 (((others + (count + more) : ℕ) : ℚ) * frac) < ((count + more : ℕ) : ℚ) := by
    have hnear := (d_near b0).1
    rw [pow_one] at hnear
    refine lt_of_le_of_lt hnear ?_
    have hu : ulp 53 = 1 / 9007199254740992 := by norm_num [ulp]
    rw [hu]
    push_cast at *
    have hm1 : (1 : ℚ) ≤ more := by exact_mod_cast hm
    have hfr : frac < 1 := by
      by_contra hge
      push Not at hge
      have : (0 : ℚ) ≤ (others : ℚ) + (count + more) := by positivity
      nlinarith
    have e1 : ((others : ℚ) + (count + more)) * frac ≤ count + more - (1 - frac) := by nlinarith
    have e2 : ((others : ℚ) + (count + more)) * frac ≤ (others : ℚ) + (count + more) := by
      have : (0 : ℚ) ≤ (others : ℚ) + (count + more) := by positivity
      nlinarith
    have e3 : ((others : ℚ) + (count + more)) * frac * (1 / 9007199254740992) < 1 - frac := by
      rw [mul_one_div, div_lt_iff₀ (by norm_num)]
      linarith
    linarith
  rw [← lt_floor_iff (d_nonneg b0)] at h3
  split <;> omega

/-- The hypotheses hold for the documented kind of fraction: 0.7 of 30 and 31 samples; the double nearest to 0.7 is below 0.7, and so
is its product with 30, but the rounded product is 21: 21 samples are not enough, 22 are. -/
theorem ex_threshold64 : f64 (7 / 10) < 7 / 10 ∧ 30 * f64 (7 / 10) < 21 ∧ threshold64 (f64 (7 / 10)) 30 = 21 ∧
    Threshold.shouldEmit (threshold64 (f64 (7 / 10)) 30) 21 = false ∧ Threshold.shouldEmit (threshold64 (f64 (7 / 10)) 30) 22 = true ∧
    ((8 + (22 + 1) : ℕ) : ℚ) < (1 - f64 (7 / 10)) * 9007199254740992 := by
  have e : f64 (7 / 10) = 3152519739159347 / 4503599627370496 := by decide +kernel
  rw [e]
  refine ⟨by norm_num, by norm_num, by decide +kernel, by decide +kernel, by decide +kernel, by norm_num⟩

/-! ## C72: the coverage ratio -/

/-- `fillProfileSymbolList` (profile_symbol_list.cc:30-82) with `total_threshold` computed with a `double` (line 60).  `none`:
fatal, or an index out of bounds. -/
def fillList64 (pol : SymbolMap.Policy) (l : List (Name × Nat)) (ratio : ℚ) : Option (List Name) :=
  if l = [] then some []
  else if ratio < 0 ∨ 1 < ratio then none
  else if ratio = 0 then some []
  else
    match (l.map Prod.snd).mergeSort (fun a b => decide (a ≥ b)) with
    | [] => none
    | s0 :: ss =>
      if s0 > ⌊f64 (f64 ((l.map Prod.snd).sum : ℚ) * ratio)⌋.toNat then some []
      else ((s0 :: ss)[(SymList.psums 0 (s0 :: ss)).findIdx fun p => decide (p ≥ ⌊f64 (f64 ((l.map Prod.snd).sum : ℚ) * ratio)⌋.toNat)]?).map fun cutoff =>
        (l.filter fun e => decide (e.2 ≥ cutoff)).map fun e =>
          if SymbolMap.originalName pol e.1 = e.1 then e.1 else SymbolMap.originalName pol e.1

/-- The rounded threshold is at most the total, and within one byte and a rounding of the exact one. -/
theorem threshold_bounds (total : ℕ) (ht : total < 9007199254740992) (ratio : ℚ) (h0 : 0 ≤ ratio) (h1 : ratio ≤ 1) :
    ⌊f64 (f64 (total : ℚ) * ratio)⌋.toNat ≤ total ∧
    ((⌊f64 (f64 (total : ℚ) * ratio)⌋.toNat : ℕ) : ℚ) ≤ total * ratio * (1 + ulp 53) ∧
    total * ratio - 1 < ((⌊f64 (f64 (total : ℚ) * ratio)⌋.toNat : ℕ) : ℚ) := by
  rw [d_nat ht]
  have hp : 0 ≤ (total : ℚ) * ratio := mul_nonneg (by positivity) h0
  have hle : (total : ℚ) * ratio ≤ total := by
    have : (0 : ℚ) ≤ total := by positivity
    nlinarith
  have hf := d_mono hp hle
  rw [d_nat ht] at hf
  have hfl : 0 ≤ ⌊f64 ((total : ℚ) * ratio)⌋ := Int.floor_nonneg.2 (d_nonneg hp)
  have hc : ((⌊f64 ((total : ℚ) * ratio)⌋.toNat : ℕ) : ℚ) = (⌊f64 ((total : ℚ) * ratio)⌋ : ℚ) := by
    have : ((⌊f64 ((total : ℚ) * ratio)⌋.toNat : ℕ) : ℤ) = ⌊f64 ((total : ℚ) * ratio)⌋ := Int.toNat_of_nonneg hfl
    exact_mod_cast congrArg (Int.cast : ℤ → ℚ) this
  have hlow := Int.floor_le (f64 ((total : ℚ) * ratio))
  refine ⟨?_, ?_, ?_⟩
  · have : ((⌊f64 ((total : ℚ) * ratio)⌋.toNat : ℕ) : ℚ) ≤ (total : ℚ) := by rw [hc]; linarith
    exact_mod_cast this
  · have := (d_near hp).1
    rw [pow_one] at this
    rw [hc]
    linarith
  · rw [hc]
    have hint : ⌊(total : ℚ) * ratio⌋ ≤ ⌊f64 ((total : ℚ) * ratio)⌋ := by
      refine Int.le_floor.2 ?_
      have h0' : 0 ≤ ⌊(total : ℚ) * ratio⌋ := Int.floor_nonneg.2 hp
      obtain ⟨n, hn⟩ : ∃ n : ℕ, ⌊(total : ℚ) * ratio⌋ = n := ⟨⌊(total : ℚ) * ratio⌋.toNat, by omega⟩
      have hfl := Int.floor_le ((total : ℚ) * ratio)
      rw [hn] at hfl ⊢
      have hfl' : (n : ℚ) ≤ (total : ℚ) * ratio := by exact_mod_cast hfl
      have hlt : n < 9007199254740992 := by
        have : (n : ℚ) ≤ total := by linarith
        have : n ≤ total := by exact_mod_cast this
        omega
      have := d_mono (by positivity) hfl'
      rw [d_nat hlt] at this
      exact_mod_cast this
    have hi : ((⌊(total : ℚ) * ratio⌋ : ℤ) : ℚ) ≤ ((⌊f64 ((total : ℚ) * ratio)⌋ : ℤ) : ℚ) := by exact_mod_cast hint
    have := Int.lt_floor_add_one ((total : ℚ) * ratio)
    linarith

/-- **C72 with rounding**: for total sizes below 2⁵³ bytes the list is the one for the exact ratio `threshold / total`, so all of C72
holds with this ratio; nothing fails. -/
theorem fillList64_eq (pol : SymbolMap.Policy) (l : List (Name × Nat)) (ratio : ℚ) (h0 : 0 < ratio) (h1 : ratio ≤ 1)
    (hpos : 0 < (l.map Prod.snd).sum) (ht : (l.map Prod.snd).sum < 9007199254740992) :
    fillList64 pol l ratio =
      SymList.fillList pol l ⌊f64 (f64 ((l.map Prod.snd).sum : ℚ) * ratio)⌋.toNat (l.map Prod.snd).sum ∧
    ⌊f64 (f64 ((l.map Prod.snd).sum : ℚ) * ratio)⌋.toNat ≤ (l.map Prod.snd).sum := by
  have hb := (threshold_bounds (l.map Prod.snd).sum ht ratio h0.le h1).1
  refine ⟨?_, hb⟩
  have hl : l ≠ [] := by rintro rfl; simp at hpos
  unfold fillList64 SymList.fillList
  generalize ⌊f64 (f64 ((l.map Prod.snd).sum : ℚ) * ratio)⌋.toNat = t at *
  rw [if_neg hl, if_neg hl, if_neg (by push Not; exact ⟨h0.le, h1⟩), if_neg h0.ne', if_neg (by omega)]
  have hdiv : (l.map Prod.snd).sum * t / (l.map Prod.snd).sum = t := Nat.mul_div_cancel_left t hpos
  rw [hdiv]
  by_cases hz : t = 0
  · rw [if_pos hz]
    have hsum : ((l.map Prod.snd).mergeSort (fun a b => decide (a ≥ b))).sum = (l.map Prod.snd).sum :=
      (List.mergeSort_perm _ _).sum_eq
    have hsort : ((l.map Prod.snd).mergeSort (fun a b => decide (a ≥ b))).Pairwise fun a b => decide (a ≥ b) = true :=
      List.pairwise_mergeSort (by intro a b c; simp only [decide_eq_true_eq]; omega) (by intro a b; simp only [Bool.or_eq_true, decide_eq_true_eq]; omega) _
    cases hm : (l.map Prod.snd).mergeSort (fun a b => decide (a ≥ b)) with
    | nil => rw [hm] at hsum; simp at hsum; omega
    | cons s0 ss =>
      simp only
      rw [if_pos]
      rw [hm] at hsum hsort
      by_contra hs
      have hs0 : s0 = 0 := by omega
      have hall : ∀ x ∈ ss, x = 0 := by
        intro x hx
        have := (List.pairwise_cons.1 hsort).1 x hx
        simp only [decide_eq_true_eq] at this
        omega
      rw [List.sum_cons, hs0, List.sum_eq_zero hall] at hsum
      omega
  · rw [if_neg hz]
    cases (l.map Prod.snd).mergeSort (fun a b => decide (a ≥ b)) <;> rfl

/-- The hypotheses hold: four functions, ratio 0.7. -/
theorem ex_fillList64 : fillList64 .none [([97], 50), ([98], 30), ([99], 15), ([100], 5)] (f64 (7 / 10)) = some [[97], [98]] ∧
    0 < f64 (7 / 10) ∧ f64 (7 / 10) ≤ 1 := by
  have e : f64 (7 / 10) = 3152519739159347 / 4503599627370496 := by decide +kernel
  rw [e]
  refine ⟨?_, by norm_num, by norm_num⟩
  have hm : [50, 30, 15, 5].mergeSort (fun a b : ℕ => decide (a ≥ b)) = [50, 30, 15, 5] := List.mergeSort_of_pairwise (by decide)
  unfold fillList64
  rw [show ([([97], 50), ([98], 30), ([99], 15), ([100], 5)] : List (Name × Nat)).map Prod.snd = [50, 30, 15, 5] from rfl, hm]
  decide +kernel

/-- C72 fails for absurd sizes, which a damaged symbol table can have: the product is rounded up above the total, and the tool reads
behind the end of the list of sizes. -/
theorem size_violated : fillList64 .none [([97], 9007199254740993), ([98], 2)] 1 = none := by
  have hm : [9007199254740993, 2].mergeSort (fun a b : ℕ => decide (a ≥ b)) = [9007199254740993, 2] := List.mergeSort_of_pairwise (by decide)
  unfold fillList64
  rw [show ([([97], 9007199254740993), ([98], 2)] : List (Name × Nat)).map Prod.snd = [9007199254740993, 2] from rfl, hm]
  decide +kernel

/-! ## C17: the cost of a call -/

/-- `static_cast<uint64_t>(static_cast<float>(incl) / calls * count)` (symbol_map.cc:623-625). -/
def cost32 (incl calls count : ℕ) : ℕ := ⌊f32 (f32 (f32 (incl : ℚ) / f32 (calls : ℚ)) * f32 (count : ℚ))⌋.toNat

/-- **C17, the cost with rounding**: the exact product, up to five roundings of 24 bits, cut off. -/
theorem cost32_spec (incl calls count : ℕ) (hc : 0 < calls) :
    ∃ x : ℚ, cost32 incl calls count = ⌊x⌋.toNat ∧ 0 ≤ x ∧ Near 24 5 x ((incl : ℚ) / calls * count) := by
  have hi : (0 : ℚ) ≤ incl := by positivity
  have hk : (0 : ℚ) < calls := by exact_mod_cast hc
  have hn : (0 : ℚ) ≤ count := by positivity
  have fi : 0 ≤ f32 (incl : ℚ) := rnd_nonneg (by norm_num) hi
  have fk : 0 < f32 (calls : ℚ) := rnd_pos (by norm_num) hk
  have fn : 0 ≤ f32 (count : ℚ) := rnd_nonneg (by norm_num) hn
  have n1 : Near 24 1 (f32 (incl : ℚ)) incl := s_near hi
  have n2 : Near 24 1 (f32 (calls : ℚ)) calls := s_near hk.le
  have n3 : Near 24 1 (f32 (count : ℚ)) count := s_near hn
  have q0 : 0 ≤ f32 (incl : ℚ) / f32 (calls : ℚ) := div_nonneg fi fk.le
  have q1 : Near 24 3 (f32 (f32 (incl : ℚ) / f32 (calls : ℚ))) ((incl : ℚ) / calls) := s_round (k := 2) q0 (Near.div (j := 1) (k := 1) fk hk hi n1 n2)
  have q2 : 0 ≤ f32 (f32 (incl : ℚ) / f32 (calls : ℚ)) := rnd_nonneg (by norm_num) q0
  refine ⟨_, rfl, rnd_nonneg (by norm_num) (mul_nonneg q2 fn), ?_⟩
  exact s_round (k := 4) (mul_nonneg q2 fn) (Near.mul (j := 3) (k := 1) fn (div_nonneg hi hk.le) q1 n3)

/-- **C17 with the cost of the code**: where recursion is direct only, the counts are always computed. -/
theorem inclusive_counts32_acyclic_partial {E : Nat → List Nat} {ns : List Nat} (S : Nat → Scc.Sym)
    (order : (Nat → List Nat) → Nat → List Nat) (orderN : List Nat → List Nat)
    (hn : ns.Nodup) (hcl : ∀ v ∈ ns, ∀ c ∈ (S v).calls, c.1 ∈ ns) (hE : ∀ v ∈ ns, ∀ w, w ∈ E v ↔ ∃ c ∈ (S v).calls, c.1 = w)
    (ho : ∀ C v w, w ∈ order C v ↔ w ∈ C v) (hN : ∀ l, (orderN l).Perm l)
    (hac : ∀ a ∈ ns, ∀ b ∈ ns, Scc.Mutual E a b → a = b) :
    ∃ incl, Scc.computeIncl cost32 S E ns order orderN = some (.ok incl) ∧ Scc.Inclusive cost32 S E ns incl :=
  Scc.inclusive_counts_acyclic_partial cost32 S order orderN hn hcl hE ho hN hac

/-- Samples are lost by rounding: a function with 16777217 samples that is called once costs its only caller 16777216; and
the single sample of a function that is called 41 times is lost to the caller that made all of these calls, which it is not with 7
samples and 49 calls. -/
theorem cost_violated : cost32 16777217 1 1 = 16777216 ∧ cost32 7 49 49 = 7 ∧ cost32 1 41 41 = 0 := by decide +kernel

end Verif.FloatUses

import Verif.Status
import Verif.RoundFloat

/-! # C37: progress reporting in `float` arithmetic (status_provider.cc:16-29)

As `Verif.Status`, with the rounding of every operation of `GetProgress`. -/
namespace Verif.Progress
open Verif.Fl

/-! ## Model -/

/-- `static_cast<float>(w) * p / 100` (status_provider.cc:27). -/
def part32 (w p : ℕ) : ℚ := f32 (f32 (f32 (w : ℚ) * f32 (p : ℚ)) / 100)

/-- `s * 100 / total_weight_` (status_provider.cc:27-28). -/
def out32 (s : ℚ) (total : ℕ) : ℚ := f32 (f32 (s * 100) / f32 (total : ℚ))

/-- The expression of status_provider.cc:27-28, before the conversion to `int`. -/
def value32 (finished w p total : ℕ) : ℚ := out32 (f32 (f32 (finished : ℚ) + part32 w p)) total

mutual
/-- `GetProgress` (status_provider.h:39; status_provider.cc:16-29); the conversion to `int` cuts the fraction off. -/
def Status.progress32 : Status → Nat
  | .leaf p => p
  | .multi ps => if ps.total = 0 then 100 else ps.scan32 ps.total 0
/-- The loop over finished parts (status_provider.cc:19-28). -/
def Parts.scan32 (total : Nat) : Parts → Nat → Nat
  | .nil, _ => 100
  | .cons w s ps, finished =>
    if s.isDone then ps.scan32 total (finished + w) else ⌊value32 finished w s.progress32 total⌋.toNat
end

mutual
/-- Every composite has a total weight of at most `b`. -/
def Status.Small (b : ℕ) : Status → Prop
  | .leaf _ => True
  | .multi ps => ps.total ≤ b ∧ ps.Small b
def Parts.Small (b : ℕ) : Parts → Prop
  | .nil => True
  | .cons _ s ps => s.Small b ∧ ps.Small b
end

/-! ## Proofs -/

theorem f_nonneg {q : ℚ} (h : 0 ≤ q) : 0 ≤ f32 q := rnd_nonneg (by norm_num) h
theorem f_pos {q : ℚ} (h : 0 < q) : 0 < f32 q := rnd_pos (by norm_num) h
theorem f_mono {x y : ℚ} (h0 : 0 ≤ x) (h : x ≤ y) : f32 x ≤ f32 y := rnd_mono (by norm_num) h0 h
theorem f_near {q : ℚ} (h : 0 ≤ q) : Near 24 1 (f32 q) q := rnd_near (by norm_num) h
theorem f_round {k : ℕ} {x y : ℚ} (hx : 0 ≤ x) (h : Near 24 k x y) : Near 24 (k + 1) (f32 x) y := Near.round (by norm_num) hx h
theorem f_nat {n : ℕ} (h : n < 16777216) : f32 (n : ℚ) = n := rnd_exact (by norm_num) (by positivity) (nat_float (by simpa using h))

theorem part_nonneg (w p : ℕ) : 0 ≤ part32 w p :=
  f_nonneg (div_nonneg (f_nonneg (mul_nonneg (f_nonneg (by positivity)) (f_nonneg (by positivity)))) (by norm_num))

theorem part_mono (w : ℕ) {p p' : ℕ} (h : p ≤ p') : part32 w p ≤ part32 w p' := by
  have hw : 0 ≤ f32 (w : ℚ) := f_nonneg (by positivity)
  have hp : 0 ≤ f32 (p : ℚ) := f_nonneg (by positivity)
  have : f32 (p : ℚ) ≤ f32 (p' : ℚ) := f_mono (by positivity) (by exact_mod_cast h)
  exact f_mono (div_nonneg (f_nonneg (mul_nonneg hw hp)) (by norm_num))
    (div_le_div_of_nonneg_right (f_mono (mul_nonneg hw hp) (mul_le_mul_of_nonneg_left this hw)) (by norm_num))

theorem out_mono {s s' : ℚ} (h0 : 0 ≤ s) (h : s ≤ s') (t : ℕ) : out32 s t ≤ out32 s' t := by
  have ht : 0 ≤ f32 (t : ℚ) := f_nonneg (by positivity)
  exact f_mono (div_nonneg (f_nonneg (by linarith)) ht) (div_le_div_of_nonneg_right (f_mono (by linarith) (by linarith)) ht)

theorem sum_nonneg' (f : ℕ) {x : ℚ} (h : 0 ≤ x) : 0 ≤ f32 (f : ℚ) + x := add_nonneg (f_nonneg (by positivity)) h

theorem value_mono (f w t : ℕ) {p p' : ℕ} (h : p ≤ p') : value32 f w p t ≤ value32 f w p' t :=
  out_mono (f_nonneg (sum_nonneg' f (part_nonneg w p))) (f_mono (sum_nonneg' f (part_nonneg w p)) (by linarith [part_mono w h])) t

theorem value_nonneg (f w p t : ℕ) : 0 ≤ value32 f w p t :=
  f_nonneg (div_nonneg (f_nonneg (mul_nonneg (f_nonneg (sum_nonneg' f (part_nonneg w p))) (by norm_num))) (f_nonneg (by positivity)))

theorem value_near (f w p t : ℕ) (ht : 0 < t) : Near 24 8 (value32 f w p t) ((100 * f + w * p : ℕ) / (t : ℚ)) := by
  have hf : (0 : ℚ) ≤ f := by positivity
  have hw : (0 : ℚ) ≤ w := by positivity
  have hp : (0 : ℚ) ≤ p := by positivity
  have ht' : (0 : ℚ) < t := by exact_mod_cast ht
  have n1 : Near 24 3 (f32 (f32 (w : ℚ) * f32 (p : ℚ))) (w * p) :=
    f_round (k := 2) (mul_nonneg (f_nonneg hw) (f_nonneg hp)) (Near.mul (j := 1) (k := 1) (f_nonneg hp) hw (f_near hw) (f_near hp))
  have n0 : 0 ≤ f32 (f32 (w : ℚ) * f32 (p : ℚ)) := f_nonneg (mul_nonneg (f_nonneg hw) (f_nonneg hp))
  have n2 : Near 24 4 (part32 w p) (w * p / 100) :=
    f_round (k := 3) (div_nonneg n0 (by norm_num)) (Near.div (j := 3) (k := 0) (by norm_num) (by norm_num) (mul_nonneg hw hp) n1 (Near.refl _ _))
  have n3 : Near 24 5 (f32 (f32 (f : ℚ) + part32 w p)) (f + w * p / 100) :=
    f_round (k := 4) (sum_nonneg' f (part_nonneg w p)) (((f_near hf).mono (f_nonneg hf) hf (by norm_num)).add n2)
  have n3' := f_nonneg (sum_nonneg' f (part_nonneg w p))
  have n4 : Near 24 6 (f32 (f32 (f32 (f : ℚ) + part32 w p) * 100)) ((f + w * p / 100) * 100) :=
    f_round (k := 5) (mul_nonneg n3' (by norm_num)) (Near.mul (j := 5) (k := 0) (by norm_num) (by positivity) n3 (Near.refl _ _))
  have n4' : 0 ≤ f32 (f32 (f32 (f : ℚ) + part32 w p) * 100) := f_nonneg (mul_nonneg n3' (by norm_num))
  have n5 : Near 24 8 (value32 f w p t) ((f + w * p / 100) * 100 / t) :=
    f_round (k := 7) (div_nonneg n4' (f_nonneg ht'.le)) (Near.div (j := 6) (k := 1) (f_pos ht') ht' (by positivity) n4 (f_near ht'.le))
  have e : ((100 * f + w * p : ℕ) : ℚ) = (f + w * p / 100) * 100 := by push_cast; ring
  rw [e]
  exact n5

theorem growth : (1 + ulp 24) ^ 8 ≤ 1 + 1 / 1000000 := by norm_num [ulp]

theorem value_le (f w p t : ℕ) (ht : 0 < t) : value32 f w p t ≤ (100 * f + w * p : ℕ) / (t : ℚ) * (1 + 1 / 1000000) ∧
    ((100 * f + w * p : ℕ) : ℚ) / t ≤ value32 f w p t * (1 + 1 / 1000000) := by
  obtain ⟨a, b⟩ := value_near f w p t ht
  exact ⟨a.trans (mul_le_mul_of_nonneg_left growth (by positivity)), b.trans (mul_le_mul_of_nonneg_left growth (value_nonneg _ _ _ _))⟩

theorem report_le {q : ℚ} {n : ℕ} (h : q < n + 1) : ⌊q⌋.toNat ≤ n := by
  have : ⌊q⌋ < (n : ℤ) + 1 := Int.floor_lt.2 (by exact_mod_cast h)
  omega

theorem report_mono {x y : ℚ} (h : x ≤ y) : ⌊x⌋.toNat ≤ ⌊y⌋.toNat := Int.toNat_le_toNat (Int.floor_mono h)

theorem mean_le {f w p t : ℕ} (ht : 0 < t) (h : f + w ≤ t) (hp : p ≤ 100) : ((100 * f + w * p : ℕ) : ℚ) / t ≤ 100 := by
  rw [div_le_iff₀ (by exact_mod_cast ht)]
  have : 100 * f + w * p ≤ 100 * t := by nlinarith
  exact_mod_cast this

mutual
theorem Status.progress32_le : ∀ s : Status, (∀ p ∈ s.leaves, p ≤ 100) → s.progress32 ≤ 100
  | .leaf p, h => h p (by simp [Status.leaves])
  | .multi ps, h => by
    simp only [Status.progress32]
    split
    · exact Nat.le_refl _
    · exact ps.scan32_le ps.total 0 h (by omega) (by omega)
theorem Parts.scan32_le : ∀ (ps : Parts) (total f : Nat), (∀ p ∈ ps.leaves, p ≤ 100) → 0 < total →
    f + ps.total ≤ total → ps.scan32 total f ≤ 100
  | .nil, _, _, _, _, _ => by simp [Parts.scan32]
  | .cons w s ps, total, f, h, h0, ht => by
    have hs := s.progress32_le (fun p hp => h p (by simp [Parts.leaves, hp]))
    simp only [Parts.total] at ht
    simp only [Parts.scan32]
    split
    · exact Parts.scan32_le ps total _ (fun p hp => h p (by simp [Parts.leaves, hp])) h0 (by omega)
    · apply report_le
      have a := (value_le f w s.progress32 total h0).1
      have b := mean_le (f := f) (w := w) h0 (by omega) hs
      push_cast
      linarith
end

/-- **C37, range**, with rounding: if every elementary job reports a value in 0..100, so does every composite. -/
theorem progress32_in_range (s : Status) (h : ∀ p ∈ s.leaves, p ≤ 100) : s.progress32 ≤ 100 := s.progress32_le h

theorem Parts.scan32_allDone (total : Nat) : ∀ (ps : Parts) (f : Nat), ps.allDone = true → ps.scan32 total f = 100
  | .nil, _, _ => by simp [Parts.scan32]
  | .cons w s ps, f, h => by
    simp only [Parts.allDone, Bool.and_eq_true] at h
    simp only [Parts.scan32, h.1, if_true]
    exact Parts.scan32_allDone total ps _ h.2

/-- C37, with rounding: a done provider reports 100. -/
theorem done_progress32 (s : Status) (h : s.isDone = true) (hb : ∀ p ∈ s.leaves, p ≤ 100) : s.progress32 = 100 := by
  cases s with
  | leaf p => simp [Status.isDone, Status.leaves] at *; simp [Status.progress32]; omega
  | multi ps =>
    simp only [Status.progress32]
    split
    · rfl
    · exact ps.scan32_allDone _ _ h

/-! ### Monotone -/

theorem part_le {w p : ℕ} (hw : w ≤ 167772) (hp : p ≤ 100) : part32 w p ≤ w := by
  have h := part_mono w hp
  have e : part32 w 100 = w := by
    unfold part32
    rw [f_nat (by omega : w < 16777216), f_nat (by norm_num : 100 < 16777216), ← Nat.cast_mul, f_nat (by omega)]
    push_cast
    rw [mul_div_assoc, div_self (by norm_num), mul_one, f_nat (by omega)]
  rwa [e] at h

theorem value_done {f w p t : ℕ} (ht : f + w ≤ 167772) (hp : p ≤ 100) : value32 f w p t ≤ value32 (f + w) 0 0 t := by
  refine out_mono (f_nonneg (sum_nonneg' f (part_nonneg w p))) (f_mono (sum_nonneg' f (part_nonneg w p)) ?_) t
  rw [f_nat (by omega : f < 16777216), f_nat (by omega : f + w < 16777216)]
  have a := part_le (by omega : w ≤ 167772) hp
  have b := part_nonneg 0 0
  push_cast
  linarith

theorem part_zero : part32 0 0 = 0 := by
  unfold part32 f32
  simp [rnd_zero]

theorem value_start (f w p t : ℕ) : value32 f 0 0 t ≤ value32 f w p t := by
  refine out_mono (f_nonneg (sum_nonneg' f (part_nonneg 0 0))) (f_mono (sum_nonneg' f (part_nonneg 0 0)) ?_) t
  rw [part_zero]
  linarith [part_nonneg w p]

theorem value_zero_le {f t : ℕ} (ht : 0 < t) (h : f ≤ t) : ⌊value32 f 0 0 t⌋.toNat ≤ 100 := by
  apply report_le
  have a := (value_le f 0 0 t ht).1
  have b := mean_le (f := f) (w := 0) (p := 0) ht (by omega) (by omega)
  push_cast at *
  linarith

theorem Parts.scan32_ge (total : Nat) : ∀ (ps : Parts) (f : Nat), 0 < total → f + ps.total ≤ total → total ≤ 167772 →
    ⌊value32 f 0 0 total⌋.toNat ≤ ps.scan32 total f
  | .nil, f, h0, h, _ => by
    simp only [Parts.scan32]
    exact value_zero_le h0 (by omega)
  | .cons w s ps, f, h0, h, hs => by
    simp only [Parts.total] at h
    simp only [Parts.scan32]
    split
    · exact (report_mono ((value_start f w 0 total).trans (value_done (by omega) (by omega)))).trans (Parts.scan32_ge total ps (f + w) h0 (by omega) hs)
    · exact report_mono (value_start f w _ total)

mutual
theorem Status.Le.progress32 : ∀ {s s' : Status}, Status.Le s s' → s.Small 167772 → (∀ p ∈ s'.leaves, p ≤ 100) →
    (∀ p ∈ s.leaves, p ≤ 100) → s.progress32 ≤ s'.progress32
  | _, _, .leaf h, _, _, _ => h
  | _, _, .multi (ps := ps) (qs := qs) h, hs, hb, hb' => by
    simp only [Status.Small] at hs
    have ht := h.total
    simp only [Status.progress32, ← ht]
    split
    · exact Nat.le_refl _
    · exact h.scan32 ps.total 0 (by omega) (by omega) hs.1 hs.2 hb hb'
theorem Parts.Le.scan32 : ∀ {ps qs : Parts}, Parts.Le ps qs → ∀ (total f : Nat), 0 < total →
    f + ps.total ≤ total → total ≤ 167772 → ps.Small 167772 → (∀ p ∈ qs.leaves, p ≤ 100) → (∀ p ∈ ps.leaves, p ≤ 100) →
    ps.scan32 total f ≤ qs.scan32 total f
  | _, _, .nil, _, _, _, _, _, _, _, _ => Nat.le_refl _
  | _, _, .cons (w := w) (s := s) (s' := s') (ps := ps) (qs := qs) h1 h2, total, f, h0, ht, hs, hsm, hb, hb' => by
    simp only [Parts.total] at ht
    simp only [Parts.Small] at hsm
    have bs : ∀ p ∈ s.leaves, p ≤ 100 := fun p hp => hb' p (by simp [Parts.leaves, hp])
    have bs' : ∀ p ∈ s'.leaves, p ≤ 100 := fun p hp => hb p (by simp [Parts.leaves, hp])
    have bp : ∀ p ∈ ps.leaves, p ≤ 100 := fun p hp => hb' p (by simp [Parts.leaves, hp])
    have bq : ∀ p ∈ qs.leaves, p ≤ 100 := fun p hp => hb p (by simp [Parts.leaves, hp])
    simp only [Parts.scan32]
    by_cases hd : s.isDone = true
    · rw [if_pos hd, if_pos (h1.done hd)]
      exact h2.scan32 total (f + w) h0 (by omega) hs hsm.2 bq bp
    · rw [if_neg hd]
      by_cases hd' : s'.isDone = true
      · rw [if_pos hd']
        refine (report_mono (value_done (by omega) (s.progress32_le bs))).trans (Parts.scan32_ge total qs (f + w) h0 ?_ hs)
        rw [← h2.total]
        omega
      · rw [if_neg hd']
        exact report_mono (value_mono f w total (h1.progress32 hsm.1 bs' bs))
end

/-- **C37, monotone**, with rounding: for total weights of up to 167772 in every composite (so that the products are exact),
advancing any elementary jobs never lowers the reported progress. -/
theorem progress32_monotone (s s' : Status) (h : Status.Le s s') (hs : s.Small 167772) (hb : ∀ p ∈ s.leaves, p ≤ 100)
    (hb' : ∀ p ∈ s'.leaves, p ≤ 100) : s.progress32 ≤ s'.progress32 := h.progress32 hs hb' hb

/-! ### Not 100 before the end -/

mutual
theorem Status.not_done32 : ∀ s : Status, s.Small 9000 → s.posWeights → (∀ p ∈ s.leaves, p ≤ 100) → s.isDone = false →
    s.progress32 < 100
  | .leaf p, _, _, _, h => by simp [Status.isDone, Status.progress32] at *; exact h
  | .multi ps, hs, hw, hb, h => by
    simp only [Status.isDone, Status.posWeights, Status.Small] at *
    simp only [Status.progress32]
    split
    · rename_i ht
      cases ps with
      | nil => simp [Parts.allDone] at h
      | cons w s ps => simp only [Parts.posWeights, Parts.total] at hw ht; omega
    · exact ps.scan32_not_done ps.total 0 hs.1 hs.2 hw hb h (by omega)
theorem Parts.scan32_not_done : ∀ (ps : Parts) (total f : Nat), total ≤ 9000 → ps.Small 9000 → ps.posWeights →
    (∀ p ∈ ps.leaves, p ≤ 100) → ps.allDone = false → f + ps.total ≤ total → ps.scan32 total f < 100
  | .nil, _, _, _, _, _, _, h, _ => by simp [Parts.allDone] at h
  | .cons w s ps, total, f, h9, hs, hw, hb, h, ht => by
    simp only [Parts.posWeights, Parts.total] at hw ht
    simp only [Parts.Small] at hs
    simp only [Parts.scan32]
    cases hd : s.isDone with
    | true =>
      simp only [Parts.allDone, hd, Bool.true_and] at h
      simp only [if_true]
      exact Parts.scan32_not_done ps total _ h9 hs.2 hw.2.2 (fun p hp => hb p (by simp [Parts.leaves, hp])) h (by omega)
    | false =>
      have hlt := s.not_done32 hs.1 hw.2.1 (fun p hp => hb p (by simp [Parts.leaves, hp])) hd
      simp only [Bool.false_eq_true, if_false]
      have : ⌊value32 f w s.progress32 total⌋.toNat ≤ 99 := by
        apply report_le
        have a := (value_le f w s.progress32 total (by omega)).1
        have hm : ((100 * f + w * s.progress32 : ℕ) : ℚ) / total ≤ 100 - 1 / 9000 := by
          have ht0 : (0 : ℚ) < total := by exact_mod_cast (by omega : 0 < total)
          have h9' : (total : ℚ) ≤ 9000 := by exact_mod_cast h9
          rw [div_le_iff₀ ht0]
          have e1 : 100 * f + w * s.progress32 + 1 ≤ 100 * total := by nlinarith
          have e2 : ((100 * f + w * s.progress32 : ℕ) : ℚ) + 1 ≤ 100 * total := by exact_mod_cast e1
          linarith
        push_cast at *
        linarith
      omega
end

/-- C37, with rounding: with positive weights and totals of up to 9000, 100 is reported exactly when done. -/
theorem progress32_100_iff_done (s : Status) (hs : s.Small 9000) (hw : s.posWeights) (hb : ∀ p ∈ s.leaves, p ≤ 100) :
    s.progress32 = 100 ↔ s.isDone = true := by
  constructor
  · intro h
    by_contra hd
    have := s.not_done32 hs hw hb (by simpa using hd)
    omega
  · intro h; exact done_progress32 s h hb

/-! ### The mean -/

/-- `Σ weight·progress` over the parts. -/
def Parts.weighted32 : Parts → Nat
  | .nil => 0
  | .cons w s ps => w * s.progress32 + ps.weighted32

/-- All parts behind the first unfinished one have not started. -/
def Parts.sequential32 : Parts → Prop
  | .nil => True
  | .cons _ s ps => if s.isDone then ps.sequential32 else ∀ x ∈ ps.toList, x.2.progress32 = 0

theorem Parts.weighted32_zero : ∀ ps : Parts, (∀ x ∈ ps.toList, x.2.progress32 = 0) → ps.weighted32 = 0
  | .nil, _ => rfl
  | .cons w s ps, h => by
    simp only [Parts.weighted32, h (w, s) (by simp [Parts.toList])]
    rw [ps.weighted32_zero (fun x hx => h x (by simp [Parts.toList, hx]))]
    omega

theorem Parts.scan32_sequential : ∀ (ps : Parts) (total f : Nat), 0 < total → f + ps.total = total →
    (∀ p ∈ ps.leaves, p ≤ 100) → ps.sequential32 →
    ∃ x : ℚ, ps.scan32 total f = ⌊x⌋.toNat ∧ 0 ≤ x ∧ |x - (100 * f + ps.weighted32 : ℕ) / (total : ℚ)| ≤ 1 / 1000
  | .nil, total, f, h0, ht, _, _ => by
    simp only [Parts.total] at ht
    refine ⟨100, by simp [Parts.scan32], by norm_num, ?_⟩
    have ht0 : (0 : ℚ) < total := by exact_mod_cast h0
    simp only [Parts.weighted32, Nat.add_zero, show f = total by omega]
    push_cast
    rw [mul_div_assoc, div_self ht0.ne']
    norm_num
  | .cons w s ps, total, f, h0, ht, hb, hs => by
    simp only [Parts.total] at ht
    simp only [Parts.sequential32] at hs
    have hbs : ∀ p ∈ s.leaves, p ≤ 100 := fun p hp => hb p (by simp [Parts.leaves, hp])
    have hbp : ∀ p ∈ ps.leaves, p ≤ 100 := fun p hp => hb p (by simp [Parts.leaves, hp])
    simp only [Parts.scan32, Parts.weighted32]
    by_cases hd : s.isDone = true
    · rw [if_pos hd] at hs ⊢
      obtain ⟨x, e1, e2, e3⟩ := Parts.scan32_sequential ps total (f + w) h0 (by omega) hbp hs
      refine ⟨x, e1, e2, ?_⟩
      rw [done_progress32 s hd hbs, show 100 * f + (w * 100 + ps.weighted32) = 100 * (f + w) + ps.weighted32 by ring]
      exact e3
    · rw [if_neg hd] at hs ⊢
      rw [ps.weighted32_zero hs, Nat.add_zero]
      refine ⟨_, rfl, value_nonneg _ _ _ _, ?_⟩
      obtain ⟨a, b⟩ := value_le f w s.progress32 total h0
      have c := mean_le (f := f) (w := w) h0 (by omega) (s.progress32_le hbs)
      have d := value_nonneg f w s.progress32 total
      have e : (0 : ℚ) ≤ ((100 * f + w * s.progress32 : ℕ) : ℚ) / total := by positivity
      generalize value32 f w s.progress32 total = x at *
      generalize ((100 * f + w * s.progress32 : ℕ) : ℚ) / total = y at *
      rw [abs_le]
      constructor <;> linarith

/-- **C37, weighted mean, with rounding.** For jobs that run one after the other the progress of a composite is the weighted mean
of the progress of its parts, cut off after an error of at most 1/1000; so it can be one less than the exact value
(`rounding_violated`).  Missing: parts that progress out of order. -/
theorem weighted_mean32_partial (ps : Parts) (h0 : 0 < ps.total) (hb : ∀ p ∈ ps.leaves, p ≤ 100) (hs : ps.sequential32) :
    ((Status.multi ps).progress32 : ℚ) ≤ (ps.weighted32 : ℚ) / ps.total + 1 / 1000 ∧
    (ps.weighted32 : ℚ) / ps.total - 1 / 1000 < (Status.multi ps).progress32 + 1 := by
  obtain ⟨x, e1, e2, e3⟩ := Parts.scan32_sequential ps ps.total 0 h0 (by omega) hb hs
  simp only [Status.progress32]
  rw [if_neg (by omega), e1]
  rw [Nat.mul_zero, Nat.zero_add, abs_le] at e3
  have f0 : 0 ≤ ⌊x⌋ := Int.floor_nonneg.2 e2
  have f1 : ((⌊x⌋.toNat : ℕ) : ℚ) = (⌊x⌋ : ℚ) := by
    have : ((⌊x⌋.toNat : ℕ) : ℤ) = ⌊x⌋ := Int.toNat_of_nonneg f0
    exact_mod_cast congrArg (Int.cast : ℤ → ℚ) this
  rw [f1]
  have g1 := Int.floor_le x
  have g2 := Int.lt_floor_add_one x
  constructor <;> linarith

/-! ## Examples -/

/-- C37's weighted mean is violated by rounding: a composite of one job at 53 reports 52. -/
theorem rounding_violated : (Status.multi (.cons 1 (.leaf 53) .nil)).progress32 = 52 := by decide +kernel

/-- The documented case (status_provider.h:52-60), inside another composite; it meets the hypotheses of the theorems above. -/
theorem ex_progress32 : (Status.multi (.cons 3 (.multi (.cons 10 (.leaf 100) (.cons 20 (.leaf 10) (.cons 30 (.leaf 0) .nil)))) (.cons 1 (.leaf 0) .nil))).progress32 = 15 ∧
    (Status.multi (.cons 3 (.multi (.cons 10 (.leaf 100) (.cons 20 (.leaf 10) (.cons 30 (.leaf 0) .nil)))) (.cons 1 (.leaf 0) .nil))).Small 9000 ∧
    (Parts.cons 3 (.multi (.cons 10 (.leaf 100) (.cons 20 (.leaf 10) (.cons 30 (.leaf 0) .nil)))) (.cons 1 (.leaf 0) .nil)).sequential32 := by
  refine ⟨by decide +kernel, ?_, ?_⟩
  · simp [Status.Small, Parts.Small, Parts.total]
  · simp [Parts.sequential32, Status.isDone, Parts.allDone, Parts.toList, Status.progress32]

end Verif.Progress

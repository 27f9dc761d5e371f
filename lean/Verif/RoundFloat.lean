import Mathlib.Data.Int.Log
import Mathlib.Data.Rat.Floor
import Mathlib.Algebra.Order.Field.Rat
import Mathlib.Algebra.Order.Field.Basic
import Mathlib.Algebra.Order.Field.Power
import Mathlib.Tactic.Linarith
import Mathlib.Tactic.Positivity
import Mathlib.Tactic.FieldSimp
import Mathlib.Tactic.Ring

/-! # Floating-point rounding

What the operations of `float` and `double` do to a number that is neither too large nor too small: the nearest number with 24
(or 53) significant bits, ties to the even one (IEEE 754, the default rounding mode).  Exponents are not bounded here; in the
code that uses this, numbers are 0 or between 2⁻¹⁰⁰ and 2¹⁰⁰, so neither overflow nor underflow can happen. -/
namespace Verif.Fl

/-- The nearest integer, ties to the even one. -/
def rne (x : ℚ) : ℤ :=
  if x - ⌊x⌋ < 1 / 2 then ⌊x⌋ else if 1 / 2 < x - ⌊x⌋ then ⌊x⌋ + 1 else if ⌊x⌋ % 2 = 0 then ⌊x⌋ else ⌊x⌋ + 1

/-- The result of an operation whose exact value is `q`, with `p` significant bits. -/
def rnd (p : ℕ) (q : ℚ) : ℚ :=
  if q = 0 then 0 else rne (q / 2 ^ (Int.log 2 |q| + 1 - p)) * 2 ^ (Int.log 2 |q| + 1 - p)

/-- `float`. -/
def f32 : ℚ → ℚ := rnd 24

/-- `double`. -/
def f64 : ℚ → ℚ := rnd 53

/-! ## Specification of rounding -/

/-- A number with at most `p` significant bits. -/
def IsFloat (p : ℕ) (y : ℚ) : Prop := ∃ m k : ℤ, |m| < 2 ^ p ∧ y = m * 2 ^ k

/-! ## Integers -/

theorem floor_bounds (x : ℚ) : (⌊x⌋ : ℚ) ≤ x ∧ x < ⌊x⌋ + 1 := ⟨Int.floor_le x, Int.lt_floor_add_one x⟩

theorem rne_cases (x : ℚ) : (rne x = ⌊x⌋ ∧ x - ⌊x⌋ ≤ 1 / 2) ∨ (rne x = ⌊x⌋ + 1 ∧ 1 / 2 ≤ x - ⌊x⌋) := by
  unfold rne
  split_ifs with h1 h2 h3
  · exact Or.inl ⟨rfl, h1.le⟩
  · exact Or.inr ⟨rfl, h2.le⟩
  · exact Or.inl ⟨rfl, not_lt.1 h2⟩
  · exact Or.inr ⟨rfl, not_lt.1 h1⟩

theorem rne_err (x : ℚ) : |(rne x : ℚ) - x| ≤ 1 / 2 := by
  obtain ⟨f1, f2⟩ := floor_bounds x
  rw [abs_le]
  rcases rne_cases x with ⟨h, h'⟩ | ⟨h, h'⟩ <;> rw [h]
  · constructor <;> linarith
  · push_cast
    constructor <;> linarith

theorem rne_int (n : ℤ) : rne n = n := by
  unfold rne
  rw [Int.floor_intCast, sub_self, if_pos (by norm_num)]

theorem rne_mono {x y : ℚ} (h : x ≤ y) : rne x ≤ rne y := by
  rcases lt_or_eq_of_le (Int.floor_mono h) with hf | hf
  · have a : rne x ≤ ⌊x⌋ + 1 := by rcases rne_cases x with ⟨e, _⟩ | ⟨e, _⟩ <;> omega
    have b : ⌊y⌋ ≤ rne y := by rcases rne_cases y with ⟨e, _⟩ | ⟨e, _⟩ <;> omega
    omega
  · unfold rne
    rw [← hf]
    have h2 : x - ⌊x⌋ ≤ y - ⌊x⌋ := by linarith
    by_cases c1 : y - ⌊x⌋ < 1 / 2
    · rw [if_pos c1, if_pos (lt_of_le_of_lt h2 c1)]
    · by_cases c2 : 1 / 2 < x - ⌊x⌋
      · rw [if_neg c1, if_neg (not_lt.2 c2.le), if_pos c2, if_pos (lt_of_lt_of_le c2 h2)]
      · split_ifs <;> omega

/-- No integer is nearer. -/
theorem rne_nearest (x : ℚ) (n : ℤ) : |(rne x : ℚ) - x| ≤ |(n : ℚ) - x| := by
  by_cases h : n = rne x
  · rw [h]
  · have e := rne_err x
    rw [abs_le] at e
    have hc : n + 1 ≤ rne x ∨ rne x + 1 ≤ n := by omega
    have e' := rne_err x
    refine e'.trans ?_
    rcases hc with hc | hc
    · have : (n : ℚ) + 1 ≤ rne x := by exact_mod_cast hc
      rw [abs_of_nonpos (by linarith)]
      linarith
    · have : (rne x : ℚ) + 1 ≤ n := by exact_mod_cast hc
      rw [abs_of_nonneg (by linarith)]
      linarith

/-- If another integer is as near, the chosen one is even. -/
theorem rne_even (x : ℚ) (n : ℤ) (hn : n ≠ rne x) (h : |(n : ℚ) - x| = |(rne x : ℚ) - x|) : rne x % 2 = 0 := by
  obtain ⟨f1, f2⟩ := floor_bounds x
  have e := rne_err x
  have hhalf : x - ⌊x⌋ = 1 / 2 := by
    rw [← h, abs_le] at e
    have e1 := rne_err x
    rw [abs_le] at e1
    rcases rne_cases x with ⟨c, c'⟩ | ⟨c, c'⟩
    · rw [c] at h hn e1
      have : n = ⌊x⌋ + 1 := by
        have a : (n : ℚ) < ⌊x⌋ + 2 := by linarith
        have b : (⌊x⌋ : ℚ) - 1 < n := by
          by_contra hb
          push Not at hb
          linarith
        have a' : n < ⌊x⌋ + 2 := by exact_mod_cast a
        have b' : ⌊x⌋ - 1 < n := by exact_mod_cast b
        omega
      subst this
      rw [abs_of_nonneg (by push_cast; linarith), abs_of_nonpos (by linarith)] at h
      push_cast at h
      linarith
    · rw [c] at h hn e1
      have : n = ⌊x⌋ := by
        have a : (n : ℚ) < ⌊x⌋ + 2 := by linarith
        have b : (⌊x⌋ : ℚ) - 1 < n := by
          by_contra hb
          push Not at hb
          linarith
        have a' : n < ⌊x⌋ + 2 := by exact_mod_cast a
        have b' : ⌊x⌋ - 1 < n := by exact_mod_cast b
        omega
      subst this
      rw [abs_of_nonpos (by linarith), abs_of_nonneg (by push_cast; linarith)] at h
      push_cast at h
      linarith
  unfold rne
  rw [hhalf, if_neg (by norm_num), if_neg (by norm_num)]
  split_ifs with h2
  · exact h2
  · omega

/-! ## Numbers with `p` bits -/

theorem two_pow_pos (k : ℤ) : (0 : ℚ) < 2 ^ k := by positivity

/-- The position of a positive number among the powers of two. -/
theorem binade {q : ℚ} (h : 0 < q) : (2 : ℚ) ^ Int.log 2 |q| ≤ q ∧ q < 2 ^ (Int.log 2 |q| + 1) := by
  rw [abs_of_pos h]
  have a := Int.zpow_log_le_self (b := 2) (r := q) (by norm_num) h
  have b := Int.lt_zpow_succ_log_self (b := 2) (by norm_num) q
  exact ⟨by exact_mod_cast a, by exact_mod_cast b⟩

theorem rnd_zero (p : ℕ) : rnd p 0 = 0 := by simp [rnd]

/-- The significand is between `2^(p-1)` and `2^p`. -/
theorem significand {p : ℕ} (hp : 1 ≤ p) {q : ℚ} (h : 0 < q) :
    (((2 : ℤ) ^ (p - 1) : ℤ) : ℚ) ≤ q / 2 ^ (Int.log 2 |q| + 1 - p) ∧ q / 2 ^ (Int.log 2 |q| + 1 - p) < (((2 : ℤ) ^ p : ℤ) : ℚ) := by
  obtain ⟨b1, b2⟩ := binade h
  have e1 : (((2 : ℤ) ^ (p - 1) : ℤ) : ℚ) * 2 ^ (Int.log 2 |q| + 1 - p) = 2 ^ Int.log 2 |q| := by
    push_cast
    rw [← zpow_natCast, ← zpow_add₀ (by norm_num)]
    congr 1
    omega
  have e2 : (((2 : ℤ) ^ p : ℤ) : ℚ) * 2 ^ (Int.log 2 |q| + 1 - p) = 2 ^ (Int.log 2 |q| + 1) := by
    push_cast
    rw [← zpow_natCast, ← zpow_add₀ (by norm_num)]
    congr 1
    omega
  constructor
  · rw [le_div_iff₀ (two_pow_pos _), e1]
    exact b1
  · rw [div_lt_iff₀ (two_pow_pos _), e2]
    exact b2

theorem rnd_bounds {p : ℕ} (hp : 1 ≤ p) {q : ℚ} (h : 0 < q) :
    (2 : ℚ) ^ Int.log 2 |q| ≤ rnd p q ∧ rnd p q ≤ 2 ^ (Int.log 2 |q| + 1) := by
  obtain ⟨s1, s2⟩ := significand hp h
  have a := rne_mono s1
  have b := rne_mono s2.le
  rw [rne_int] at a b
  have a' : (((2 : ℤ) ^ (p - 1) : ℤ) : ℚ) ≤ rne (q / 2 ^ (Int.log 2 |q| + 1 - p)) := by exact_mod_cast a
  have b' : (rne (q / 2 ^ (Int.log 2 |q| + 1 - p)) : ℚ) ≤ (((2 : ℤ) ^ p : ℤ) : ℚ) := by exact_mod_cast b
  have e1 : (((2 : ℤ) ^ (p - 1) : ℤ) : ℚ) * 2 ^ (Int.log 2 |q| + 1 - p) = 2 ^ Int.log 2 |q| := by
    push_cast
    rw [← zpow_natCast, ← zpow_add₀ (by norm_num)]
    congr 1
    omega
  have e2 : (((2 : ℤ) ^ p : ℤ) : ℚ) * 2 ^ (Int.log 2 |q| + 1 - p) = 2 ^ (Int.log 2 |q| + 1) := by
    push_cast
    rw [← zpow_natCast, ← zpow_add₀ (by norm_num)]
    congr 1
    omega
  unfold rnd
  rw [if_neg h.ne']
  constructor
  · rw [← e1]
    exact mul_le_mul_of_nonneg_right a' (two_pow_pos _).le
  · rw [← e2]
    exact mul_le_mul_of_nonneg_right b' (two_pow_pos _).le

theorem rnd_pos {p : ℕ} (hp : 1 ≤ p) {q : ℚ} (h : 0 < q) : 0 < rnd p q := lt_of_lt_of_le (two_pow_pos _) (rnd_bounds hp h).1

theorem rnd_nonneg {p : ℕ} (hp : 1 ≤ p) {q : ℚ} (h : 0 ≤ q) : 0 ≤ rnd p q := by
  rcases h.eq_or_lt with rfl | h
  · rw [rnd_zero]
  · exact (rnd_pos hp h).le

/-- Rounding keeps the order. -/
theorem rnd_mono {p : ℕ} (hp : 1 ≤ p) {x y : ℚ} (hx : 0 ≤ x) (h : x ≤ y) : rnd p x ≤ rnd p y := by
  rcases hx.eq_or_lt with rfl | hx
  · rw [rnd_zero]
    exact rnd_nonneg hp h
  · have hy := lt_of_lt_of_le hx h
    have hl : Int.log 2 |x| ≤ Int.log 2 |y| := by
      rw [abs_of_pos hx, abs_of_pos hy]
      exact Int.log_mono_right hx h
    rcases hl.eq_or_lt with hl | hl
    · unfold rnd
      rw [if_neg hx.ne', if_neg hy.ne', hl]
      refine mul_le_mul_of_nonneg_right ?_ (two_pow_pos _).le
      exact_mod_cast rne_mono (div_le_div_of_nonneg_right h (two_pow_pos _).le)
    · refine (rnd_bounds hp hx).2.trans (le_trans ?_ (rnd_bounds hp hy).1)
      exact zpow_le_zpow_right₀ (by norm_num) (by omega)

/-- The result has at most `p` bits. -/
theorem rnd_float {p : ℕ} (hp : 1 ≤ p) {q : ℚ} (h : 0 ≤ q) : IsFloat p (rnd p q) := by
  rcases h.eq_or_lt with rfl | h
  · exact ⟨0, 0, by simp, by simp [rnd_zero]⟩
  · obtain ⟨s1, s2⟩ := significand hp h
    have a := rne_mono s1
    have b := rne_mono s2.le
    rw [rne_int] at a b
    have ha : (0 : ℤ) < 2 ^ (p - 1) := by positivity
    unfold rnd
    rw [if_neg h.ne']
    generalize rne (q / 2 ^ (Int.log 2 |q| + 1 - p)) = m at a b ⊢
    rcases b.eq_or_lt with b | b
    · refine ⟨1, p + (Int.log 2 |q| + 1 - p), ?_, ?_⟩
      · rw [abs_one]
        exact one_lt_pow₀ (by norm_num) (by omega)
      · rw [b, zpow_add₀ (by norm_num)]
        push_cast
        rw [zpow_natCast, one_mul]
    · exact ⟨m, _, by rw [abs_of_pos (by omega)]; exact b, rfl⟩

theorem farther {a q y : ℚ} (h : a ≤ q) (h' : y ≤ a) : |a - q| ≤ |y - q| := by
  rw [abs_of_nonpos (by linarith), abs_of_nonpos (by linarith)]
  linarith

/-- No number with at most `p` bits is nearer. -/
theorem rnd_nearest {p : ℕ} (hp : 1 ≤ p) {q : ℚ} (h : 0 < q) (y : ℚ) (hy : IsFloat p y) : |rnd p q - q| ≤ |y - q| := by
  obtain ⟨m, k, hm, rfl⟩ := hy
  obtain ⟨b1, b2⟩ := binade h
  obtain ⟨s1, s2⟩ := significand hp h
  have hz := two_pow_pos (Int.log 2 |q| + 1 - p)
  have grid : ∀ n : ℤ, |rnd p q - q| ≤ |(n : ℚ) * 2 ^ (Int.log 2 |q| + 1 - p) - q| := by
    intro n
    have e : ∀ z : ℤ, |(z : ℚ) * 2 ^ (Int.log 2 |q| + 1 - p) - q| =
        |(z : ℚ) - q / 2 ^ (Int.log 2 |q| + 1 - p)| * 2 ^ (Int.log 2 |q| + 1 - p) := by
      intro z
      rw [← abs_of_pos hz, ← abs_mul, abs_of_pos hz, sub_mul, div_mul_cancel₀ _ hz.ne']
    unfold rnd
    rw [if_neg h.ne', e, e]
    exact mul_le_mul_of_nonneg_right (rne_nearest _ n) hz.le
  by_cases hk : Int.log 2 |q| + 1 - p ≤ k
  · obtain ⟨j, rfl⟩ : ∃ j : ℕ, k = (Int.log 2 |q| + 1 - p) + j := ⟨(k - (Int.log 2 |q| + 1 - p)).toNat, by omega⟩
    have := grid (m * 2 ^ j)
    push_cast at this
    rw [zpow_add₀ (by norm_num), zpow_natCast, mul_comm ((2 : ℚ) ^ (Int.log 2 |q| + 1 - p)), ← mul_assoc]
    exact this
  · have hy : (m : ℚ) * 2 ^ k ≤ 2 ^ Int.log 2 |q| := by
      have h1 : (m : ℚ) ≤ 2 ^ (p : ℤ) := by
        rw [zpow_natCast]
        have := (abs_lt.1 hm).2.le
        exact_mod_cast this
      calc (m : ℚ) * 2 ^ k ≤ 2 ^ (p : ℤ) * 2 ^ k := mul_le_mul_of_nonneg_right h1 (two_pow_pos _).le
        _ = 2 ^ ((p : ℤ) + k) := (zpow_add₀ (by norm_num) _ _).symm
        _ ≤ 2 ^ Int.log 2 |q| := zpow_le_zpow_right₀ (by norm_num) (by omega)
    have := grid (2 ^ (p - 1))
    have e1 : (((2 : ℤ) ^ (p - 1) : ℤ) : ℚ) * 2 ^ (Int.log 2 |q| + 1 - p) = 2 ^ Int.log 2 |q| := by
      push_cast
      rw [← zpow_natCast, ← zpow_add₀ (by norm_num)]
      congr 1
      omega
    rw [e1] at this
    exact this.trans (farther b1 hy)

/-- Numbers with at most `p` bits are not changed. -/
theorem rnd_exact {p : ℕ} (hp : 1 ≤ p) {q : ℚ} (h : 0 ≤ q) (hq : IsFloat p q) : rnd p q = q := by
  rcases h.eq_or_lt with rfl | h
  · exact rnd_zero p
  · have := rnd_nearest hp h q hq
    rw [sub_self, abs_zero] at this
    have := abs_nonpos_iff.1 this
    linarith

theorem nat_float {p n : ℕ} (h : n < 2 ^ p) : IsFloat p n := ⟨n, 0, by rw [abs_of_nonneg (by positivity)]; exact_mod_cast h, by simp⟩

/-- The relative error of one rounding. -/
def ulp (p : ℕ) : ℚ := 1 / 2 ^ p

/-- `x` and `y` differ by at most `k` roundings. -/
def Near (p k : ℕ) (x y : ℚ) : Prop := x ≤ y * (1 + ulp p) ^ k ∧ y ≤ x * (1 + ulp p) ^ k

theorem ulp_pos (p : ℕ) : 0 < ulp p := by unfold ulp; positivity

theorem Near.refl (p : ℕ) (x : ℚ) : Near p 0 x x := by simp [Near]

theorem Near.symm {p k : ℕ} {x y : ℚ} (h : Near p k x y) : Near p k y x := ⟨h.2, h.1⟩

theorem grow (p : ℕ) {j k : ℕ} (h : j ≤ k) : (1 + ulp p) ^ j ≤ (1 + ulp p) ^ k := pow_le_pow_right₀ (by linarith [ulp_pos p]) h

theorem one_le_grow (p k : ℕ) : 1 ≤ (1 + ulp p) ^ k := one_le_pow₀ (by linarith [ulp_pos p])

theorem Near.mono {p j k : ℕ} {x y : ℚ} (hx : 0 ≤ x) (hy : 0 ≤ y) (h : Near p j x y) (hjk : j ≤ k) : Near p k x y :=
  ⟨h.1.trans (mul_le_mul_of_nonneg_left (grow p hjk) hy), h.2.trans (mul_le_mul_of_nonneg_left (grow p hjk) hx)⟩

theorem Near.trans {p j k : ℕ} {x y z : ℚ} (h : Near p j x y) (h' : Near p k y z) : Near p (j + k) x z := by
  have hj : (0 : ℚ) ≤ (1 + ulp p) ^ j := le_trans zero_le_one (one_le_grow p j)
  have hk : (0 : ℚ) ≤ (1 + ulp p) ^ k := le_trans zero_le_one (one_le_grow p k)
  constructor
  · calc x ≤ y * (1 + ulp p) ^ j := h.1
      _ ≤ z * (1 + ulp p) ^ k * (1 + ulp p) ^ j := mul_le_mul_of_nonneg_right h'.1 hj
      _ = z * (1 + ulp p) ^ (j + k) := by rw [pow_add]; ring
  · calc z ≤ y * (1 + ulp p) ^ k := h'.2
      _ ≤ x * (1 + ulp p) ^ j * (1 + ulp p) ^ k := mul_le_mul_of_nonneg_right h.2 hk
      _ = x * (1 + ulp p) ^ (j + k) := by rw [pow_add]; ring

theorem Near.add {p k : ℕ} {x y x' y' : ℚ} (h : Near p k x y) (h' : Near p k x' y') : Near p k (x + x') (y + y') :=
  ⟨by rw [add_mul]; exact add_le_add h.1 h'.1, by rw [add_mul]; exact add_le_add h.2 h'.2⟩

theorem Near.mul_left {p k : ℕ} {x y : ℚ} (c : ℚ) (hc : 0 ≤ c) (h : Near p k x y) : Near p k (c * x) (c * y) :=
  ⟨by rw [mul_assoc]; exact mul_le_mul_of_nonneg_left h.1 hc, by rw [mul_assoc]; exact mul_le_mul_of_nonneg_left h.2 hc⟩

theorem Near.inv {p k : ℕ} {x y : ℚ} (hx : 0 < x) (hy : 0 < y) (h : Near p k x y) : Near p k x⁻¹ y⁻¹ := by
  have hk : (0 : ℚ) < (1 + ulp p) ^ k := lt_of_lt_of_le zero_lt_one (one_le_grow p k)
  constructor
  · rw [inv_le_iff_one_le_mul₀ hx]
    have := h.2
    calc (1 : ℚ) = y⁻¹ * y := (inv_mul_cancel₀ hy.ne').symm
      _ ≤ y⁻¹ * (x * (1 + ulp p) ^ k) := mul_le_mul_of_nonneg_left this (inv_nonneg.2 hy.le)
      _ = _ := by ring
  · rw [inv_le_iff_one_le_mul₀ hy]
    have := h.1
    calc (1 : ℚ) = x⁻¹ * x := (inv_mul_cancel₀ hx.ne').symm
      _ ≤ x⁻¹ * (y * (1 + ulp p) ^ k) := mul_le_mul_of_nonneg_left this (inv_nonneg.2 hx.le)
      _ = _ := by ring

theorem Near.mul {p j k : ℕ} {x y x' y' : ℚ} (hx' : 0 ≤ x') (hy : 0 ≤ y) (h : Near p j x y) (h' : Near p k x' y') :
    Near p (j + k) (x * x') (y * y') := by
  have a : Near p j (x * x') (y * x') := by
    have := h.mul_left x' hx'
    rwa [mul_comm x', mul_comm x'] at this
  exact a.trans (h'.mul_left y hy)

theorem Near.div {p j k : ℕ} {x y x' y' : ℚ} (hx' : 0 < x') (hy' : 0 < y') (hy : 0 ≤ y) (h : Near p j x y) (h' : Near p k x' y') :
    Near p (j + k) (x / x') (y / y') := by
  rw [div_eq_mul_inv, div_eq_mul_inv]
  exact h.mul (inv_nonneg.2 hx'.le) hy (h'.inv hx' hy')

theorem Near.min {p k : ℕ} {x y x' y' : ℚ} (h : Near p k x y) (h' : Near p k x' y') : Near p k (min x x') (min y y') := by
  have hk : (0 : ℚ) ≤ (1 + ulp p) ^ k := le_trans zero_le_one (one_le_grow p k)
  constructor
  · rw [min_mul_of_nonneg _ _ hk]
    exact min_le_min h.1 h'.1
  · rw [min_mul_of_nonneg _ _ hk]
    exact min_le_min h.2 h'.2

/-- One rounding. -/
theorem rnd_near {p : ℕ} (hp : 2 ≤ p) {q : ℚ} (h : 0 ≤ q) : Near p 1 (rnd p q) q := by
  rcases h.eq_or_lt with rfl | h
  · rw [rnd_zero]
    simp [Near]
  · obtain ⟨s1, _⟩ := significand (by omega : 1 ≤ p) h
    have hz := two_pow_pos (Int.log 2 |q| + 1 - p)
    have hq : q = q / 2 ^ (Int.log 2 |q| + 1 - p) * 2 ^ (Int.log 2 |q| + 1 - p) := (div_mul_cancel₀ _ hz.ne').symm
    have hr : rnd p q = rne (q / 2 ^ (Int.log 2 |q| + 1 - p)) * 2 ^ (Int.log 2 |q| + 1 - p) := by
      unfold rnd
      rw [if_neg h.ne']
    generalize q / 2 ^ (Int.log 2 |q| + 1 - p) = m at s1 hq hr
    generalize (2 : ℚ) ^ (Int.log 2 |q| + 1 - p) = z at hz hq hr
    have e := rne_err m
    rw [abs_le] at e
    have hu : (((2 : ℤ) ^ (p - 1) : ℤ) : ℚ) * ulp p = 1 / 2 := by
      unfold ulp
      obtain ⟨j, rfl⟩ : ∃ j, p = j + 1 := ⟨p - 1, by omega⟩
      rw [Nat.add_sub_cancel, pow_succ]
      push_cast
      field_simp
    have hup := ulp_pos p
    have hm : (1 : ℚ) / 2 ≤ m * ulp p := by
      rw [← hu]
      exact mul_le_mul_of_nonneg_right s1 hup.le
    have key : (rne m : ℚ) ≤ m * (1 + ulp p) ∧ m ≤ rne m * (1 + ulp p) := by
      constructor
      · linarith [e.2]
      · have hr := rne_mono s1
        rw [rne_int] at hr
        have hr' : (((2 : ℤ) ^ (p - 1) : ℤ) : ℚ) ≤ rne m := by exact_mod_cast hr
        have : (1 : ℚ) / 2 ≤ rne m * ulp p := by
          rw [← hu]
          exact mul_le_mul_of_nonneg_right hr' hup.le
        linarith [e.1]
    rw [hr, hq]
    unfold Near
    rw [pow_one]
    constructor
    · have := mul_le_mul_of_nonneg_right key.1 hz.le
      linarith
    · have := mul_le_mul_of_nonneg_right key.2 hz.le
      linarith

/-- An operation on numbers that are themselves rounded. -/
theorem Near.round {p k : ℕ} (hp : 2 ≤ p) {x y : ℚ} (hx : 0 ≤ x) (h : Near p k x y) : Near p (k + 1) (rnd p x) y := by
  rw [Nat.add_comm]
  exact (rnd_near hp hx).trans h

end Verif.Fl

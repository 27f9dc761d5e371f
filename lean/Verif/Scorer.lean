import Mathlib.Algebra.Order.Field.Rat
import Mathlib.Tactic.Linarith
import Mathlib.Tactic.Positivity
import Mathlib.Tactic.FieldSimp

/-! # C34: edge scores of the Propeller layout (llvm_propeller_code_layout_scorer.cc:25-54)

`double` is modelled by exact rationals; the products `weight * …_weight` are `int * uint32_t` and
therefore computed modulo 2^32, as in the code.  The `int` distance does not overflow. -/
namespace Verif.Scorer

/-- `CFGEdge::Kind` (llvm_propeller_cfg.h:36-40). -/
inductive Kind where
  | branchOrFallthrough | call | ret
deriving DecidableEq

/-- What the scorer needs of an edge: kind, weight, sizes of source and sink block. -/
structure Edge where
  kind : Kind
  weight : Nat
  srcSize : Nat
  sinkSize : Nat

/-- `PropellerCodeLayoutParameters` (llvm_propeller_options.proto:82-86): `uint32` fields. -/
structure Params where
  fallthroughWeight : Nat
  forwardWeight : Nat
  backwardWeight : Nat
  forwardDistance : Nat
  backwardDistance : Nat

/-- The defaults (llvm_propeller_options.proto:82-86). -/
def defaults : Params := ⟨10, 1, 1, 1024, 680⟩

/-- `int * uint32_t`. -/
def mul32 (a b : Nat) : Nat := a * b % 4294967296

/-- Distance adjusted to the middle of the calling block (scorer.cc:29-31). -/
def adjust (e : Edge) (d : Int) : Int :=
  (if e.kind = .call then d + e.srcSize / 2 else d) + (if e.kind = .ret then e.sinkSize / 2 else 0 : Nat)

/-- `GetEdgeScore` after the adjustment (scorer.cc:33-50). -/
def scoreAt (p : Params) (e : Edge) (d : Int) : ℚ :=
  if d = 0 ∧ e.kind = .branchOrFallthrough then (mul32 e.weight p.fallthroughWeight : ℚ)
  else if d > 0 ∧ d.natAbs < p.forwardDistance then
    (mul32 e.weight p.forwardWeight : ℚ) * (1 - (d.natAbs : ℚ) / p.forwardDistance)
  else if d < 0 ∧ d.natAbs < p.backwardDistance then
    (mul32 e.weight p.backwardWeight : ℚ) * (1 - (d.natAbs : ℚ) / p.backwardDistance)
  else 0

/-- `PropellerCodeLayoutScorer::GetEdgeScore` (scorer.cc:25-51). -/
def edgeScore (p : Params) (e : Edge) (d : Int) : ℚ := scoreAt p e (adjust e d)

/-- No 32-bit overflow of the weight products. -/
def NoOverflow (p : Params) (e : Edge) : Prop :=
  e.weight * p.fallthroughWeight < 4294967296 ∧ e.weight * p.forwardWeight < 4294967296 ∧
    e.weight * p.backwardWeight < 4294967296

theorem decay_bounds {n w : Nat} (h : n < w) : 0 ≤ (1 - (n : ℚ) / w) ∧ (1 - (n : ℚ) / w) ≤ 1 := by
  have hw : (0 : ℚ) < w := by exact_mod_cast (by omega : 0 < w)
  have h1 : (n : ℚ) / w ≤ 1 := by
    rw [div_le_one hw]; exact_mod_cast (by omega : n ≤ w)
  have h0 : 0 ≤ (n : ℚ) / w := by positivity
  constructor <;> linarith

theorem mul32_le (a b : Nat) : mul32 a b ≤ a * b := Nat.mod_le _ _

/-- **C34, bounds.** A score is nonnegative and at most the weight times the largest of the three
configured weights. -/
theorem score_bounds (p : Params) (e : Edge) (d : Int) :
    0 ≤ edgeScore p e d ∧
    edgeScore p e d ≤ (e.weight * max p.fallthroughWeight (max p.forwardWeight p.backwardWeight) : ℕ) := by
  unfold edgeScore
  generalize adjust e d = d
  have key : ∀ x y : Nat, x ≤ y → ∀ q : ℚ, 0 ≤ q ∧ q ≤ 1 →
      0 ≤ (mul32 e.weight x : ℚ) * q ∧ (mul32 e.weight x : ℚ) * q ≤ ((e.weight * y : ℕ) : ℚ) := by
    intro x y hxy q hq
    have h1 : (mul32 e.weight x : ℚ) ≤ ((e.weight * y : ℕ) : ℚ) := by
      exact_mod_cast le_trans (mul32_le _ _) (Nat.mul_le_mul_left _ hxy)
    have h0 : (0 : ℚ) ≤ (mul32 e.weight x : ℚ) := by positivity
    refine ⟨mul_nonneg h0 hq.1, ?_⟩
    calc (mul32 e.weight x : ℚ) * q ≤ (mul32 e.weight x : ℚ) * 1 := mul_le_mul_of_nonneg_left hq.2 h0
      _ ≤ _ := by rw [mul_one]; exact h1
  unfold scoreAt
  split
  · have := key p.fallthroughWeight _ (le_max_left _ (max p.forwardWeight p.backwardWeight)) 1
      ⟨by norm_num, le_refl _⟩
    rw [mul_one] at this
    exact this
  · split
    · rename_i h
      exact key _ _ (le_trans (le_max_left _ _) (le_max_right _ _)) _ (decay_bounds h.2)
    · split
      · rename_i h
        exact key _ _ (le_trans (le_max_right _ _) (le_max_right _ _)) _ (decay_bounds h.2)
      · exact ⟨le_refl _, by positivity⟩

/-- **C34, a fallthrough is best.** When the fallthrough weight is the largest (as by default) and the
products do not overflow 32 bits, no position of the sink gives a higher score than directly after the
source. -/
theorem fallthrough_is_best_partial (p : Params) (e : Edge) (hk : e.kind = .branchOrFallthrough)
    (hf : p.forwardWeight ≤ p.fallthroughWeight) (hb : p.backwardWeight ≤ p.fallthroughWeight)
    (ho : NoOverflow p e) (d : Int) : edgeScore p e d ≤ edgeScore p e 0 := by
  have h0 : edgeScore p e 0 = ((e.weight * p.fallthroughWeight : ℕ) : ℚ) := by
    unfold edgeScore scoreAt adjust
    simp only [hk]
    simp [mul32, Nat.mod_eq_of_lt ho.1]
  rw [h0]
  have := (score_bounds p e d).2
  rwa [max_eq_left (max_le hf hb)] at this

/-- **C34, exact score** (without overflow): only a branch or fallthrough at distance zero gets the fallthrough weight;
otherwise the score decays linearly with the distance, to zero at the forward or backward bound. The distance of a call is
counted from the middle of its block, that of a return to the middle of its sink. -/
theorem score_value (p : Params) (e : Edge) (ho : NoOverflow p e) (d d' : Int)
    (hd : d' = d + (match e.kind with
      | .branchOrFallthrough => 0
      | .call => ((e.srcSize / 2 : Nat) : Int)
      | .ret => ((e.sinkSize / 2 : Nat) : Int))) :
    (d' = 0 → e.kind = .branchOrFallthrough → edgeScore p e d = (e.weight * p.fallthroughWeight : ℕ)) ∧
    (d' = 0 → e.kind ≠ .branchOrFallthrough → edgeScore p e d = 0) ∧
    (0 < d' → d' < p.forwardDistance →
      edgeScore p e d = (e.weight * p.forwardWeight : ℕ) * (1 - (d' : ℚ) / p.forwardDistance)) ∧
    ((p.forwardDistance : Int) ≤ d' → d' ≠ 0 → edgeScore p e d = 0) ∧
    (d' < 0 → -d' < p.backwardDistance →
      edgeScore p e d = (e.weight * p.backwardWeight : ℕ) * (1 - ((-d' : Int) : ℚ) / p.backwardDistance)) ∧
    (d' ≤ -(p.backwardDistance : Int) → d' ≠ 0 → edgeScore p e d = 0) := by
  have ha : adjust e d = d' := by
    rw [hd]; unfold adjust
    cases hk : e.kind <;> simp
  have hm : ∀ x, e.weight * x < 4294967296 → mul32 e.weight x = e.weight * x := fun x h => Nat.mod_eq_of_lt h
  unfold edgeScore
  rw [ha]
  unfold scoreAt
  rw [hm _ ho.1, hm _ ho.2.1, hm _ ho.2.2]
  refine ⟨?_, ?_, ?_, ?_, ?_, ?_⟩
  · intro h0 hk; rw [if_pos ⟨h0, hk⟩]
  · intro h0 hk
    rw [if_neg (fun h => hk h.2), if_neg (by omega), if_neg (by omega)]
  · intro h1 h2
    rw [if_neg (by omega), if_pos ⟨h1, by omega⟩]
    have : ((d'.natAbs : ℕ) : ℚ) = (d' : ℚ) := by
      have : ((d'.natAbs : ℕ) : ℤ) = d' := by omega
      exact (Int.cast_natCast (R := ℚ) _).symm.trans (congrArg (Int.cast : ℤ → ℚ) this)
    rw [this]
  · intro h1 h2
    rw [if_neg (fun h => h2 h.1), if_neg (by omega), if_neg (by omega)]
  · intro h1 h2
    rw [if_neg (by omega), if_neg (by omega), if_pos ⟨h1, by omega⟩]
    have : ((d'.natAbs : ℕ) : ℚ) = ((-d' : Int) : ℚ) := by
      have : ((d'.natAbs : ℕ) : ℤ) = -d' := by omega
      exact (Int.cast_natCast (R := ℚ) _).symm.trans (congrArg (Int.cast : ℤ → ℚ) this)
    rw [this]
  · intro h1 h2
    rw [if_neg (fun h => h2 h.1), if_neg (by omega), if_neg (by omega)]

/-- C34, without the overflow hypothesis: with the default weights an edge of weight 429496730 scores
4 as a fallthrough and more than 400 million as a short forward jump. -/
theorem fallthrough_is_best_violated :
    edgeScore defaults ⟨.branchOrFallthrough, 429496730, 8, 8⟩ 0 = 4 ∧
    edgeScore defaults ⟨.branchOrFallthrough, 429496730, 8, 8⟩ 16 > 400000000 := by
  decide +kernel

theorem decay_antitone {n m w : Nat} (h : n ≤ m) (hw : m < w) :
    (1 - (m : ℚ) / w) ≤ (1 - (n : ℚ) / w) := by
  have hw' : (0 : ℚ) < w := by exact_mod_cast (by omega : 0 < w)
  have : (n : ℚ) / w ≤ (m : ℚ) / w := by
    apply div_le_div_of_nonneg_right _ hw'.le
    exact_mod_cast h
  linarith

/-- **C34, monotone.** In a fixed direction the score does not increase with the (adjusted) distance. -/
theorem score_antitone (p : Params) (e : Edge) (d1 d2 : Int)
    (h : (0 < adjust e d1 ∧ adjust e d1 ≤ adjust e d2) ∨
      (adjust e d1 < 0 ∧ adjust e d2 ≤ adjust e d1)) :
    edgeScore p e d2 ≤ edgeScore p e d1 := by
  unfold edgeScore
  revert h
  generalize adjust e d1 = a
  generalize adjust e d2 = b
  intro h
  have hnn : 0 ≤ scoreAt p e a := by
    unfold scoreAt
    split
    · positivity
    · split
      · rename_i h; exact mul_nonneg (by positivity) (decay_bounds h.2).1
      · split
        · rename_i h; exact mul_nonneg (by positivity) (decay_bounds h.2).1
        · exact le_refl _
  rcases h with ⟨h1, h2⟩ | ⟨h1, h2⟩
  · by_cases hb : b.natAbs < p.forwardDistance
    · have ha : a.natAbs < p.forwardDistance := by omega
      have eb : scoreAt p e b = (mul32 e.weight p.forwardWeight : ℚ) *
          (1 - (b.natAbs : ℚ) / p.forwardDistance) := by
        unfold scoreAt; rw [if_neg (by omega), if_pos ⟨by omega, hb⟩]
      have ea : scoreAt p e a = (mul32 e.weight p.forwardWeight : ℚ) *
          (1 - (a.natAbs : ℚ) / p.forwardDistance) := by
        unfold scoreAt; rw [if_neg (by omega), if_pos ⟨by omega, ha⟩]
      rw [ea, eb]
      exact mul_le_mul_of_nonneg_left (decay_antitone (by omega) hb) (by positivity)
    · have eb : scoreAt p e b = 0 := by
        unfold scoreAt; rw [if_neg (by omega), if_neg (by omega), if_neg (by omega)]
      rw [eb]; exact hnn
  · by_cases hb : b.natAbs < p.backwardDistance
    · have ha : a.natAbs < p.backwardDistance := by omega
      have eb : scoreAt p e b = (mul32 e.weight p.backwardWeight : ℚ) *
          (1 - (b.natAbs : ℚ) / p.backwardDistance) := by
        unfold scoreAt; rw [if_neg (by omega), if_neg (by omega), if_pos ⟨by omega, hb⟩]
      have ea : scoreAt p e a = (mul32 e.weight p.backwardWeight : ℚ) *
          (1 - (a.natAbs : ℚ) / p.backwardDistance) := by
        unfold scoreAt; rw [if_neg (by omega), if_neg (by omega), if_pos ⟨by omega, ha⟩]
      rw [ea, eb]
      exact mul_le_mul_of_nonneg_left (decay_antitone (by omega) hb) (by positivity)
    · have eb : scoreAt p e b = 0 := by
        unfold scoreAt; rw [if_neg (by omega), if_neg (by omega), if_neg (by omega)]
      rw [eb]; exact hnn

/-- Case: a branch of weight 100 with the default parameters. -/
example : edgeScore defaults ⟨.branchOrFallthrough, 100, 8, 8⟩ 0 = 1000 ∧
    edgeScore defaults ⟨.branchOrFallthrough, 100, 8, 8⟩ 512 = 50 ∧
    edgeScore defaults ⟨.branchOrFallthrough, 100, 8, 8⟩ (-340) = 50 ∧
    edgeScore defaults ⟨.call, 100, 8, 8⟩ 0 = 100 * (1 - 4 / 1024) := by
  decide +kernel

end Verif.Scorer

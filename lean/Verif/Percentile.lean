import Verif.Sort
import Mathlib.Data.List.Sort
import Mathlib.Order.Nat

/-! # C35: node frequency threshold (llvm_propeller_program_cfg.cc:44-83) -/
namespace Verif.Percentile
open Verif

/-- The frequencies of the hot nodes of all functions (program_cfg.cc:53-66), in the arbitrary order
of the hash map. -/
def hot (freqs : List (List Nat)) : List Nat := freqs.flatten.filter (· ≠ 0)

/-- `GetNodeFrequencyThreshold` (program_cfg.cc:44-83).  `nth_element` leaves the element that would be
at `cutoff_index` after sorting (ties between equal frequencies do not matter for the result).
`none`: a `CHECK` fails. -/
def threshold (freqs : List (List Nat)) (percentile : Int) : Option Nat :=
  if percentile ≤ 100 ∧ percentile ≥ 0 then
    let hs := hot freqs
    if hs = [] then some 0
    else
      let cutoff : Int := (hs.length * percentile.toNat / 100 : Nat) - 1
      if cutoff < 0 then some 0
      else (isort (fun a b => decide (a ≤ b)) hs)[cutoff.toNat]?
  else none

theorem sorted_isort (l : List Nat) : (isort (fun a b => decide (a ≤ b)) l).Pairwise (· ≤ ·) := by
  have := pairwise_isort (le := fun a b : Nat => decide (a ≤ b)) (by intro a b c; simp; omega)
    (by intro a b; simp; omega) l
  exact this.imp (by simp)

theorem count_sorted (l : List Nat) (h : l.Pairwise (· ≤ ·)) (i : Nat) (hi : i < l.length) :
    i + 1 ≤ (l.filter (fun x => decide (x ≤ l[i]))).length ∧
    (l.filter (fun x => decide (x < l[i]))).length ≤ i := by
  constructor
  · have hsub : List.Sublist (l.take (i + 1)) (l.filter (fun x => decide (x ≤ l[i]))) := by
      have h1 : (l.take (i + 1)).filter (fun x => decide (x ≤ l[i])) = l.take (i + 1) := by
        rw [List.filter_eq_self]
        intro a ha
        rw [List.mem_take_iff_getElem] at ha
        obtain ⟨j, hj, rfl⟩ := ha
        simp only [decide_eq_true_eq]
        by_cases hji : j = i
        · subst hji; exact le_refl _
        · exact List.pairwise_iff_getElem.1 h j i (by omega) hi (by omega)
      rw [← h1]
      exact (List.take_sublist _ _).filter _
    have := hsub.length_le
    rw [List.length_take] at this
    omega
  · have e : l = l.take i ++ l.drop i := (List.take_append_drop i l).symm
    have h2 : (l.drop i).filter (fun x => decide (x < l[i])) = [] := by
      rw [List.filter_eq_nil_iff]
      intro a ha
      rw [List.mem_drop_iff_getElem] at ha
      obtain ⟨j, hj, rfl⟩ := ha
      simp only [decide_eq_true_eq, not_lt]
      by_cases hji : j = 0
      · subst hji; simp
      · exact List.pairwise_iff_getElem.1 h i (i + j) hi (by omega) (by omega)
    calc (l.filter (fun x => decide (x < l[i]))).length
        = ((l.take i ++ l.drop i).filter (fun x => decide (x < l[i]))).length := by
          rw [List.take_append_drop]
      _ = ((l.take i).filter (fun x => decide (x < l[i]))).length := by
          rw [List.filter_append, h2, List.append_nil]
      _ ≤ (l.take i).length := List.length_filter_le _ _
      _ ≤ i := by rw [List.length_take]; omega

/-- **C35, rank** for the model's list of hot nodes. See `threshold_rank`. With `n` hot nodes and percentile `p`, let `k = ⌊n·p/100⌋`.  If `k = 0` (in particular
if there are no hot nodes) the threshold is 0.  Otherwise it is a frequency `f` of a hot node such that
at least `k` hot nodes have frequency at most `f` and fewer than `k` have a smaller one: the `k`-th
smallest frequency. -/
theorem threshold_rank_hot (freqs : List (List Nat)) (p : Nat) (hp : p ≤ 100) :
    ∃ f, threshold freqs p = some f ∧
      ((hot freqs).length * p / 100 = 0 → f = 0) ∧
      ((hot freqs).length * p / 100 ≠ 0 → f ∈ hot freqs ∧
        (hot freqs).length * p / 100 ≤ ((hot freqs).filter (fun x => decide (x ≤ f))).length ∧
        ((hot freqs).filter (fun x => decide (x < f))).length < (hot freqs).length * p / 100) := by
  unfold threshold
  rw [if_pos ⟨by omega, by omega⟩]
  simp only [Int.toNat_natCast]
  by_cases he : hot freqs = []
  · rw [if_pos he]
    exact ⟨0, rfl, fun _ => rfl, fun h => absurd (by simp [he]) h⟩
  · rw [if_neg he]
    by_cases hk : (hot freqs).length * p / 100 = 0
    · rw [if_pos (by omega)]
      exact ⟨0, rfl, fun _ => rfl, fun h => absurd hk h⟩
    · rw [if_neg (by omega)]
      have hperm := isort_perm (fun a b : Nat => decide (a ≤ b)) (hot freqs)
      have hlen : (isort (fun a b : Nat => decide (a ≤ b)) (hot freqs)).length = (hot freqs).length :=
        hperm.length_eq
      have hle : (hot freqs).length * p / 100 ≤ (hot freqs).length := by
        apply Nat.div_le_of_le_mul
        rw [Nat.mul_comm 100]
        exact Nat.mul_le_mul_left _ hp
      generalize hkk : (hot freqs).length * p / 100 = k at hk hle ⊢
      have hi : ((k : Int) - 1).toNat = k - 1 := by omega
      rw [hi]
      have hlt : k - 1 < (isort (fun a b : Nat => decide (a ≤ b)) (hot freqs)).length := by omega
      refine ⟨_, List.getElem?_eq_getElem hlt, fun h => absurd h hk, fun _ => ?_⟩
      obtain ⟨c1, c2⟩ := count_sorted _ (sorted_isort (hot freqs)) (k - 1) hlt
      rw [(hperm.filter _).length_eq] at c1 c2
      refine ⟨hperm.mem_iff.1 (List.getElem_mem hlt), by omega, by omega⟩

/-- **C35, rank.** The hot nodes are those with a nonzero frequency. With `n` of them and percentile `p`, let
`k = ⌊n·p/100⌋`.  If `k = 0` the threshold is 0.  Otherwise it is the `k`-th smallest frequency: a frequency `f` of a hot
node such that at least `k` hot nodes have frequency at most `f` and fewer than `k` have a smaller one. -/
theorem threshold_rank (freqs : List (List Nat)) (p : Nat) (hp : p ≤ 100) (hs : List Nat)
    (hhs : hs.Perm (freqs.flatten.filter fun x => decide (0 < x))) :
    ∃ f, threshold freqs p = some f ∧
      (hs.length * p / 100 = 0 → f = 0) ∧
      (hs.length * p / 100 ≠ 0 → f ∈ hs ∧
        hs.length * p / 100 ≤ (hs.filter (fun x => decide (x ≤ f))).length ∧
        (hs.filter (fun x => decide (x < f))).length < hs.length * p / 100) := by
  have he : (freqs.flatten.filter fun x => decide (0 < x)) = hot freqs := by
    unfold hot
    apply List.filter_congr
    intro x _
    simp [Nat.pos_iff_ne_zero]
  rw [he] at hhs
  obtain ⟨f, h1, h2, h3⟩ := threshold_rank_hot freqs p hp
  refine ⟨f, h1, ?_, ?_⟩
  · rw [hhs.length_eq]; exact h2
  · rw [hhs.length_eq, hhs.mem_iff, (hhs.filter _).length_eq, (hhs.filter _).length_eq]; exact h3

/-- **C35, monotone** in the percentile. -/
theorem threshold_monotone (freqs : List (List Nat)) (p q : Nat) (hpq : p ≤ q) (hq : q ≤ 100)
    (f g : Nat) (hf : threshold freqs p = some f) (hg : threshold freqs q = some g) : f ≤ g := by
  obtain ⟨f', e1, z1, r1⟩ := threshold_rank_hot freqs p (by omega)
  obtain ⟨g', e2, z2, r2⟩ := threshold_rank_hot freqs q hq
  rw [hf] at e1; cases e1
  rw [hg] at e2; cases e2
  have hk : (hot freqs).length * p / 100 ≤ (hot freqs).length * q / 100 :=
    Nat.div_le_div_right (Nat.mul_le_mul_left _ hpq)
  by_cases h0 : (hot freqs).length * p / 100 = 0
  · rw [z1 h0]; exact Nat.zero_le _
  · obtain ⟨_, a1, a2⟩ := r1 h0
    obtain ⟨_, b1, b2⟩ := r2 (by omega)
    by_contra hlt
    have : ((hot freqs).filter (fun x => decide (x ≤ g))).length ≤
        ((hot freqs).filter (fun x => decide (x < f))).length := by
      apply List.Sublist.length_le
      apply List.monotone_filter_right
      intro x hx
      simp only [decide_eq_true_eq] at hx ⊢
      omega
    omega

/-- C35: percentiles outside 0..100 are rejected. -/
theorem threshold_rejects (freqs : List (List Nat)) (p : Int) (h : p < 0 ∨ 100 < p) :
    threshold freqs p = none := by
  unfold threshold; rw [if_neg (by omega)]

example : threshold [[5, 0, 7], [1, 9, 0, 3]] 60 = some 5 ∧ threshold [[5, 0, 7], [1, 9, 0, 3]] 100 = some 9
    ∧ threshold [[5, 0, 7], [1, 9, 0, 3]] 10 = some 0 := by decide +kernel

end Verif.Percentile

import Mathlib.Tactic.Ring
import Mathlib.Tactic.ByContra
import Mathlib.Algebra.Order.Ring.Nat
import Mathlib.Tactic.Linarith

/-! # C37: progress reporting (status_provider.{h,cc})

Simplifications: weights and progress values are natural numbers (the code uses `int`; negative weights or
progress values are never set in the repository), and the `float` expression of `GetProgress` is evaluated
exactly before the truncation to `int`, i.e. floating-point rounding is not modelled. -/
namespace Verif.Progress

mutual
/-- A status provider: a `DefaultStatusProvider` with its `progress_` (status_provider.h:28-49) or a
`MultiStatusProvider` with weighted parts (status_provider.h:62-112), nested to any depth. -/
inductive Status where
  | leaf (progress : Nat)
  | multi (parts : Parts)
/-- `weighted_statuses_` (status_provider.h:110). -/
inductive Parts where
  | nil
  | cons (weight : Nat) (s : Status) (rest : Parts)
end

/-- `total_weight_` (status_provider.h:91-92, 111). -/
def Parts.total : Parts → Nat
  | .nil => 0
  | .cons w _ ps => w + ps.total

mutual
/-- `IsDone` (status_provider.h:41, 77-79, 99-106). -/
def Status.isDone : Status → Bool
  | .leaf p => decide (100 ≤ p)
  | .multi ps => ps.allDone
/-- No part is still working (`FindWorkingStatusProvider() == nullptr`). -/
def Parts.allDone : Parts → Bool
  | .nil => true
  | .cons _ s ps => s.isDone && ps.allDone
end

mutual
/-- `GetProgress` (status_provider.h:40; status_provider.cc:16-30). -/
def Status.progress : Status → Nat
  | .leaf p => p
  | .multi ps => if ps.total = 0 then 100 else ps.scan ps.total 0
/-- The loop over finished parts and the final expression (status_provider.cc:19-29); `finished` is
`finished_weight`. -/
def Parts.scan (total : Nat) : Parts → Nat → Nat
  | .nil, _ => 100
  | .cons w s ps, finished =>
    if s.isDone then ps.scan total (finished + w)
    else (100 * finished + w * s.progress) / total
end

mutual
/-- `SetDone` (status_provider.h:44, 81-83). -/
def Status.setDone : Status → Status
  | .leaf _ => .leaf 100
  | .multi ps => .multi ps.setDone
/-- `SetDone` on every part. -/
def Parts.setDone : Parts → Parts
  | .nil => .nil
  | .cons w s ps => .cons w s.setDone ps.setDone
end

/-! ## Specification -/

mutual
/-- The progress values of all elementary jobs. -/
def Status.leaves : Status → List Nat
  | .leaf p => [p]
  | .multi ps => ps.leaves
def Parts.leaves : Parts → List Nat
  | .nil => []
  | .cons _ s ps => s.leaves ++ ps.leaves
end

mutual
/-- `s'` is `s` with some elementary jobs further advanced. -/
inductive Status.Le : Status → Status → Prop
  | leaf {p q} : p ≤ q → Status.Le (.leaf p) (.leaf q)
  | multi {ps qs} : Parts.Le ps qs → Status.Le (.multi ps) (.multi qs)
inductive Parts.Le : Parts → Parts → Prop
  | nil : Parts.Le .nil .nil
  | cons {w s s' ps qs} : Status.Le s s' → Parts.Le ps qs → Parts.Le (.cons w s ps) (.cons w s' qs)
end

/-- The parts with their weights. -/
def Parts.toList : Parts → List (Nat × Status)
  | .nil => []
  | .cons w s ps => (w, s) :: ps.toList

mutual
/-- All weights, at every level, are positive. -/
def Status.posWeights : Status → Prop
  | .leaf _ => True
  | .multi ps => ps.posWeights
def Parts.posWeights : Parts → Prop
  | .nil => True
  | .cons w s ps => 0 < w ∧ s.posWeights ∧ ps.posWeights
end

/-! ## Proofs -/

mutual
theorem Status.done_iff : ∀ s : Status, s.isDone = true ↔ ∀ p ∈ s.leaves, 100 ≤ p
  | .leaf p => by simp [Status.isDone, Status.leaves]
  | .multi ps => by simp only [Status.isDone, Status.leaves]; exact ps.allDone_iff
theorem Parts.allDone_iff : ∀ ps : Parts, ps.allDone = true ↔ ∀ p ∈ ps.leaves, 100 ≤ p
  | .nil => by simp [Parts.allDone, Parts.leaves]
  | .cons w s ps => by
    simp only [Parts.allDone, Parts.leaves, Bool.and_eq_true, s.done_iff, ps.allDone_iff, List.mem_append]
    constructor
    · rintro ⟨h1, h2⟩ p (h | h)
      exacts [h1 p h, h2 p h]
    · intro h; exact ⟨fun p hp => h p (.inl hp), fun p hp => h p (.inr hp)⟩
end

theorem Parts.scan_allDone (total : Nat) : ∀ (ps : Parts) (f : Nat), ps.allDone = true → ps.scan total f = 100
  | .nil, _, _ => by simp [Parts.scan]
  | .cons w s ps, f, h => by
    simp only [Parts.allDone, Bool.and_eq_true] at h
    simp only [Parts.scan, h.1, if_true]
    exact Parts.scan_allDone total ps _ h.2

theorem Status.progress_done (s : Status) (h : s.isDone = true) (hb : ∀ p ∈ s.leaves, p ≤ 100) :
    s.progress = 100 := by
  cases s with
  | leaf p => simp [Status.isDone, Status.leaves] at *; simp [Status.progress]; omega
  | multi ps =>
    simp only [Status.progress]
    split
    · rfl
    · exact ps.scan_allDone _ _ h

mutual
theorem Status.progress_le : ∀ s : Status, (∀ p ∈ s.leaves, p ≤ 100) → s.progress ≤ 100
  | .leaf p, h => h p (by simp [Status.leaves])
  | .multi ps, h => by
    simp only [Status.progress]
    split
    · exact Nat.le_refl _
    · exact ps.scan_le ps.total 0 h (by omega)
theorem Parts.scan_le : ∀ (ps : Parts) (total f : Nat), (∀ p ∈ ps.leaves, p ≤ 100) →
    f + ps.total ≤ total → ps.scan total f ≤ 100
  | .nil, _, _, _, _ => by simp [Parts.scan]
  | .cons w s ps, total, f, h, ht => by
    have hs := s.progress_le (fun p hp => h p (by simp [Parts.leaves, hp]))
    simp only [Parts.total] at ht
    simp only [Parts.scan]
    split
    · exact Parts.scan_le ps total _ (fun p hp => h p (by simp [Parts.leaves, hp])) (by omega)
    · apply Nat.div_le_of_le_mul
      have : w * s.progress ≤ w * 100 := Nat.mul_le_mul_left w hs
      nlinarith
end

/-- **C37, range.** If every elementary job reports a value in 0..100, so does every composite. -/
theorem progress_in_range (s : Status) (h : ∀ p ∈ s.leaves, p ≤ 100) : s.progress ≤ 100 := s.progress_le h

/-- **C37, done.** A provider is done exactly when all its elementary jobs are at 100; equivalently, a
composite is done exactly when all its parts are. -/
theorem done_iff_all (s : Status) : s.isDone = true ↔ ∀ p ∈ s.leaves, 100 ≤ p := s.done_iff

theorem multi_done_iff (ps : Parts) :
    (Status.multi ps).isDone = true ↔ ∀ x ∈ ps.toList, x.2.isDone = true := by
  simp only [Status.isDone]
  induction ps using Parts.rec (motive_1 := fun _ => True) with
  | leaf => trivial
  | multi => trivial
  | nil => simp [Parts.allDone, Parts.toList]
  | cons w s ps _ ih => simp [Parts.allDone, Parts.toList, ih]

/-- C37: a done provider reports 100. -/
theorem done_progress (s : Status) (h : s.isDone = true) (hb : ∀ p ∈ s.leaves, p ≤ 100) :
    s.progress = 100 := s.progress_done h hb

theorem Parts.scan_ge (total : Nat) : ∀ (ps : Parts) (f : Nat), 0 < total → f ≤ total →
    100 * f / total ≤ ps.scan total f
  | .nil, f, h0, h => by
    simp only [Parts.scan]
    apply Nat.div_le_of_le_mul; nlinarith
  | .cons w s ps, f, h0, h => by
    simp only [Parts.scan]
    split
    · by_cases hw : f + w ≤ total
      · exact Nat.le_trans (Nat.div_le_div_right (by omega)) (Parts.scan_ge total ps (f + w) h0 hw)
      · -- weights beyond the total do not occur, but the bound still holds
        have : ∀ (ps : Parts) (g : Nat), total ≤ g → 100 ≤ ps.scan total g := by
          intro ps
          induction ps using Parts.rec (motive_1 := fun _ => True) with
          | leaf => trivial
          | multi => trivial
          | nil => intro g _; simp [Parts.scan]
          | cons w s ps _ ih =>
            intro g hg
            simp only [Parts.scan]
            split
            · exact ih _ (by omega)
            · rw [Nat.le_div_iff_mul_le h0]; nlinarith
        refine Nat.le_trans ?_ (this ps (f + w) (by omega))
        apply Nat.div_le_of_le_mul; nlinarith
    · exact Nat.div_le_div_right (by omega)

mutual
theorem Status.Le.done : ∀ {s s' : Status}, Status.Le s s' → s.isDone = true → s'.isDone = true
  | _, _, .leaf h, hd => by simp [Status.isDone] at *; omega
  | _, _, .multi h, hd => by simp only [Status.isDone] at *; exact h.done hd
theorem Parts.Le.done : ∀ {ps qs : Parts}, Parts.Le ps qs → ps.allDone = true → qs.allDone = true
  | _, _, .nil, h => h
  | _, _, .cons h1 h2, hd => by
    simp only [Parts.allDone, Bool.and_eq_true] at *
    exact ⟨h1.done hd.1, h2.done hd.2⟩
end

theorem Parts.Le.total : ∀ {ps qs : Parts}, Parts.Le ps qs → ps.total = qs.total
  | _, _, .nil => rfl
  | _, _, .cons _ h => by simp [Parts.total, h.total]

mutual
theorem Status.Le.progress : ∀ {s s' : Status}, Status.Le s s' → (∀ p ∈ s'.leaves, p ≤ 100) →
    (∀ p ∈ s.leaves, p ≤ 100) → s.progress ≤ s'.progress
  | _, _, .leaf h, _, _ => h
  | _, _, .multi (ps := ps) (qs := qs) h, hb, hb' => by
    simp only [Status.progress, h.total]
    split
    · exact Nat.le_refl _
    · exact h.scan qs.total 0 (by omega) (by rw [h.total]; omega) hb hb'
theorem Parts.Le.scan : ∀ {ps qs : Parts}, Parts.Le ps qs → ∀ (total f : Nat), 0 < total →
    f + ps.total ≤ total → (∀ p ∈ qs.leaves, p ≤ 100) → (∀ p ∈ ps.leaves, p ≤ 100) →
    ps.scan total f ≤ qs.scan total f
  | _, _, .nil, _, _, _, _, _, _ => Nat.le_refl _
  | _, _, .cons (w := w) (s := s) (s' := s') (ps := ps) (qs := qs) h1 h2, total, f, h0, ht, hb, hb' => by
    simp only [Parts.total] at ht
    have bs : ∀ p ∈ s.leaves, p ≤ 100 := fun p hp => hb' p (by simp [Parts.leaves, hp])
    have bs' : ∀ p ∈ s'.leaves, p ≤ 100 := fun p hp => hb p (by simp [Parts.leaves, hp])
    have bp : ∀ p ∈ ps.leaves, p ≤ 100 := fun p hp => hb' p (by simp [Parts.leaves, hp])
    have bq : ∀ p ∈ qs.leaves, p ≤ 100 := fun p hp => hb p (by simp [Parts.leaves, hp])
    simp only [Parts.scan]
    by_cases hd : s.isDone = true
    · rw [if_pos hd, if_pos (h1.done hd)]
      exact h2.scan total (f + w) h0 (by omega) bq bp
    · rw [if_neg hd]
      by_cases hd' : s'.isDone = true
      · rw [if_pos hd']
        have hp := s.progress_le bs
        have : w * s.progress ≤ w * 100 := Nat.mul_le_mul_left w hp
        exact Nat.le_trans (Nat.div_le_div_right (by nlinarith)) (Parts.scan_ge total qs (f + w) h0 (by omega))
      · rw [if_neg hd']
        have := h1.progress bs' bs
        exact Nat.div_le_div_right (Nat.add_le_add_left (Nat.mul_le_mul_left w this) _)
end

/-- **C37, monotone.** Advancing any elementary jobs (any subset, at any depth, by any amounts) never
lowers the reported progress. -/
theorem progress_monotone (s s' : Status) (h : Status.Le s s') (hb : ∀ p ∈ s.leaves, p ≤ 100)
    (hb' : ∀ p ∈ s'.leaves, p ≤ 100) : s.progress ≤ s'.progress := h.progress hb' hb

/-- C37: and never makes a done provider not done. -/
theorem done_monotone (s s' : Status) (h : Status.Le s s') (hd : s.isDone = true) : s'.isDone = true :=
  h.done hd

mutual
theorem Status.not_done_lt : ∀ s : Status, s.posWeights → (∀ p ∈ s.leaves, p ≤ 100) → s.isDone = false →
    s.progress < 100
  | .leaf p, _, _, h => by simp [Status.isDone, Status.progress] at *; exact h
  | .multi ps, hw, hb, h => by
    simp only [Status.isDone, Status.posWeights] at *
    simp only [Status.progress]
    split
    · rename_i ht
      cases ps with
      | nil => simp [Parts.allDone] at h
      | cons w s ps => simp only [Parts.posWeights, Parts.total] at hw ht; omega
    · exact ps.scan_not_done ps.total 0 hw hb h (by omega)
theorem Parts.scan_not_done : ∀ (ps : Parts) (total f : Nat), ps.posWeights → (∀ p ∈ ps.leaves, p ≤ 100) →
    ps.allDone = false → f + ps.total ≤ total → ps.scan total f < 100
  | .nil, _, _, _, _, h, _ => by simp [Parts.allDone] at h
  | .cons w s ps, total, f, hw, hb, h, ht => by
    simp only [Parts.posWeights, Parts.total] at hw ht
    simp only [Parts.scan]
    cases hd : s.isDone with
    | true =>
      simp only [Parts.allDone, hd, Bool.true_and] at h
      simp only [if_true]
      exact Parts.scan_not_done ps total _ hw.2.2 (fun p hp => hb p (by simp [Parts.leaves, hp])) h (by omega)
    | false =>
      have := s.not_done_lt hw.2.1 (fun p hp => hb p (by simp [Parts.leaves, hp])) hd
      simp only [Bool.false_eq_true, if_false]
      rw [Nat.div_lt_iff_lt_mul (by omega)]
      have : w * s.progress < w * 100 := Nat.mul_lt_mul_of_pos_left this hw.1
      nlinarith
end

/-- C37: with positive weights, 100 is reported exactly when done. -/
theorem progress_100_iff_done (s : Status) (hw : s.posWeights) (hb : ∀ p ∈ s.leaves, p ≤ 100) :
    s.progress = 100 ↔ s.isDone = true := by
  constructor
  · intro h
    by_contra hd
    have := s.not_done_lt hw hb (by simpa using hd)
    omega
  · intro h; exact s.progress_done h hb

mutual
theorem Status.setDone_done : ∀ s : Status, s.setDone.isDone = true
  | .leaf _ => by simp [Status.setDone, Status.isDone]
  | .multi ps => by simp only [Status.setDone, Status.isDone]; exact ps.setDone_done
theorem Parts.setDone_done : ∀ ps : Parts, ps.setDone.allDone = true
  | .nil => rfl
  | .cons w s ps => by simp [Parts.setDone, Parts.allDone, s.setDone_done, ps.setDone_done]
end

/-- C37: `SetDone` completes any provider. -/
theorem set_done_completes (s : Status) : s.setDone.isDone = true := s.setDone_done

/-- `Σ weight·progress` over the parts. -/
def Parts.weighted : Parts → Nat
  | .nil => 0
  | .cons w s ps => w * s.progress + ps.weighted

/-- All parts behind the first unfinished one have not started. -/
def Parts.sequential : Parts → Prop
  | .nil => True
  | .cons _ s ps => if s.isDone then ps.sequential else ∀ x ∈ ps.toList, x.2.progress = 0

theorem Parts.weighted_zero : ∀ ps : Parts, (∀ x ∈ ps.toList, x.2.progress = 0) → ps.weighted = 0
  | .nil, _ => rfl
  | .cons w s ps, h => by
    simp only [Parts.weighted, h (w, s) (by simp [Parts.toList])]
    rw [ps.weighted_zero (fun x hx => h x (by simp [Parts.toList, hx]))]
    omega

theorem Parts.weighted_done : ∀ ps : Parts, ps.allDone = true → (∀ p ∈ ps.leaves, p ≤ 100) →
    ps.weighted = 100 * ps.total
  | .nil, _, _ => rfl
  | .cons w s ps, h, hb => by
    simp only [Parts.allDone, Bool.and_eq_true] at h
    simp only [Parts.weighted, Parts.total,
      s.progress_done h.1 (fun p hp => hb p (by simp [Parts.leaves, hp])),
      ps.weighted_done h.2 (fun p hp => hb p (by simp [Parts.leaves, hp]))]
    ring

theorem Parts.scan_sequential : ∀ (ps : Parts) (total f : Nat), 0 < total → f + ps.total = total →
    (∀ p ∈ ps.leaves, p ≤ 100) → ps.sequential →
    ps.scan total f = (100 * f + ps.weighted) / total
  | .nil, total, f, h0, ht, _, _ => by
    simp only [Parts.total] at ht
    simp only [Parts.scan, Parts.weighted]
    rw [show f = total by omega, Nat.add_zero, Nat.mul_div_cancel _ h0]
  | .cons w s ps, total, f, h0, ht, hb, hs => by
    simp only [Parts.total] at ht
    simp only [Parts.scan, Parts.weighted, Parts.sequential] at *
    by_cases hd : s.isDone = true
    · rw [if_pos hd] at hs ⊢
      rw [Parts.scan_sequential ps total (f + w) h0 (by omega)
        (fun p hp => hb p (by simp [Parts.leaves, hp])) hs,
        s.progress_done hd (fun p hp => hb p (by simp [Parts.leaves, hp]))]
      congr 1; ring
    · rw [if_neg hd] at hs ⊢
      rw [ps.weighted_zero hs, Nat.add_zero]

/-- **C37, weighted mean, the part that holds.** For jobs that run one after the other (nothing behind the
first unfinished part has started) the progress of a composite is the weighted mean of the progress of its
parts, rounded down.  Missing: parts that progress out of order, see `weighted_mean_violated`. -/
theorem weighted_mean_partial (ps : Parts) (h0 : 0 < ps.total) (hb : ∀ p ∈ ps.leaves, p ≤ 100)
    (hs : ps.sequential) : (Status.multi ps).progress = ps.weighted / ps.total := by
  simp only [Status.progress]
  rw [if_neg (by omega), Parts.scan_sequential ps ps.total 0 h0 (by omega) hb hs]
  simp

/-- C37's weighted mean is violated when a later part progresses first: two equal parts at 0 and 50 are
reported as 0, the mean is 25. -/
theorem weighted_mean_violated :
    let ps := Parts.cons 1 (.leaf 0) (.cons 1 (.leaf 50) .nil)
    (Status.multi ps).progress = 0 ∧ ps.weighted / ps.total = 25 := by decide

/-- The documented case (status_provider.h:52-60; the documented 20% is (10+2)/60). -/
example : (Status.multi (.cons 10 (.leaf 100) (.cons 20 (.leaf 10) (.cons 30 (.leaf 0) .nil)))).progress = 20 ∧
    (Parts.cons 10 (.leaf 100) (.cons 20 (.leaf 10) (.cons 30 (.leaf 0) .nil))).sequential := by
  refine ⟨by decide, ?_⟩
  simp [Parts.sequential, Status.isDone, Parts.toList, Status.progress]

end Verif.Progress

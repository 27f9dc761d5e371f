/-!
# Stable sorting

`std::sort`/`std::stable_sort` with comparator `comp` is modelled by a stable insertion sort with the
non-strict order `le a b = !comp(b, a)` (kernel-reducible, so concrete cases can be evaluated).
Where the C++ sort is not stable the result only has to be *a* sorted permutation; this is noted at
the use.
-/
namespace Verif

variable {α : Type}

/-- Insert before the first element that is not strictly smaller. -/
def insertSorted (le : α → α → Bool) (x : α) : List α → List α
  | [] => [x]
  | y :: t => if le x y then x :: y :: t else y :: insertSorted le x t

/-- Stable insertion sort. -/
def isort (le : α → α → Bool) : List α → List α
  | [] => []
  | x :: t => insertSorted le x (isort le t)

theorem insertSorted_perm (le : α → α → Bool) (x : α) (l : List α) :
    (insertSorted le x l).Perm (x :: l) := by
  induction l with
  | nil => simp [insertSorted]
  | cons y t ih =>
    simp only [insertSorted]
    split
    · exact List.Perm.refl _
    · exact (ih.cons y).trans (List.Perm.swap x y t)

theorem isort_perm (le : α → α → Bool) (l : List α) : (isort le l).Perm l := by
  induction l with
  | nil => simp [isort]
  | cons x t ih => exact (insertSorted_perm le x _).trans (ih.cons x)

@[simp] theorem mem_isort {le : α → α → Bool} {a : α} {l : List α} : a ∈ isort le l ↔ a ∈ l :=
  (isort_perm le l).mem_iff

@[simp] theorem length_isort (le : α → α → Bool) (l : List α) : (isort le l).length = l.length :=
  (isort_perm le l).length_eq

theorem pairwise_insertSorted {le : α → α → Bool}
    (trans : ∀ a b c, le a b = true → le b c = true → le a c = true)
    (total : ∀ a b, (le a b || le b a) = true) (x : α) {l : List α}
    (h : l.Pairwise (fun a b => le a b = true)) :
    (insertSorted le x l).Pairwise (fun a b => le a b = true) := by
  induction l with
  | nil => simp [insertSorted]
  | cons y t ih =>
    rw [List.pairwise_cons] at h
    simp only [insertSorted]
    by_cases hxy : le x y = true
    · rw [if_pos hxy, List.pairwise_cons, List.pairwise_cons]
      refine ⟨?_, h⟩
      intro z hz
      rcases List.mem_cons.1 hz with rfl | hz
      · exact hxy
      · exact trans _ _ _ hxy (h.1 z hz)
    · rw [if_neg hxy, List.pairwise_cons]
      refine ⟨?_, ih h.2⟩
      intro z hz
      rcases List.mem_cons.1 ((insertSorted_perm le x t).mem_iff.1 hz) with rfl | hz
      · have := total z y
        simp only [Bool.or_eq_true] at this
        exact this.resolve_left hxy
      · exact h.1 z hz

theorem pairwise_isort {le : α → α → Bool}
    (trans : ∀ a b c, le a b = true → le b c = true → le a c = true)
    (total : ∀ a b, (le a b || le b a) = true) (l : List α) :
    (isort le l).Pairwise (fun a b => le a b = true) := by
  induction l with
  | nil => simp [isort]
  | cons x t ih => exact pairwise_insertSorted trans total x ih

end Verif

import Verif.Prune
import Mathlib.Data.List.Sort

/-! # C61: the ranges of a subprogram (util/symbolize/addr2line_inlinestack.cc) -/
namespace Verif.Inline
open Verif

/-- The order of pairs in C++. -/
def rangeLe (a b : Range) : Bool := decide (a.1 < b.1) || (decide (a.1 = b.1) && decide (a.2 ≤ b.2))

/-- One turn of the loop of `SortAndMerge` (addr2line_inlinestack.cc:690-696); the last merged range first. -/
def mergeStep (merged : List Range) (r : Range) : List Range :=
  match merged with
  | [] => [r]
  | b :: bs => if r.1 ≥ b.2 then r :: b :: bs else (b.1, max r.2 b.2) :: bs

/-- `SortAndMerge` (addr2line_inlinestack.cc:685-703). -/
def sortAndMerge (rs : List Range) : List Range := ((rs.mergeSort rangeLe).foldl mergeStep []).reverse

/-- `SetSingletonRangeLow` (addr2line_inlinestack.cc:53-60).  `none`: a failed `CHECK`. -/
def setLow (rs : List Range) (a : Nat) : Option (List Range) :=
  match rs with
  | [] => some [(a, 0)]
  | [r] => some [(a, r.2)]
  | _ => none

/-- `SetSingletonRangeHigh` (addr2line_inlinestack.cc:62-72). -/
def setHigh (rs : List Range) (a : Nat) (isOffset : Bool) : Option (List Range) :=
  match rs with
  | [] => some [(0, a)]
  | [r] => some [(r.1, if isOffset then (r.1 + a) % 2 ^ 64 else a)]
  | _ => none

/-! ## Specification -/

/-- The address is in one of the ranges. -/
def Covered (rs : List Range) (a : Nat) : Prop := ∃ r ∈ rs, r.1 ≤ a ∧ a < r.2

/-! ## Proof -/

/-- State of the loop: ranges in descending order, without overlap. -/
def Desc (l : List Range) : Prop := l.Pairwise (fun a b => b.2 ≤ a.1) ∧ ∀ r ∈ l, r.1 ≤ r.2

theorem mergeStep_inv (l : List Range) (r : Range) (hl : Desc l) (hr : r.1 ≤ r.2)
    (hle : ∀ b ∈ l.head?, b.1 ≤ r.1) :
    Desc (mergeStep l r) ∧ (∀ b ∈ (mergeStep l r).head?, b.1 ≤ r.1) ∧
      ∀ a, Covered (mergeStep l r) a ↔ Covered l a ∨ (r.1 ≤ a ∧ a < r.2) := by
  cases l with
  | nil =>
    refine ⟨⟨by simp [mergeStep], by simp [mergeStep, hr]⟩, by simp [mergeStep], ?_⟩
    intro a
    simp [mergeStep, Covered]
  | cons b bs =>
    obtain ⟨hd1, hd2⟩ := hl
    have hb := hle b (by simp)
    have hb2 := hd2 b (by simp)
    rw [List.pairwise_cons] at hd1
    have hdef : mergeStep (b :: bs) r = if r.1 ≥ b.2 then r :: b :: bs else (b.1, max r.2 b.2) :: bs := rfl
    rw [hdef]
    split
    · rename_i hge
      refine ⟨⟨?_, ?_⟩, by simp, ?_⟩
      · rw [List.pairwise_cons, List.pairwise_cons]
        refine ⟨?_, hd1⟩
        intro q hq
        rcases List.mem_cons.1 hq with rfl | hq
        · exact hge
        · have := hd1.1 q hq; omega
      · intro q hq
        rcases List.mem_cons.1 hq with rfl | hq
        · exact hr
        · exact hd2 q hq
      · intro a
        simp only [Covered, List.mem_cons, exists_eq_or_imp]
        rw [or_comm (a := r.1 ≤ a ∧ a < r.2)]
    · rename_i hlt
      refine ⟨⟨?_, ?_⟩, by simpa using hb, ?_⟩
      · rw [List.pairwise_cons]
        exact hd1
      · intro q hq
        rcases List.mem_cons.1 hq with rfl | hq
        · simp only; omega
        · exact hd2 q (List.mem_cons_of_mem _ hq)
      · intro a
        simp only [Covered, List.mem_cons, exists_eq_or_imp]
        constructor
        · rintro (⟨h1, h2⟩ | h)
          · by_cases hc : a < b.2
            · exact Or.inl (Or.inl ⟨h1, hc⟩)
            · refine Or.inr ⟨by omega, ?_⟩
              rcases Nat.le_total r.2 b.2 with h | h
              · rw [Nat.max_eq_right h] at h2; omega
              · rw [Nat.max_eq_left h] at h2; exact h2
          · exact Or.inl (Or.inr h)
        · rintro ((⟨h1, h2⟩ | h) | ⟨h1, h2⟩)
          · exact Or.inl ⟨h1, by omega⟩
          · exact Or.inr h
          · exact Or.inl ⟨by omega, by omega⟩

theorem rangeLe_trans (a b c : Range) (h1 : rangeLe a b = true) (h2 : rangeLe b c = true) : rangeLe a c = true := by
  simp [rangeLe] at *
  omega

theorem rangeLe_total (a b : Range) : (rangeLe a b || rangeLe b a) = true := by
  simp [rangeLe]
  omega

/-- **C61.** Ranges are sorted and merged without changing the addresses they cover. -/
theorem sortAndMerge_spec (rs : List Range) (h : ∀ r ∈ rs, r.1 ≤ r.2) :
    (sortAndMerge rs).Pairwise (fun a b => a.2 ≤ b.1) ∧ (∀ r ∈ sortAndMerge rs, r.1 ≤ r.2) ∧
      ∀ a, Covered (sortAndMerge rs) a ↔ Covered rs a := by
  have gen : ∀ (l : List Range) (acc : List Range), l.Pairwise (fun a b => rangeLe a b = true) →
      (∀ r ∈ l, r.1 ≤ r.2) → Desc acc → (∀ b ∈ acc.head?, ∀ r ∈ l, b.1 ≤ r.1) →
      Desc (l.foldl mergeStep acc) ∧ ∀ a, Covered (l.foldl mergeStep acc) a ↔ Covered acc a ∨ Covered l a := by
    intro l
    induction l with
    | nil => intro acc _ _ hd _; exact ⟨hd, by simp [Covered]⟩
    | cons r l ih =>
      intro acc hp hl hd hh
      rw [List.pairwise_cons] at hp
      obtain ⟨h1, h2, h3⟩ := mergeStep_inv acc r hd (hl r (by simp)) (fun b hb => hh b hb r (by simp))
      obtain ⟨h4, h5⟩ := ih (mergeStep acc r) hp.2 (fun q hq => hl q (List.mem_cons_of_mem _ hq)) h1 (by
        intro b hb q hq
        have := h2 b hb
        have hq' := hp.1 q hq
        simp [rangeLe] at hq'
        omega)
      refine ⟨h4, ?_⟩
      intro a
      rw [List.foldl_cons, h5, h3]
      simp only [Covered, List.mem_cons, exists_eq_or_imp]
      rw [or_assoc]
  obtain ⟨⟨h1, h2⟩, h3⟩ := gen (rs.mergeSort rangeLe) [] (List.pairwise_mergeSort rangeLe_trans rangeLe_total rs)
    (fun r hr => h r (List.mem_mergeSort.1 hr)) ⟨by simp, by simp⟩ (by simp)
  refine ⟨?_, ?_, ?_⟩
  · unfold sortAndMerge
    rw [List.pairwise_reverse]
    exact h1
  · intro r hr
    exact h2 r (List.mem_reverse.1 hr)
  · intro a
    have := h3 a
    simp only [Covered, List.not_mem_nil, false_and, exists_false, false_or, List.mem_mergeSort] at this
    simp only [Covered, sortAndMerge, List.mem_reverse]
    exact this

/-- The ranges of one subprogram do not overlap. -/
theorem sortAndMerge_own (rs : List Range) (h : ∀ r ∈ rs, r.1 ≤ r.2) : ∀ r ∈ sortAndMerge rs,
    ∀ q ∈ sortAndMerge rs, ∀ a, r.1 ≤ a ∧ a < r.2 → q.1 ≤ a ∧ a < q.2 → r = q := by
  obtain ⟨h1, h2, _⟩ := sortAndMerge_spec rs h
  intro r hr q hq a hra hqa
  by_contra hne
  have h3 : ∀ l : List Range, l.Pairwise (fun a b => a.2 ≤ b.1) → r ∈ l → q ∈ l → r.2 ≤ q.1 ∨ q.2 ≤ r.1 := by
    intro l hl
    induction hl with
    | nil => intro h; cases h
    | cons hx _ ih =>
      intro hr hq
      rcases List.mem_cons.1 hr with rfl | hr'
      · rcases List.mem_cons.1 hq with rfl | hq'
        · exact absurd rfl hne
        · exact Or.inl (hx q hq')
      · rcases List.mem_cons.1 hq with rfl | hq'
        · exact Or.inr (hx r hr')
        · exact ih hr' hq'
  have := h3 _ h1 hr hq
  omega

/-- A low and a high address in that order give the range between them. -/
theorem singleton_range (lo hi : Nat) : (setLow [] lo).bind (fun rs => setHigh rs hi false) = some [(lo, hi)] := rfl

/-- A low address and a size in that order give the range. -/
theorem singleton_range_offset (lo size : Nat) (h : lo + size < 2 ^ 64) :
    (setLow [] lo).bind (fun rs => setHigh rs size true) = some [(lo, lo + size)] := by
  simp only [setLow, setHigh, Option.bind_some, if_true, Nat.mod_eq_of_lt h]

/-- When the size comes first, it is taken for an address. -/
theorem high_before_low_violated :
    (setHigh [] 0x20 true).bind (fun rs => setLow rs 0x400100) = some [(0x400100, 0x20)] := by
  decide

/-- A low address alone gives a reversed range. -/
theorem low_without_high_violated : setLow [] 0x400100 = some [(0x400100, 0)] := rfl

theorem sortAndMerge_ex : sortAndMerge [(300, 310), (100, 120), (110, 150), (150, 160), (305, 305)] =
    [(100, 150), (150, 160), (300, 310)] := by
  simp [sortAndMerge, List.mergeSort, List.MergeSort.Internal.splitInTwo, rangeLe, mergeStep]

end Verif.Inline

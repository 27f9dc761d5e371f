import Verif.OMap
import Verif.Bytes
import Mathlib.Algebra.BigOperators.Group.Finset.Basic
import Mathlib.Algebra.Order.BigOperators.Group.Finset
import Mathlib.Algebra.Order.Field.Rat
import Mathlib.Algebra.Order.Field.Basic
import Mathlib.Algebra.BigOperators.Field
import Mathlib.Tactic.Linarith

/-! # C45: profile overlap (symbol_map.cc:995-1026)

The `float` arithmetic is idealised to exact rationals.  `map_` is the list of (name, total count of the
symbol it points to), in key order; aliases are separate entries, as in the code. -/
namespace Verif.Overlap
open Verif

/-- First loop (symbol_map.cc:1001-1005). -/
def fill1 (m : OMap Name Nat) : OMap Name (Nat × Nat) :=
  m.foldl (fun o e => OMap.upsert e.1 (fun _ => (e.2, 0)) o) []

/-- Second loop (symbol_map.cc:1006-1012). -/
def fill2 (o : OMap Name (Nat × Nat)) (m : OMap Name Nat) : OMap Name (Nat × Nat) :=
  m.foldl (fun o e => OMap.upsert e.1 (fun x => ((x.map Prod.fst).getD 0, e.2)) o) o

/-- `Overlap` (symbol_map.cc:995-1026). -/
def overlap (m1 m2 : OMap Name Nat) : ℚ :=
  let total1 := (m1.map Prod.snd).sum
  let total2 := (m2.map Prod.snd).sum
  if total1 = 0 ∨ total2 = 0 then 0
  else ((fill2 (fill1 m1) m2).map (fun e => min ((e.2.1 : ℚ) / total1) ((e.2.2 : ℚ) / total2))).sum

/-! ## Specification -/

/-- Names of a profile. -/
def names (m : OMap Name Nat) : Finset Name := (m.map Prod.fst).toFinset

/-- Share of a function in a profile. -/
def share (m : OMap Name Nat) (n : Name) : ℚ := (OMap.get0 m n : ℚ) / (OMap.total m : ℚ)

/-! ## Proofs -/

theorem fill1_spec (m : OMap Name Nat) (hm : OMap.Sorted m) :
    OMap.Sorted (fill1 m) ∧ ∀ n, OMap.find? (fill1 m) n = (OMap.find? m n).map (fun t => (t, 0)) := by
  unfold fill1
  have key : ∀ (m : OMap Name Nat) (o : OMap Name (Nat × Nat)), OMap.Sorted m → OMap.Sorted o →
      OMap.Sorted (m.foldl (fun o e => OMap.upsert e.1 (fun _ => (e.2, 0)) o) o) ∧
      ∀ n, OMap.find? (m.foldl (fun o e => OMap.upsert e.1 (fun _ => (e.2, 0)) o) o) n =
        match OMap.find? m n with
        | some t => some (t, 0)
        | none => OMap.find? o n := by
    intro m
    induction m with
    | nil => intro o _ ho; exact ⟨ho, fun n => rfl⟩
    | cons e m ih =>
      intro o hm ho
      obtain ⟨k, t⟩ := e
      have hm' := List.pairwise_cons.1 hm
      obtain ⟨i1, i2⟩ := ih _ hm'.2 (OMap.Sorted.upsert ho k (fun _ => (t, 0)))
      refine ⟨i1, fun n => ?_⟩
      rw [List.foldl_cons, i2, OMap.find?_upsert ho]
      by_cases hn : n = k
      · subst hn
        have : OMap.find? m n = none := OMap.find?_eq_none_of_lt hm'.1
        rw [this]
        simp [OMap.find?]
      · simp only [hn, if_false, OMap.find?]
  obtain ⟨h1, h2⟩ := key m [] hm OMap.sorted_nil
  refine ⟨h1, fun n => ?_⟩
  rw [h2]
  cases OMap.find? m n <;> rfl

theorem fill2_spec (o : OMap Name (Nat × Nat)) (m : OMap Name Nat) (ho : OMap.Sorted o)
    (hm : OMap.Sorted m) :
    OMap.Sorted (fill2 o m) ∧ ∀ n, OMap.find? (fill2 o m) n =
      match OMap.find? m n with
      | some t => some (((OMap.find? o n).map Prod.fst).getD 0, t)
      | none => OMap.find? o n := by
  unfold fill2
  induction m generalizing o with
  | nil => exact ⟨ho, fun n => rfl⟩
  | cons e m ih =>
    obtain ⟨k, t⟩ := e
    have hm' := List.pairwise_cons.1 hm
    obtain ⟨i1, i2⟩ := ih _ (OMap.Sorted.upsert ho k (fun x => ((x.map Prod.fst).getD 0, t))) hm'.2
    refine ⟨i1, fun n => ?_⟩
    rw [List.foldl_cons, i2, OMap.find?_upsert ho]
    by_cases hn : n = k
    · subst hn
      have : OMap.find? m n = none := OMap.find?_eq_none_of_lt hm'.1
      rw [this]
      simp [OMap.find?]
    · simp only [hn, if_false, OMap.find?]

theorem sorted_nodup {V : Type} {m : OMap Name V} (hm : OMap.Sorted m) : (m.map Prod.fst).Nodup := by
  rw [List.Nodup, List.pairwise_map]
  exact hm.imp (fun h => ne_of_lt h)

theorem sum_finset {V : Type} (m : OMap Name V) (hm : OMap.Sorted m) (f : Name → V → ℚ) (g : Name → ℚ)
    (h : ∀ e ∈ m, f e.1 e.2 = g e.1) :
    (m.map (fun e => f e.1 e.2)).sum = ∑ n ∈ (m.map Prod.fst).toFinset, g n := by
  rw [List.sum_toFinset _ (sorted_nodup hm), List.map_map]
  congr 1
  exact List.map_congr_left h

theorem total_eq (m : OMap Name Nat) (hm : OMap.Sorted m) :
    (OMap.total m : ℚ) = ∑ n ∈ names m, (OMap.get0 m n : ℚ) := by
  unfold OMap.total names
  rw [← sum_finset m hm (fun _ v => (v : ℚ)) (fun n => (OMap.get0 m n : ℚ))]
  · have : ∀ l : List (Name × Nat), (((l.map Prod.snd).sum : Nat) : ℚ) = (l.map (fun e => (e.2 : ℚ))).sum := by
      intro l
      induction l with
      | nil => simp
      | cons x l ih => simp [ih]
    exact this m
  · intro e he
    have := OMap.find?_some_of_mem hm (k := e.1) (v := e.2) he
    simp [OMap.get0, this]

theorem get0_of_not_mem (m : OMap Name Nat) (n : Name) (h : n ∉ names m) : OMap.get0 m n = 0 := by
  unfold OMap.get0
  cases hf : OMap.find? m n with
  | none => rfl
  | some v =>
    exact absurd (List.mem_toFinset.2 (List.mem_map.2 ⟨(n, v), OMap.mem_of_find?_some hf, rfl⟩)) h

theorem sum_share (m : OMap Name Nat) (hm : OMap.Sorted m) (h0 : OMap.total m ≠ 0) (s : Finset Name)
    (hs : names m ⊆ s) : ∑ n ∈ s, share m n = 1 := by
  rw [← Finset.sum_subset hs (fun n _ hn => by simp [share, get0_of_not_mem m n hn])]
  unfold share
  rw [← Finset.sum_div, ← total_eq m hm]
  exact div_self (by exact_mod_cast h0)

theorem share_nonneg (m : OMap Name Nat) (n : Name) : 0 ≤ share m n := by
  unfold share; positivity

/-- **C45, value.** The overlap of two nonempty profiles is the sum, over the functions named in either,
of the smaller of the two shares; it is 0 if one of the profiles has no samples. -/
theorem overlap_spec_partial (m1 m2 : OMap Name Nat) (h1 : OMap.Sorted m1) (h2 : OMap.Sorted m2) :
    overlap m1 m2 = if OMap.total m1 = 0 ∨ OMap.total m2 = 0 then 0
      else ∑ n ∈ names m1 ∪ names m2, min (share m1 n) (share m2 n) := by
  unfold overlap
  show (if OMap.total m1 = 0 ∨ OMap.total m2 = 0 then (0 : ℚ) else _) = _
  by_cases h0 : OMap.total m1 = 0 ∨ OMap.total m2 = 0
  · rw [if_pos h0, if_pos h0]
  · rw [if_neg h0, if_neg h0]
    obtain ⟨s1, f1⟩ := fill1_spec m1 h1
    obtain ⟨s2, f2⟩ := fill2_spec (fill1 m1) m2 s1 h2
    have hk : ((fill2 (fill1 m1) m2).map Prod.fst).toFinset = names m1 ∪ names m2 := by
      ext n
      have mk : ∀ {V : Type} (m : OMap Name V), OMap.Sorted m →
          (n ∈ (m.map Prod.fst).toFinset ↔ ∃ v, OMap.find? m n = some v) := by
        intro V m hm
        rw [List.mem_toFinset, List.mem_map]
        constructor
        · rintro ⟨⟨a, v⟩, hx, rfl⟩
          exact ⟨v, OMap.find?_some_of_mem hm hx⟩
        · rintro ⟨v, hv⟩
          exact ⟨(n, v), OMap.mem_of_find?_some hv, rfl⟩
      rw [mk _ s2, Finset.mem_union, names, names, mk _ h1, mk _ h2, f2, f1]
      cases OMap.find? m1 n <;> cases OMap.find? m2 n <;> simp
    rw [← hk]
    apply sum_finset _ s2 (fun _ v => min ((v.1 : ℚ) / (OMap.total m1 : ℚ)) ((v.2 : ℚ) / (OMap.total m2 : ℚ)))
    intro e he
    have hf := OMap.find?_some_of_mem s2 (k := e.1) (v := e.2) he
    rw [f2, f1] at hf
    have e1 : e.2.1 = OMap.get0 m1 e.1 ∧ e.2.2 = OMap.get0 m2 e.1 := by
      unfold OMap.get0
      cases c1 : OMap.find? m1 e.1 <;> cases c2 : OMap.find? m2 e.1 <;>
        simp only [c1, c2, Option.map_none, Option.map_some, Option.getD_none, Option.getD_some,
          Option.some.injEq, reduceCtorEq] at hf ⊢ <;> rw [← hf] <;> exact ⟨rfl, rfl⟩
    simp only [e1.1, e1.2, share]

/-- **C45, range.** -/
theorem overlap_range (m1 m2 : OMap Name Nat) (h1 : OMap.Sorted m1) (h2 : OMap.Sorted m2) :
    0 ≤ overlap m1 m2 ∧ overlap m1 m2 ≤ 1 := by
  rw [overlap_spec_partial m1 m2 h1 h2]
  split
  · exact ⟨le_refl _, zero_le_one⟩
  · rename_i h
    refine ⟨Finset.sum_nonneg (fun n _ => le_min (share_nonneg _ _) (share_nonneg _ _)), ?_⟩
    calc _ ≤ ∑ n ∈ names m1 ∪ names m2, share m1 n := Finset.sum_le_sum (fun n _ => min_le_left _ _)
      _ = 1 := sum_share m1 h1 (fun h' => h (.inl h')) _ Finset.subset_union_left

/-- **C45, symmetric.** -/
theorem overlap_comm (m1 m2 : OMap Name Nat) (h1 : OMap.Sorted m1) (h2 : OMap.Sorted m2) :
    overlap m1 m2 = overlap m2 m1 := by
  rw [overlap_spec_partial m1 m2 h1 h2, overlap_spec_partial m2 m1 h2 h1, Finset.union_comm]
  simp only [or_comm, min_comm]

/-- **C45, a profile with samples overlaps itself completely**, and any profile with the same shares. -/
theorem overlap_self (m : OMap Name Nat) (h : OMap.Sorted m) (h0 : OMap.total m ≠ 0) :
    overlap m m = 1 := by
  rw [overlap_spec_partial m m h h, if_neg (by simp [h0])]
  simp only [min_self]
  exact sum_share m h h0 _ Finset.subset_union_left

/-- C45: the overlap is 1 exactly when the two profiles give every function the same share. -/
theorem overlap_one_iff (m1 m2 : OMap Name Nat) (h1 : OMap.Sorted m1) (h2 : OMap.Sorted m2)
    (z1 : OMap.total m1 ≠ 0) (z2 : OMap.total m2 ≠ 0) :
    overlap m1 m2 = 1 ↔ ∀ n, share m1 n = share m2 n := by
  rw [overlap_spec_partial m1 m2 h1 h2, if_neg (by simp [z1, z2])]
  have a1 := sum_share m1 h1 z1 (names m1 ∪ names m2) Finset.subset_union_left
  have a2 := sum_share m2 h2 z2 (names m1 ∪ names m2) Finset.subset_union_right
  constructor
  · intro h n
    have e1 := (Finset.sum_eq_sum_iff_of_le (fun n _ => min_le_left (share m1 n) (share m2 n))).1 (h.trans a1.symm)
    have e2 := (Finset.sum_eq_sum_iff_of_le (fun n _ => min_le_right (share m1 n) (share m2 n))).1 (h.trans a2.symm)
    by_cases hn : n ∈ names m1 ∪ names m2
    · rw [← e1 n hn, e2 n hn]
    · simp only [Finset.mem_union, not_or] at hn
      simp [share, get0_of_not_mem m1 n hn.1, get0_of_not_mem m2 n hn.2]
  · intro h
    rw [← a1]
    exact Finset.sum_congr rfl (fun n _ => by rw [h n, min_self])

/-- C45: the overlap is 0 exactly when no function has samples in both. -/
theorem overlap_zero_iff (m1 m2 : OMap Name Nat) (h1 : OMap.Sorted m1) (h2 : OMap.Sorted m2)
    (z1 : OMap.total m1 ≠ 0) (z2 : OMap.total m2 ≠ 0) :
    overlap m1 m2 = 0 ↔ ∀ n, OMap.get0 m1 n = 0 ∨ OMap.get0 m2 n = 0 := by
  rw [overlap_spec_partial m1 m2 h1 h2, if_neg (by simp [z1, z2]),
    Finset.sum_eq_zero_iff_of_nonneg (fun n _ => le_min (share_nonneg _ _) (share_nonneg _ _))]
  have key : ∀ n, min (share m1 n) (share m2 n) = 0 ↔ OMap.get0 m1 n = 0 ∨ OMap.get0 m2 n = 0 := by
    intro n
    have e1 : share m1 n = 0 ↔ OMap.get0 m1 n = 0 := by
      unfold share
      rw [div_eq_zero_iff]
      simp [z1]
    have e2 : share m2 n = 0 ↔ OMap.get0 m2 n = 0 := by
      unfold share
      rw [div_eq_zero_iff]
      simp [z2]
    rw [← e1, ← e2]
    have p1 := share_nonneg m1 n
    have p2 := share_nonneg m2 n
    constructor
    · intro h
      rcases min_choice (share m1 n) (share m2 n) with hc | hc
      · left; rw [← hc, h]
      · right; rw [← hc, h]
    · rintro (h | h)
      · rw [h]; exact min_eq_left p2
      · rw [h]; exact min_eq_right p1
  constructor
  · intro h n
    by_cases hn : n ∈ names m1 ∪ names m2
    · exact (key n).1 (h n hn)
    · simp only [Finset.mem_union, not_or] at hn
      exact .inl (get0_of_not_mem m1 n hn.1)
  · intro h n _; exact (key n).2 (h n)

example : overlap [([97], 3), ([98], 1)] [([97], 1), ([98], 1), ([99], 2)] = 1 / 2 ∧
    OMap.Sorted ([([97], 3), ([98], 1)] : OMap Name Nat) := by
  constructor
  · decide +kernel
  · unfold OMap.Sorted; decide

end Verif.Overlap

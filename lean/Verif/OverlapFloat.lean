import Verif.Overlap
import Verif.RoundFloat

/-! # C45: profile overlap in `float` arithmetic (symbol_map.cc:995-1026)

As `Verif.Overlap`, with the rounding of every operation and with the wrap-around of the totals. -/
namespace Verif.Overlap
open Verif Verif.Fl

/-! ## Model -/

/-- `Overlap` (symbol_map.cc:995-1026).  The counts and the totals (`uint64_t`) are converted to `float` before the divisions. -/
def overlap32 (m1 m2 : OMap Name Nat) : ℚ :=
  let total1 := (m1.map Prod.snd).sum % 18446744073709551616
  let total2 := (m2.map Prod.snd).sum % 18446744073709551616
  if total1 = 0 ∨ total2 = 0 then 0
  else (fill2 (fill1 m1) m2).foldl (fun a e =>
    f32 (a + min (f32 (f32 (e.2.1 : ℚ) / f32 (total1 : ℚ))) (f32 (f32 (e.2.2 : ℚ) / f32 (total2 : ℚ))))) 0

/-! ## Proofs -/

theorem fill_comm (m1 m2 : OMap Name Nat) (h1 : OMap.Sorted m1) (h2 : OMap.Sorted m2) :
    fill2 (fill1 m1) m2 = (fill2 (fill1 m2) m1).map fun e => (e.1, e.2.2, e.2.1) := by
  obtain ⟨s1, f1⟩ := fill1_spec m1 h1
  obtain ⟨s2, f2⟩ := fill2_spec (fill1 m1) m2 s1 h2
  obtain ⟨t1, g1⟩ := fill1_spec m2 h2
  obtain ⟨t2, g2⟩ := fill2_spec (fill1 m2) m1 t1 h1
  have hmap : ∀ (l : OMap Name (Nat × Nat)) n, OMap.find? (l.map fun e => (e.1, e.2.2, e.2.1)) n =
      (OMap.find? l n).map fun v => (v.2, v.1) := by
    intro l n
    induction l with
    | nil => rfl
    | cons a t ih =>
      obtain ⟨k, v⟩ := a
      simp only [List.map_cons, OMap.find?]
      split_ifs
      · rfl
      · exact ih
  refine OMap.ext s2 (List.pairwise_map.2 t2) ?_
  intro n
  rw [hmap, f2, f1, g2, g1]
  cases OMap.find? m1 n <;> cases OMap.find? m2 n <;> rfl

/-- **C45, symmetric**: exactly, also with rounding. -/
theorem overlap32_comm (m1 m2 : OMap Name Nat) (h1 : OMap.Sorted m1) (h2 : OMap.Sorted m2) :
    overlap32 m1 m2 = overlap32 m2 m1 := by
  unfold overlap32
  simp only [or_comm (a := (m1.map Prod.snd).sum % 18446744073709551616 = 0)]
  split_ifs
  · rfl
  · rw [fill_comm m1 m2 h1 h2, List.foldl_map]
    simp only [min_comm]

theorem f32_nonneg {q : ℚ} (h : 0 ≤ q) : 0 ≤ f32 q := rnd_nonneg (by norm_num) h

theorem f32_pos {q : ℚ} (h : 0 < q) : 0 < f32 q := rnd_pos (by norm_num) h

theorem f32_near {q : ℚ} (h : 0 ≤ q) : Near 24 1 (f32 q) q := rnd_near (by norm_num) h

theorem f32_round {k : ℕ} {x y : ℚ} (hx : 0 ≤ x) (h : Near 24 k x y) : Near 24 (k + 1) (f32 x) y := Near.round (by norm_num) hx h

theorem quotient_near {c t : ℕ} (ht : 0 < t) : Near 24 3 (f32 (f32 (c : ℚ) / f32 (t : ℚ))) ((c : ℚ) / t) ∧
    0 ≤ f32 (f32 (c : ℚ) / f32 (t : ℚ)) := by
  have ht' : (0 : ℚ) < t := by exact_mod_cast ht
  have hc : (0 : ℚ) ≤ c := by positivity
  have h0 : 0 ≤ f32 (c : ℚ) / f32 (t : ℚ) := div_nonneg (f32_nonneg hc) (f32_pos ht').le
  refine ⟨?_, f32_nonneg h0⟩
  exact f32_round (k := 2) h0 (Near.div (j := 1) (k := 1) (f32_pos ht') ht' hc (f32_near hc) (f32_near ht'.le))

theorem sum_near (l : List ((Name × Nat × Nat))) (f g : Name × Nat × Nat → ℚ) (hf : ∀ e ∈ l, 0 ≤ f e) (hg : ∀ e ∈ l, 0 ≤ g e)
    (hn : ∀ e ∈ l, Near 24 3 (f e) (g e)) : ∀ (k : ℕ) (a b : ℚ), 0 ≤ a → 0 ≤ b → Near 24 (3 + k) a b →
    Near 24 (3 + k + l.length) (l.foldl (fun a e => f32 (a + f e)) a) (b + (l.map g).sum) ∧
      0 ≤ l.foldl (fun a e => f32 (a + f e)) a := by
  induction l with
  | nil =>
    intro k a b ha hb h
    simpa using ⟨h, ha⟩
  | cons e t ih =>
    intro k a b ha hb h
    have he := hf e List.mem_cons_self
    have hge := hg e List.mem_cons_self
    have hs : Near 24 (3 + k) (a + f e) (b + g e) := h.add ((hn e List.mem_cons_self).mono he hge (by omega))
    have := ih (fun x hx => hf x (List.mem_cons_of_mem _ hx)) (fun x hx => hg x (List.mem_cons_of_mem _ hx))
      (fun x hx => hn x (List.mem_cons_of_mem _ hx)) (k + 1) (f32 (a + f e)) (b + g e) (f32_nonneg (by linarith)) (by linarith)
      (f32_round (by linarith) hs)
    rw [List.foldl_cons, List.map_cons, List.sum_cons, List.length_cons, show 3 + k + (t.length + 1) = 3 + (k + 1) + t.length by omega,
      ← add_assoc b]
    exact this

theorem length_fill (m1 m2 : OMap Name Nat) (h1 : OMap.Sorted m1) (h2 : OMap.Sorted m2) :
    (fill2 (fill1 m1) m2).length = (names m1 ∪ names m2).card := by
  obtain ⟨s1, f1⟩ := fill1_spec m1 h1
  obtain ⟨s2, f2⟩ := fill2_spec (fill1 m1) m2 s1 h2
  have hk : ((fill2 (fill1 m1) m2).map Prod.fst).toFinset = names m1 ∪ names m2 := by
    ext n
    have mk : ∀ {V : Type} (m : OMap Name V), OMap.Sorted m →
        (n ∈ (m.map Prod.fst).toFinset ↔ ∃ v, OMap.find? m n = some v) := by
      intro V m hm
      rw [List.mem_toFinset, List.mem_map]
      constructor
      · rintro ⟨⟨a, v⟩, hx, rfl⟩
        exact ⟨v, OMap.find?_some_of_mem hm hx⟩
      · rintro ⟨v, hv⟩
        exact ⟨(n, v), OMap.mem_of_find?_some hv, rfl⟩
    rw [mk _ s2, Finset.mem_union, names, names, mk _ h1, mk _ h2, f2, f1]
    cases OMap.find? m1 n <;> cases OMap.find? m2 n <;> simp
  rw [← hk, List.toFinset_card_of_nodup (sorted_nodup s2), List.length_map]

/-- **C45, value**: the computed overlap differs from the sum of the smaller shares by at most one rounding per function named in
either profile and three more. -/
theorem overlap32_near (m1 m2 : OMap Name Nat) (h1 : OMap.Sorted m1) (h2 : OMap.Sorted m2)
    (t1 : OMap.total m1 < 18446744073709551616) (t2 : OMap.total m2 < 18446744073709551616) :
    Near 24 ((names m1 ∪ names m2).card + 3) (overlap32 m1 m2) (overlap m1 m2) ∧ 0 ≤ overlap32 m1 m2 := by
  unfold overlap32 overlap
  have e1 : (m1.map Prod.snd).sum % 18446744073709551616 = (m1.map Prod.snd).sum := Nat.mod_eq_of_lt t1
  have e2 : (m2.map Prod.snd).sum % 18446744073709551616 = (m2.map Prod.snd).sum := Nat.mod_eq_of_lt t2
  simp only [e1, e2]
  split_ifs with h
  · exact ⟨(Near.refl _ _).mono (le_refl _) (le_refl _) (Nat.zero_le _), le_refl _⟩
  · push Not at h
    have p1 : 0 < (m1.map Prod.snd).sum := Nat.pos_of_ne_zero h.1
    have p2 : 0 < (m2.map Prod.snd).sum := Nat.pos_of_ne_zero h.2
    have := sum_near (fill2 (fill1 m1) m2)
      (fun e => min (f32 (f32 (e.2.1 : ℚ) / f32 ((m1.map Prod.snd).sum : ℚ))) (f32 (f32 (e.2.2 : ℚ) / f32 ((m2.map Prod.snd).sum : ℚ))))
      (fun e => min ((e.2.1 : ℚ) / (m1.map Prod.snd).sum) ((e.2.2 : ℚ) / (m2.map Prod.snd).sum))
      (fun e _ => le_min (quotient_near p1).2 (quotient_near p2).2) (fun e _ => le_min (by positivity) (by positivity))
      (fun e _ => Near.min (quotient_near p1).1 (quotient_near p2).1) 0 0 0 (le_refl _) (le_refl _)
      ((Near.refl _ _).mono (le_refl _) (le_refl _) (Nat.zero_le _))
    rw [zero_add, length_fill m1 m2 h1 h2, Nat.add_zero, Nat.add_comm 3] at this
    exact this

/-- **C45, range**: not negative, and above 1 by at most one rounding per function and three more. -/
theorem overlap32_range (m1 m2 : OMap Name Nat) (h1 : OMap.Sorted m1) (h2 : OMap.Sorted m2)
    (t1 : OMap.total m1 < 18446744073709551616) (t2 : OMap.total m2 < 18446744073709551616) :
    0 ≤ overlap32 m1 m2 ∧ overlap32 m1 m2 ≤ (1 + ulp 24) ^ ((names m1 ∪ names m2).card + 3) := by
  obtain ⟨a, b⟩ := overlap32_near m1 m2 h1 h2 t1 t2
  refine ⟨b, a.1.trans ?_⟩
  have := (overlap_range m1 m2 h1 h2).2
  calc _ ≤ 1 * (1 + ulp 24) ^ ((names m1 ∪ names m2).card + 3) :=
        mul_le_mul_of_nonneg_right this (le_trans zero_le_one (one_le_grow _ _))
    _ = _ := one_mul _

theorem grow_le (p : ℕ) (k : ℕ) (h : 2 * (k : ℚ) * ulp p ≤ 1) : (1 + ulp p) ^ k ≤ 1 + 2 * k * ulp p := by
  induction k with
  | zero => simp
  | succ k ih =>
    have hu := ulp_pos p
    push_cast at h ⊢
    have hk : 2 * (k : ℚ) * ulp p ≤ 1 := by linarith
    rw [pow_succ]
    have h0 : 0 ≤ 1 + ulp p := by linarith
    have := mul_le_mul_of_nonneg_right (ih hk) h0
    have h2 : 2 * (k : ℚ) * ulp p * ulp p ≤ 1 * ulp p := mul_le_mul_of_nonneg_right hk hu.le
    linarith

/-- **C45, error**: for fewer than eight million functions the error is below `(functions + 3) / 2²³`. -/
theorem overlap32_error (m1 m2 : OMap Name Nat) (h1 : OMap.Sorted m1) (h2 : OMap.Sorted m2)
    (t1 : OMap.total m1 < 18446744073709551616) (t2 : OMap.total m2 < 18446744073709551616)
    (hn : (names m1 ∪ names m2).card + 3 ≤ 8388608) :
    |overlap32 m1 m2 - overlap m1 m2| ≤ (((names m1 ∪ names m2).card + 3 : ℕ) : ℚ) / 8388608 := by
  obtain ⟨a, b⟩ := overlap32_near m1 m2 h1 h2 t1 t2
  obtain ⟨r0, r1⟩ := overlap_range m1 m2 h1 h2
  generalize (names m1 ∪ names m2).card + 3 = k at *
  have hk : (k : ℚ) ≤ 8388608 := by exact_mod_cast hn
  have hu : ulp 24 = 1 / 16777216 := by norm_num [ulp]
  have hg := grow_le 24 k (by rw [hu]; linarith)
  have hE : 2 * (k : ℚ) * ulp 24 = k / 8388608 := by rw [hu]; ring
  rw [hE] at hg
  have hk0 : (0 : ℚ) ≤ (k : ℚ) / 8388608 := by positivity
  have hk1 : (k : ℚ) / 8388608 ≤ 1 := by rw [div_le_one (by norm_num)]; exact hk
  obtain ⟨a1, a2⟩ := a
  have u1 : overlap32 m1 m2 ≤ overlap m1 m2 * (1 + k / 8388608) := a1.trans (mul_le_mul_of_nonneg_left hg r0)
  have u2 : overlap m1 m2 ≤ overlap32 m1 m2 * (1 + k / 8388608) := a2.trans (mul_le_mul_of_nonneg_left hg b)
  generalize overlap32 m1 m2 = x at *
  generalize overlap m1 m2 = y at *
  generalize (k : ℚ) / 8388608 = d at *
  rw [abs_le]
  constructor
  · rcases le_total x y with hxy | hxy
    · nlinarith
    · linarith
  · nlinarith

/-- **C45, a profile against itself**: 1 up to the error. -/
theorem overlap32_self (m : OMap Name Nat) (h : OMap.Sorted m) (h0 : OMap.total m ≠ 0) (ht : OMap.total m < 18446744073709551616)
    (hn : (names m).card + 3 ≤ 8388608) : |overlap32 m m - 1| ≤ (((names m).card + 3 : ℕ) : ℚ) / 8388608 := by
  have := overlap32_error m m h h ht ht (by rw [Finset.union_self]; exact hn)
  rwa [overlap_self m h h0, Finset.union_self] at this

/-- C45: the computed overlap is 0 exactly when no function has samples in both profiles. -/
theorem overlap32_zero_iff (m1 m2 : OMap Name Nat) (h1 : OMap.Sorted m1) (h2 : OMap.Sorted m2)
    (z1 : OMap.total m1 ≠ 0) (z2 : OMap.total m2 ≠ 0)
    (t1 : OMap.total m1 < 18446744073709551616) (t2 : OMap.total m2 < 18446744073709551616) :
    overlap32 m1 m2 = 0 ↔ ∀ n, OMap.get0 m1 n = 0 ∨ OMap.get0 m2 n = 0 := by
  rw [← overlap_zero_iff m1 m2 h1 h2 z1 z2]
  obtain ⟨a, b⟩ := overlap32_near m1 m2 h1 h2 t1 t2
  constructor
  · intro h
    rw [h] at a
    have := a.2
    rw [zero_mul] at this
    exact le_antisymm this (overlap_range m1 m2 h1 h2).1
  · intro h
    rw [h] at a
    have := a.1
    rw [zero_mul] at this
    exact le_antisymm this b

/-! ## Examples and violations -/

/-- Ten functions with one sample each. -/
def tenFunctions : OMap Name Nat := (List.range 10).map fun i => ([UInt8.ofNat i], 1)

/-- The hypotheses of the theorems above hold for ten functions against three, where the computed overlap is not exact. -/
theorem ex_overlap : OMap.Sorted tenFunctions ∧ OMap.total tenFunctions = 10 ∧ (names tenFunctions).card = 10 ∧
    overlap tenFunctions [([0], 1), ([3], 5), ([77], 4)] = 2 / 10 ∧
    overlap32 tenFunctions [([0], 1), ([3], 5), ([77], 4)] = 13421773 / 67108864 := by
  refine ⟨?_, ?_, ?_, ?_, ?_⟩
  · unfold OMap.Sorted; decide
  all_goals decide +kernel

/-- C45 fails: the overlap of ten equal functions with themselves is above 1. -/
theorem above_one_violated : overlap32 tenFunctions tenFunctions = 8388609 / 8388608 := by decide +kernel

/-- C45 fails: the overlap of a profile with itself can be below 1. -/
theorem below_one_violated : overlap32 ((List.range 12).map fun i => ([UInt8.ofNat i], 1)) ((List.range 12).map fun i => ([UInt8.ofNat i], 1)) =
    8388607 / 8388608 := by decide +kernel

theorem const_names (N : ℕ) : OMap.Sorted ((List.range N).map fun i => (List.replicate i (97 : UInt8), 1) : OMap Name Nat) ∧
    OMap.total ((List.range N).map fun i => (List.replicate i (97 : UInt8), 1) : OMap Name Nat) = N ∧
    ∀ e ∈ ((List.range N).map fun i => (List.replicate i (97 : UInt8), 1) : OMap Name Nat), e.2 = 1 := by
  refine ⟨?_, ?_, ?_⟩
  · unfold OMap.Sorted
    rw [List.pairwise_map]
    refine List.Pairwise.imp ?_ List.pairwise_lt_range
    intro a b hab
    induction a generalizing b with
    | zero =>
      obtain ⟨c, rfl⟩ : ∃ c, b = c + 1 := ⟨b - 1, by omega⟩
      exact List.nil_lt_cons _ _
    | succ a ih =>
      obtain ⟨c, rfl⟩ : ∃ c, b = c + 1 := ⟨b - 1, by omega⟩
      simp only [List.replicate_succ]
      exact List.cons_lt_cons_iff.2 (Or.inr ⟨rfl, ih (by omega)⟩)
  · unfold OMap.total
    rw [List.map_map]
    show (List.map (fun _ => 1) (List.range N)).sum = N
    simp
  · intro e he
    obtain ⟨i, _, rfl⟩ := List.mem_map.1 he
    rfl

theorem half_stays {a : ℚ} (h0 : 0 ≤ a) (h : a ≤ 1 / 2) : 0 ≤ f32 (a + 1 / 33554432) ∧ f32 (a + 1 / 33554432) ≤ 1 / 2 := by
  refine ⟨f32_nonneg (by linarith), ?_⟩
  have e : f32 (1 / 2 + 1 / 33554432) = 1 / 2 := by decide +kernel
  rw [← e]
  exact rnd_mono (by norm_num) (by linarith) (by linarith)

/-- C45 fails for very many functions: with 2²⁵ functions of one sample each the sum stops growing at 1/2, and the overlap of
the profile with itself is at most 1/2. -/
theorem stagnation_violated : ∃ m : OMap Name Nat, OMap.Sorted m ∧ OMap.total m = 33554432 ∧ overlap m m = 1 ∧ overlap32 m m ≤ 1 / 2 := by
  obtain ⟨h1, h2, h3⟩ := const_names 33554432
  generalize ((List.range 33554432).map fun i => (List.replicate i (97 : UInt8), 1) : OMap Name Nat) = m at *
  refine ⟨m, h1, h2, overlap_self m h1 (by rw [h2]; norm_num), ?_⟩
  have hs : (m.map Prod.snd).sum = 33554432 := h2
  obtain ⟨s1, f1⟩ := fill1_spec m h1
  obtain ⟨s2, f2⟩ := fill2_spec (fill1 m) m s1 h1
  have hv : ∀ e ∈ fill2 (fill1 m) m, e.2 = (1, 1) := by
    intro e he
    have hf := OMap.find?_some_of_mem s2 (k := e.1) (v := e.2) he
    rw [f2, f1] at hf
    cases hm : OMap.find? m e.1 with
    | none => simp [hm] at hf
    | some v =>
      have := h3 _ (OMap.mem_of_find?_some hm)
      simp only at this
      subst this
      simp only [hm, Option.map_some, Option.getD_some, Option.some.injEq] at hf
      exact hf.symm
  unfold overlap32
  rw [hs, if_neg (by norm_num)]
  have e1 : f32 (f32 ((1 : ℕ) : ℚ) / f32 ((33554432 % 18446744073709551616 : ℕ) : ℚ)) = 1 / 33554432 := by decide +kernel
  have key : ∀ (l : List (Name × Nat × Nat)), (∀ e ∈ l, e.2 = (1, 1)) → ∀ a : ℚ, 0 ≤ a → a ≤ 1 / 2 →
      l.foldl (fun a e => f32 (a + min (f32 (f32 (e.2.1 : ℚ) / f32 ((33554432 % 18446744073709551616 : ℕ) : ℚ)))
        (f32 (f32 (e.2.2 : ℚ) / f32 ((33554432 % 18446744073709551616 : ℕ) : ℚ))))) a ≤ 1 / 2 := by
    intro l
    induction l with
    | nil => intro _ a _ h; exact h
    | cons e t ih =>
      intro hl a h0 h
      rw [List.foldl_cons, hl e List.mem_cons_self, e1, min_self]
      exact ih (fun x hx => hl x (List.mem_cons_of_mem _ hx)) _ (half_stays h0 h).1 (half_stays h0 h).2
  exact key _ hv 0 (le_refl _) (by norm_num)

end Verif.Overlap

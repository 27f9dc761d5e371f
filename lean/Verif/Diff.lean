import Verif.SymList
import Mathlib.Data.List.TakeWhile

/-!
# C73: comparing two profiles (symbol_map.cc:1028-1102, profile_diff.cc:24-45)

`profile_diff --compare_function`: the hot functions of two profiles side by side.  A profile is the map from names to total counts.
The code prints percentages of the two maxima; here a row has the name and the two counts.
-/
namespace Verif.Diff
open Verif

/-- The maximum of the total counts (symbol_map.cc:1029-1038). -/
def maxTotal (m : OMap Name Nat) : Nat := m.foldl (fun a e => max e.2 a) 0

/-- `count_names_map` (symbol_map.cc:1041-1047, 1073-1079): the names by their counts. -/
def byCount (m : OMap Name Nat) : OMap Nat (List Name) :=
  m.foldl (fun g e => if e.2 > 0 then OMap.upsert e.2 (fun o => o.getD [] ++ [e.1]) g else g) []

/-- Below the cutoff (symbol_map.cc:1053-1054, 1085-1086, 1094-1095). -/
def cold (max cut total : Nat) : Bool := decide (total * 100 < max * cut)

/-- The first list (symbol_map.cc:1049-1070). -/
def rows1 (m₁ m₂ : OMap Name Nat) (cut : Nat) : List (Name × Nat × Nat) :=
  (byCount m₁).reverse.flatMap fun g =>
    (g.2.takeWhile fun n => !cold (maxTotal m₁) cut (OMap.get0 m₁ n)).map fun n => (n, OMap.get0 m₁ n, OMap.get0 m₂ n)

/-- The second list (symbol_map.cc:1081-1102). -/
def rows2 (m₁ m₂ : OMap Name Nat) (cut : Nat) : List (Name × Nat × Nat) :=
  (byCount m₂).reverse.flatMap fun g =>
    ((g.2.takeWhile fun n => !cold (maxTotal m₂) cut (OMap.get0 m₂ n)).filter fun n =>
      !((OMap.find? m₁ n).isSome && !cold (maxTotal m₁) cut (OMap.get0 m₁ n))).map fun n => (n, OMap.get0 m₁ n, OMap.get0 m₂ n)

/-- `DumpFuncLevelProfileCompare` (symbol_map.cc:1028-1102). -/
def compare (m₁ m₂ : OMap Name Nat) (cut : Nat) : List (Name × Nat × Nat) := rows1 m₁ m₂ cut ++ rows2 m₁ m₂ cut

/-! ## Specification -/

/-- `M` is the greatest count of the profile. -/
def IsMax (m : OMap Name Nat) (M : Nat) : Prop := (∀ e ∈ m, e.2 ≤ M) ∧ (M = 0 ∨ ∃ e ∈ m, e.2 = M)

/-- The function has samples, and at least `cut` percent of the hottest function's. -/
def Hot (m : OMap Name Nat) (M cut : Nat) (n : Name) : Prop := ∃ c, (n, c) ∈ m ∧ 0 < c ∧ M * cut ≤ c * 100

/-! ## Proof -/

theorem maxTotal_is (m : OMap Name Nat) : IsMax m (maxTotal m) := by
  unfold maxTotal
  have : ∀ (m : List (Name × Nat)) (a : Nat), (∀ e ∈ m, e.2 ≤ m.foldl (fun a e => max e.2 a) a) ∧ a ≤ m.foldl (fun a e => max e.2 a) a ∧
      (m.foldl (fun a e => max e.2 a) a = a ∨ ∃ e ∈ m, e.2 = m.foldl (fun a e => max e.2 a) a) := by
    intro m
    induction m with
    | nil => intro a; exact ⟨by simp, le_refl _, .inl rfl⟩
    | cons e t ih =>
      intro a
      obtain ⟨h1, h2, h3⟩ := ih (max e.2 a)
      simp only [List.foldl_cons]
      refine ⟨?_, by omega, ?_⟩
      · intro x hx
        rcases List.mem_cons.1 hx with rfl | hx
        · omega
        · exact h1 x hx
      · rcases h3 with h3 | ⟨x, hx, h3⟩
        · rcases Nat.le_total e.2 a with h | h
          · left; omega
          · right; exact ⟨e, List.mem_cons_self, by omega⟩
        · exact .inr ⟨x, List.mem_cons_of_mem _ hx, h3⟩
  obtain ⟨h1, _, h3⟩ := this m 0
  exact ⟨h1, h3⟩

theorem IsMax.unique {m : OMap Name Nat} {M M' : Nat} (h : IsMax m M) (h' : IsMax m M') : M = M' := by
  obtain ⟨h1, h2⟩ := h
  obtain ⟨h3, h4⟩ := h'
  rcases h2 with rfl | ⟨e, he, rfl⟩
  · rcases h4 with rfl | ⟨e, he, rfl⟩
    · rfl
    · have := h1 e he; omega
  · rcases h4 with rfl | ⟨e', he', rfl⟩
    · have := h3 e he; omega
    · have := h1 e' he'; have := h3 e he; omega

/-- The groups hold the functions with samples, each in the group of its count. -/
structure Groups (m : List (Name × Nat)) (g : OMap Nat (List Name)) : Prop where
  sorted : OMap.Sorted g
  mem : ∀ c n, (∃ l, (c, l) ∈ g ∧ n ∈ l) ↔ (n, c) ∈ m ∧ 0 < c
  nodup : ∀ c l, (c, l) ∈ g → l.Nodup

theorem byCount_groups (m : OMap Name Nat) (hm : OMap.Sorted m) : Groups m (byCount m) := by
  unfold byCount
  have key : ∀ (t done : List (Name × Nat)) (g : OMap Nat (List Name)), Groups done g → (done ++ t).Pairwise (fun a b => a.1 < b.1) →
      Groups (done ++ t) (t.foldl (fun g e => if e.2 > 0 then OMap.upsert e.2 (fun o => o.getD [] ++ [e.1]) g else g) g) := by
    intro t
    induction t with
    | nil => intro done g h _; simpa using h
    | cons e t ih =>
      intro done g h hp
      rw [List.foldl_cons]
      have hassoc : done ++ e :: t = (done ++ [e]) ++ t := by simp
      rw [hassoc] at hp ⊢
      apply ih _ _ _ hp
      have hnew : ∀ x ∈ done, x.1 < e.1 := by
        intro x hx
        have := (List.pairwise_append.1 (List.pairwise_append.1 hp).1).2.2 x hx e (by simp)
        exact this
      by_cases hz : e.2 > 0
      · rw [if_pos hz]
        have hs := h.sorted.upsert e.2 (fun o => o.getD [] ++ [e.1])
        have hf := fun x => OMap.find?_upsert h.sorted e.2 (fun o => o.getD [] ++ [e.1]) x
        refine ⟨hs, ?_, ?_⟩
        · intro c n
          constructor
          · rintro ⟨l, hl, hn⟩
            have hfl := OMap.find?_some_of_mem hs hl
            rw [hf] at hfl
            split at hfl
            · next heq =>
              subst heq
              cases hfl
              rcases List.mem_append.1 hn with hn | hn
              · cases hg : OMap.find? g e.2 with
                | none => rw [hg] at hn; simp at hn
                | some l' =>
                  rw [hg] at hn
                  have := (h.mem e.2 n).1 ⟨l', OMap.mem_of_find?_some hg, hn⟩
                  exact ⟨List.mem_append_left _ this.1, this.2⟩
              · rw [List.mem_singleton] at hn
                subst hn
                exact ⟨by simp, hz⟩
            · have := (h.mem c n).1 ⟨l, OMap.mem_of_find?_some hfl, hn⟩
              exact ⟨List.mem_append_left _ this.1, this.2⟩
          · rintro ⟨hn, hc⟩
            rcases List.mem_append.1 hn with hn | hn
            · obtain ⟨l, hl, hnl⟩ := (h.mem c n).2 ⟨hn, hc⟩
              have hfl := OMap.find?_some_of_mem h.sorted hl
              by_cases heq : c = e.2
              · subst heq
                have := hf e.2
                rw [if_pos rfl, hfl] at this
                exact ⟨_, OMap.mem_of_find?_some this, by simp [hnl]⟩
              · have := hf c
                rw [if_neg heq, hfl] at this
                exact ⟨_, OMap.mem_of_find?_some this, hnl⟩
            · rw [List.mem_singleton] at hn
              subst hn
              have := hf c
              rw [if_pos rfl] at this
              exact ⟨_, OMap.mem_of_find?_some this, by simp⟩
        · intro c l hl
          have hfl := OMap.find?_some_of_mem hs hl
          rw [hf] at hfl
          split at hfl
          · next heq =>
            subst heq
            cases hfl
            cases hg : OMap.find? g e.2 with
            | none => simp
            | some l' =>
              simp only [Option.getD_some]
              rw [List.nodup_append]
              refine ⟨h.nodup _ _ (OMap.mem_of_find?_some hg), by simp, ?_⟩
              intro a ha b hb hab
              rw [List.mem_singleton] at hb
              have := (h.mem e.2 a).1 ⟨l', OMap.mem_of_find?_some hg, ha⟩
              have := hnew _ this.1
              simp only at this
              rw [hab, hb] at this
              exact lt_irrefl _ this
          · exact h.nodup c l (OMap.mem_of_find?_some hfl)
      · rw [if_neg hz]
        refine ⟨h.sorted, ?_, h.nodup⟩
        intro c n
        rw [h.mem]
        constructor
        · rintro ⟨h1, h2⟩; exact ⟨List.mem_append_left _ h1, h2⟩
        · rintro ⟨h1, h2⟩
          rcases List.mem_append.1 h1 with h1 | h1
          · exact ⟨h1, h2⟩
          · rw [List.mem_singleton] at h1
            subst h1
            omega
  have := key m [] [] ⟨OMap.sorted_nil, by simp, by simp⟩ (by rw [List.nil_append]; exact hm)
  simpa using this

theorem get0_of_mem {m : OMap Name Nat} (hm : OMap.Sorted m) {n : Name} {c : Nat} (h : (n, c) ∈ m) : OMap.get0 m n = c := by
  unfold OMap.get0
  rw [OMap.find?_some_of_mem hm h]
  rfl

theorem group_takeWhile {m : OMap Name Nat} (hm : OMap.Sorted m) {g : OMap Nat (List Name)} (hg : Groups m g) {c : Nat} {l : List Name}
    (hl : (c, l) ∈ g) (M cut : Nat) : l.takeWhile (fun n => !cold M cut (OMap.get0 m n)) = if M * cut ≤ c * 100 then l else [] := by
  have hall : ∀ n ∈ l, OMap.get0 m n = c := fun n hn => get0_of_mem hm ((hg.mem c n).1 ⟨l, hl, hn⟩).1
  split
  · next h =>
    rw [List.takeWhile_eq_self_iff]
    intro n hn
    rw [hall n hn]
    simp [cold]; omega
  · next h =>
    cases l with
    | nil => rfl
    | cons n t =>
      rw [List.takeWhile_cons, hall n List.mem_cons_self, if_neg]
      simp [cold]; omega

/-- The rows of a list of groups. -/
theorem rows_names {m : OMap Name Nat} (hm : OMap.Sorted m) (M cut : Nat) (q : Name → Bool) (f : Name → Nat × Nat) :
    (∀ r, r ∈ ((byCount m).reverse.flatMap fun g => ((g.2.takeWhile fun n => !cold M cut (OMap.get0 m n)).filter q).map fun n => (n, f n)) ↔
      (Hot m M cut r.1 ∧ q r.1 = true) ∧ r.2 = f r.1) ∧
    (((byCount m).reverse.flatMap fun g => ((g.2.takeWhile fun n => !cold M cut (OMap.get0 m n)).filter q).map fun n => (n, f n)).map
      Prod.fst).Nodup := by
  have hg := byCount_groups m hm
  constructor
  · intro r
    rw [List.mem_flatMap]
    constructor
    · rintro ⟨⟨c, l⟩, hl, hr⟩
      rw [List.mem_reverse] at hl
      simp only at hr
      rw [group_takeWhile hm hg hl] at hr
      obtain ⟨n, hn, rfl⟩ := List.mem_map.1 hr
      rw [List.mem_filter] at hn
      split at hn
      · next h =>
        have := (hg.mem c n).1 ⟨l, hl, hn.1⟩
        exact ⟨⟨⟨c, this.1, this.2, h⟩, hn.2⟩, rfl⟩
      · simp at hn
    · rintro ⟨⟨⟨c, h1, h2, h3⟩, hq⟩, hr⟩
      obtain ⟨l, hl, hn⟩ := (hg.mem c r.1).2 ⟨h1, h2⟩
      refine ⟨(c, l), List.mem_reverse.2 hl, ?_⟩
      simp only
      rw [group_takeWhile hm hg hl, if_pos h3]
      exact List.mem_map.2 ⟨r.1, List.mem_filter.2 ⟨hn, hq⟩, by rw [← hr]⟩
  · rw [List.map_flatMap, List.nodup_flatMap]
    constructor
    · rintro ⟨c, l⟩ hl
      rw [List.mem_reverse] at hl
      simp only
      rw [group_takeWhile hm hg hl, List.map_map]
      have : (Prod.fst ∘ fun n : Name => (n, f n)) = id := rfl
      rw [this, List.map_id]
      refine List.Nodup.filter _ ?_
      split
      · exact hg.nodup c l hl
      · exact List.nodup_nil
    · rw [List.pairwise_reverse]
      refine List.Pairwise.imp_of_mem ?_ hg.sorted
      intro a b ha hb hab x hxb hxa
      simp only [List.map_map, List.mem_map, List.mem_filter, Function.comp_apply] at hxa hxb
      obtain ⟨n, ⟨hn, _⟩, rfl⟩ := hxb
      obtain ⟨n', ⟨hn', _⟩, heq⟩ := hxa
      subst heq
      have h1 := (hg.mem a.1 n').1 ⟨a.2, ha, (List.takeWhile_sublist _).subset hn'⟩
      have h2 := (hg.mem b.1 n').1 ⟨b.2, hb, (List.takeWhile_sublist _).subset hn⟩
      have h3 := get0_of_mem hm h1.1
      have h4 := get0_of_mem hm h2.1
      omega

/-- **C73.** For every two profiles, their greatest counts and every cutoff: no function is listed twice; each row has the counts of
both profiles (0 if there is no such function); and the functions listed are those hot in the first profile, and those hot in the
second and not, in the first, present with at least the cutoff. -/
theorem compare_lists (m₁ m₂ : OMap Name Nat) (h₁ : OMap.Sorted m₁) (h₂ : OMap.Sorted m₂) (cut M₁ M₂ : Nat) (hM₁ : IsMax m₁ M₁)
    (hM₂ : IsMax m₂ M₂) : ((compare m₁ m₂ cut).map Prod.fst).Nodup ∧
      (∀ n c₁ c₂, (n, c₁, c₂) ∈ compare m₁ m₂ cut ↔ (Hot m₁ M₁ cut n ∨ (Hot m₂ M₂ cut n ∧ ¬ ∃ c, (n, c) ∈ m₁ ∧ M₁ * cut ≤ c * 100)) ∧
        c₁ = (OMap.find? m₁ n).getD 0 ∧ c₂ = (OMap.find? m₂ n).getD 0) := by
  cases hM₁.unique (maxTotal_is m₁)
  cases hM₂.unique (maxTotal_is m₂)
  obtain ⟨a1, a2⟩ := rows_names h₁ (maxTotal m₁) cut (fun _ => true) (fun n => (OMap.get0 m₁ n, OMap.get0 m₂ n))
  obtain ⟨b1, b2⟩ := rows_names h₂ (maxTotal m₂) cut (fun n => !((OMap.find? m₁ n).isSome && !cold (maxTotal m₁) cut (OMap.get0 m₁ n)))
    (fun n => (OMap.get0 m₁ n, OMap.get0 m₂ n))
  simp only [List.filter_true] at a1 a2
  have hq : ∀ n, (!((OMap.find? m₁ n).isSome && !cold (maxTotal m₁) cut (OMap.get0 m₁ n))) = true ↔
      ¬ ∃ c, (n, c) ∈ m₁ ∧ maxTotal m₁ * cut ≤ c * 100 := by
    intro n
    cases hf : OMap.find? m₁ n with
    | none =>
      simp only [Option.isSome_none, Bool.false_and, Bool.not_false, true_iff]
      rintro ⟨c, hc, _⟩
      rw [OMap.find?_some_of_mem h₁ hc] at hf
      cases hf
    | some c =>
      simp only [Option.isSome_some, Bool.true_and, Bool.not_not, OMap.get0, hf, Option.getD_some, cold, decide_eq_true_eq]
      constructor
      · rintro hlt ⟨c', hc', hle⟩
        rw [OMap.find?_some_of_mem h₁ hc'] at hf
        cases hf
        omega
      · intro h
        by_contra hge
        exact h ⟨c, OMap.mem_of_find?_some hf, by omega⟩
  constructor
  · unfold compare
    rw [List.map_append, List.nodup_append]
    refine ⟨a2, b2, ?_⟩
    intro n hn n' hn' heq
    subst heq
    obtain ⟨r, hr, rfl⟩ := List.mem_map.1 hn
    obtain ⟨r', hr', heq⟩ := List.mem_map.1 hn'
    have ha := ((a1 r).1 hr).1.1
    have hb := ((b1 r').1 hr').1.2
    rw [heq, hq] at hb
    obtain ⟨c, h, _, h'⟩ := ha
    exact hb ⟨c, h, h'⟩
  · intro n c₁ c₂
    unfold compare
    rw [List.mem_append]
    unfold rows1 rows2
    rw [a1, b1, hq]
    simp only [Prod.mk.injEq, OMap.get0, and_true]
    tauto

/-- With a positive cutoff and samples in the first profile: the functions that are hot in one of the two. -/
theorem compare_hot (m₁ m₂ : OMap Name Nat) (h₁ : OMap.Sorted m₁) (h₂ : OMap.Sorted m₂) (cut M₁ M₂ : Nat) (hM₁ : IsMax m₁ M₁)
    (hM₂ : IsMax m₂ M₂) (hcut : 0 < cut) (hpos : 0 < M₁) (n : Name) :
    n ∈ (compare m₁ m₂ cut).map Prod.fst ↔ Hot m₁ M₁ cut n ∨ Hot m₂ M₂ cut n := by
  obtain ⟨_, h⟩ := compare_lists m₁ m₂ h₁ h₂ cut M₁ M₂ hM₁ hM₂
  rw [List.mem_map]
  constructor
  · rintro ⟨⟨n', c₁, c₂⟩, hr, rfl⟩
    rcases ((h n' c₁ c₂).1 hr).1 with h | h
    · exact .inl h
    · exact .inr h.1
  · intro hh
    refine ⟨(n, (OMap.find? m₁ n).getD 0, (OMap.find? m₂ n).getD 0), (h _ _ _).2 ⟨?_, rfl, rfl⟩, rfl⟩
    by_cases h1 : Hot m₁ M₁ cut n
    · exact .inl h1
    · refine .inr ⟨hh.resolve_left h1, ?_⟩
      rintro ⟨c, hc, hle⟩
      have : 0 < M₁ * cut := Nat.mul_pos hpos hcut
      exact h1 ⟨c, hc, by omega, hle⟩

/-- Within each of the two parts the hottest function comes first. -/
theorem compare_sorted (m₁ m₂ : OMap Name Nat) (h₁ : OMap.Sorted m₁) (h₂ : OMap.Sorted m₂) (cut : Nat) :
    (rows1 m₁ m₂ cut).Pairwise (fun a b => a.2.1 ≥ b.2.1) ∧ (rows2 m₁ m₂ cut).Pairwise (fun a b => a.2.2 ≥ b.2.2) := by
  constructor
  · unfold rows1
    have hg := byCount_groups m₁ h₁
    have hin : ∀ g ∈ byCount m₁, ∀ n ∈ g.2, OMap.get0 m₁ n = g.1 := fun g hg' n hn => get0_of_mem h₁ ((hg.mem g.1 n).1 ⟨g.2, hg', hn⟩).1
    rw [List.pairwise_flatMap]
    constructor
    · intro g hg'
      rw [List.mem_reverse] at hg'
      rw [List.pairwise_map]
      refine List.Pairwise.imp_of_mem ?_ (List.pairwise_of_forall (R := fun _ _ => True) (fun _ _ => trivial))
      intro a b ha hb _
      simp only
      rw [hin g hg' a ((List.takeWhile_sublist _).subset ha), hin g hg' b ((List.takeWhile_sublist _).subset hb)]
    · rw [List.pairwise_reverse]
      refine List.Pairwise.imp_of_mem ?_ hg.sorted
      intro a b ha hb hab x hx y hy
      obtain ⟨n, hn, rfl⟩ := List.mem_map.1 hx
      obtain ⟨n', hn', rfl⟩ := List.mem_map.1 hy
      simp only
      rw [hin b hb n ((List.takeWhile_sublist _).subset hn), hin a ha n' ((List.takeWhile_sublist _).subset hn')]
      omega
  · unfold rows2
    have hg := byCount_groups m₂ h₂
    have hin : ∀ g ∈ byCount m₂, ∀ n ∈ g.2, OMap.get0 m₂ n = g.1 := fun g hg' n hn => get0_of_mem h₂ ((hg.mem g.1 n).1 ⟨g.2, hg', hn⟩).1
    rw [List.pairwise_flatMap]
    constructor
    · intro g hg'
      rw [List.mem_reverse] at hg'
      rw [List.pairwise_map]
      refine List.Pairwise.imp_of_mem ?_ (List.pairwise_of_forall (R := fun _ _ => True) (fun _ _ => trivial))
      intro a b ha hb _
      simp only
      rw [hin g hg' a ((List.takeWhile_sublist _).subset (List.mem_filter.1 ha).1),
        hin g hg' b ((List.takeWhile_sublist _).subset (List.mem_filter.1 hb).1)]
    · rw [List.pairwise_reverse]
      refine List.Pairwise.imp_of_mem ?_ hg.sorted
      intro a b ha hb hab x hx y hy
      obtain ⟨n, hn, rfl⟩ := List.mem_map.1 hx
      obtain ⟨n', hn', rfl⟩ := List.mem_map.1 hy
      simp only
      rw [hin b hb n ((List.takeWhile_sublist _).subset (List.mem_filter.1 hn).1),
        hin a ha n' ((List.takeWhile_sublist _).subset (List.mem_filter.1 hn').1)]
      omega

/-! ## Concrete cases -/

def exD1 : OMap Name Nat := [([97], 100), ([98], 1), ([99], 50)]
def exD2 : OMap Name Nat := [([98], 70), ([99], 80), ([100], 1)]

theorem exD_rows : compare exD1 exD2 2 = [([97], 100, 0), ([99], 50, 80), ([98], 1, 70)] ∧ OMap.Sorted exD1 ∧ OMap.Sorted exD2 ∧
    IsMax exD1 100 ∧ IsMax exD2 80 := by
  refine ⟨by decide, by unfold OMap.Sorted; decide, by unfold OMap.Sorted; decide, ⟨by decide, .inr ?_⟩, ⟨by decide, .inr ?_⟩⟩ <;> decide

/-- A function without samples in the first profile and hot in the second is not listed at all if the first profile has no samples,
or the cutoff is 0. -/
theorem compare_missing_violated : compare [([97], 0)] [([97], 1000)] 2 = [] ∧ Hot [([97], 1000)] 1000 2 [97] ∧
    compare [([97], 0), ([98], 5)] [([97], 1000)] 0 = [([98], 5, 0)] := by
  refine ⟨by decide, ⟨1000, by decide, by decide, by decide⟩, by decide⟩

end Verif.Diff

import Verif.RangeMap

/-! # C61: what an insertion adds to a range map -/
namespace Verif.RangeMap
open Verif

variable {V : Type}

theorem mem_set_new {m : RMap V} (hs : OMap.Sorted m) {k hi : Nat} {v : V} {e : Nat × (Nat × V)}
    (h : e ∈ OMap.set k (hi, v) m) : e = (k, (hi, v)) ∨ e ∈ m := by
  obtain ⟨a, b, c⟩ := e
  have hs' : OMap.Sorted (OMap.set k (hi, v) m) := OMap.Sorted.upsert hs _ _
  rw [mem_iff_find hs', OMap.set, OMap.find?_upsert hs] at h
  split at h
  · rename_i hk
    simp only [Option.some.injEq, Prod.mk.injEq] at h
    exact Or.inl (by rw [hk, h.1, h.2])
  · exact Or.inr ((mem_iff_find hs a b c).2 h)

theorem mem_emplace_new {m : RMap V} (hs : OMap.Sorted m) {k hi : Nat} {v : V} {e : Nat × (Nat × V)}
    (h : e ∈ OMap.emplace k (hi, v) m) : e = (k, (hi, v)) ∨ e ∈ m := by
  obtain ⟨a, b, c⟩ := e
  have hs' : OMap.Sorted (OMap.emplace k (hi, v) m) := OMap.Sorted.upsert hs _ _
  rw [mem_iff_find hs', OMap.emplace, OMap.find?_upsert hs] at h
  split at h
  · rename_i hk
    cases hf : OMap.find? m k with
    | none =>
      rw [hf] at h
      simp only [Option.getD_none, Option.some.injEq, Prod.mk.injEq] at h
      exact Or.inl (by rw [hk, h.1, h.2])
    | some w =>
      rw [hf] at h
      simp only [Option.getD_some, Option.some.injEq] at h
      refine Or.inr ((mem_iff_find hs a b c).2 ?_)
      rw [hk, hf, h]
  · exact Or.inr ((mem_iff_find hs a b c).2 h)

theorem insertNew_entries {m m' : RMap V} (hs : OMap.Sorted m) {lo hi : Nat} {v : V}
    (h : insertNew m lo hi v = some m') : OMap.Sorted m' ∧ ∀ e ∈ m', e = (lo, (hi, v)) ∨ e ∈ m := by
  unfold insertNew at h
  split at h
  · cases h
  · cases h
    exact ⟨OMap.Sorted.upsert hs _ _, fun e he => mem_set_new hs he⟩

/-- The loop only adds pieces of the inserted range. -/
theorem fill_entries (high : Nat) (v : V) (L : Nat) (hL : L ≤ high) : ∀ (s : List (Nat × (Nat × V))) (m : RMap V)
    (low : Nat) (m' : RMap V), OMap.Sorted m → L ≤ low → (∀ x ∈ s, L ≤ x.2.1) → fill high v s m low = some m' →
    ∀ e ∈ m', e ∈ m ∨ (L ≤ e.1 ∧ e.2.1 ≤ high ∧ e.2.2 = v) := by
  intro s
  induction s with
  | nil =>
    intro m low m' hs hlow _ h e he
    unfold fill at h
    split at h
    · cases h
      rcases mem_emplace_new hs he with rfl | he
      · exact Or.inr ⟨hlow, Nat.le_refl _, rfl⟩
      · exact Or.inl he
    · cases h
      exact Or.inl he
  | cons x xs ih =>
    intro m low m' hs hlow hx h e he
    have hx1 := hx x List.mem_cons_self
    have hxs : ∀ y ∈ xs, L ≤ y.2.1 := fun y hy => hx y (List.mem_cons_of_mem _ hy)
    unfold fill at h
    split at h
    · split at h
      · split at h
        · cases h1 : insertNew m low (min high x.1) v with
          | none => rw [h1] at h; cases h
          | some m1 =>
            rw [h1, Option.bind_some] at h
            obtain ⟨a1, a2⟩ := insertNew_entries hs h1
            rcases ih m1 _ m' a1 (by omega) hxs h e he with h2 | h2
            · rcases a2 e h2 with rfl | h3
              · exact Or.inr ⟨hlow, by simp only; omega, rfl⟩
              · exact Or.inl h3
            · exact Or.inr h2
        · cases h
      · exact ih m _ m' hs (by omega) hxs h e he
    · cases h
      exact Or.inl he

/-- An accepted insertion that is not nested in a stored range only adds pieces of the inserted range. -/
theorem insertRange_entries {m m' : RMap V} {low high : Nat} {v : V} (hm : NonOverlapping m) (hle : low ≤ high)
    (hn : ¬ Nested m low high) (h : insertRange m low high v = some m') :
    ∀ e ∈ m', e ∈ m ∨ (low ≤ e.1 ∧ e.2.1 ≤ high ∧ e.2.2 = v) := by
  unfold insertRange at h
  split at h
  · cases h
    exact fun e he => Or.inl he
  · simp only at h
    have hin1 : ∀ x ∈ (m.takeWhile fun e => decide (e.1 < low)), x ∈ m := fun x hx => (List.takeWhile_sublist _).subset hx
    have hin2 : ∀ x ∈ (m.dropWhile fun e => decide (e.1 < low)), x ∈ m := fun x hx => (List.dropWhile_sublist _).subset hx
    have hnc : ∀ x ∈ m, strictlyContains x.1 x.2.1 low high = false := by
      intro x hx
      by_contra hc
      rw [Bool.not_eq_false, strictlyContains_iff] at hc
      exact hn ⟨x, hx, hc⟩
    have hfill : ∀ m', fill high v (m.dropWhile fun e => decide (e.1 < low)) m low = some m' →
        ∀ e ∈ m', e ∈ m ∨ (low ≤ e.1 ∧ e.2.1 ≤ high ∧ e.2.2 = v) := by
      intro m' h
      refine fill_entries high v low hle _ m low m' hm.1 (Nat.le_refl _) ?_ h
      intro x hx
      have h1 := mem_dropWhile_ge hm.1 low x hx
      have h2 := hm.2.1 x (hin2 x hx)
      omega
    have hfrom : ∀ m', insertFrom m (m.dropWhile fun e => decide (e.1 < low)) low high v = some m' →
        ∀ e ∈ m', e ∈ m ∨ (low ≤ e.1 ∧ e.2.1 ≤ high ∧ e.2.2 = v) := by
      intro m' h
      unfold insertFrom at h
      split at h
      · rename_i x hx
        rw [hnc x (hin2 x (List.mem_of_mem_head? hx))] at h
        exact hfill m' h
      · exact hfill m' h
    split at h
    · rename_i p hp
      rw [hnc p (hin1 p (List.mem_of_getLast? hp))] at h
      simp only [Bool.false_eq_true, if_false] at h
      split at h
      · exact hfrom m' h
      · cases h
    · exact hfrom m' h

end Verif.RangeMap

import Mathlib.Order.Defs.LinearOrder
import Mathlib.Tactic.Ring

/-!
# `std::map` as a strictly sorted association list

Library used by the models: `std::map<K,V>` / `absl::btree_map<K,V>` iterate in increasing key
order and hold one value per key.  The sortedness invariant is a separate predicate.
-/
namespace Verif

/-- Model of `std::map<K,V>`: association list, kept sorted by key (see `OMap.Sorted`). -/
abbrev OMap (K V : Type) := List (K × V)

namespace OMap
variable {K V : Type} [LinearOrder K]

/-- Keys strictly increase: the representation invariant of `std::map`. -/
def Sorted (m : OMap K V) : Prop := m.Pairwise (fun a b => a.1 < b.1)

/-- `m.find(k)`. -/
def find? : OMap K V → K → Option V
  | [], _ => none
  | (k', v) :: t, k => if k = k' then some v else find? t k

/-- `m[k] = f (old value)`; inserts when absent (`std::map::operator[]`). -/
def upsert (k : K) (f : Option V → V) : OMap K V → OMap K V
  | [] => [(k, f none)]
  | (k', v) :: t =>
    if k < k' then (k, f none) :: (k', v) :: t
    else if k = k' then (k, f (some v)) :: t
    else (k', v) :: upsert k f t

/-- `m.erase(k)`. -/
def erase (k : K) : OMap K V → OMap K V
  | [] => []
  | (k', v) :: t => if k = k' then t else (k', v) :: erase k t

/-- `m[k] = v`. -/
def set (k : K) (v : V) (m : OMap K V) : OMap K V := upsert k (fun _ => v) m

/-- `m.insert({k,v})`: keeps an existing value. -/
def emplace (k : K) (v : V) (m : OMap K V) : OMap K V := upsert k (fun o => o.getD v) m

theorem sorted_nil : Sorted ([] : OMap K V) := List.Pairwise.nil

theorem mem_upsert_keys {k : K} {f : Option V → V} {m : OMap K V} {p : K × V}
    (h : p ∈ upsert k f m) : p.1 = k ∨ p ∈ m := by
  induction m with
  | nil => simp [upsert] at h; left; rw [h]
  | cons a t ih =>
    obtain ⟨k', v⟩ := a
    unfold upsert at h
    split at h
    · rcases List.mem_cons.1 h with h | h
      · left; rw [h]
      · right; exact h
    · split at h
      · rcases List.mem_cons.1 h with h | h
        · left; rw [h]
        · right; exact List.mem_cons_of_mem _ h
      · rcases List.mem_cons.1 h with h | h
        · right; rw [h]; exact List.mem_cons_self
        · rcases ih h with h | h
          · left; exact h
          · right; exact List.mem_cons_of_mem _ h

theorem Sorted.upsert {m : OMap K V} (hm : Sorted m) (k : K) (f : Option V → V) :
    Sorted (upsert k f m) := by
  induction m with
  | nil => simp [OMap.upsert, Sorted]
  | cons a t ih =>
    obtain ⟨k', v⟩ := a
    have ht : Sorted t := (List.pairwise_cons.1 hm).2
    have hk' := (List.pairwise_cons.1 hm).1
    unfold OMap.upsert
    split
    · rename_i hlt
      refine List.pairwise_cons.2 ⟨?_, hm⟩
      intro p hp
      rcases List.mem_cons.1 hp with h | h
      · rw [h]; exact hlt
      · exact lt_trans hlt (hk' p h)
    · split
      · rename_i _ heq
        subst heq
        exact List.pairwise_cons.2 ⟨hk', ht⟩
      · rename_i h1 h2
        refine List.pairwise_cons.2 ⟨?_, ih ht⟩
        intro p hp
        rcases mem_upsert_keys hp with h | h
        · show k' < p.1
          rw [h]; exact lt_of_le_of_ne (not_lt.1 h1) (Ne.symm h2)
        · exact hk' p h

theorem find?_eq_none_of_lt {m : OMap K V} {k : K} (h : ∀ p ∈ m, k < p.1) : find? m k = none := by
  induction m with
  | nil => rfl
  | cons a t ih =>
    obtain ⟨k', v⟩ := a
    have := h (k', v) List.mem_cons_self
    simp only [find?]
    rw [if_neg (ne_of_lt this)]
    exact ih (fun p hp => h p (List.mem_cons_of_mem _ hp))

theorem find?_upsert {m : OMap K V} (hm : Sorted m) (k : K) (f : Option V → V) (x : K) :
    find? (upsert k f m) x = if x = k then some (f (find? m k)) else find? m x := by
  induction m with
  | nil => simp only [upsert, find?]
  | cons a t ih =>
    obtain ⟨k', v⟩ := a
    have ht : Sorted t := (List.pairwise_cons.1 hm).2
    have hk' := (List.pairwise_cons.1 hm).1
    unfold upsert
    split
    · rename_i hlt
      have hn : find? ((k', v) :: t) k = none := by
        apply find?_eq_none_of_lt
        intro p hp
        rcases List.mem_cons.1 hp with h | h
        · rw [h]; exact hlt
        · exact lt_trans hlt (hk' p h)
      rw [hn]; simp only [find?]
    · split
      · rename_i _ heq
        subst heq
        simp only [find?, if_true]
        split <;> rfl
      · rename_i h1 h2
        simp only [find?, ih ht]
        rw [if_neg h2]
        by_cases hx : x = k'
        · rw [if_pos hx, if_neg (by rw [hx]; exact Ne.symm h2), if_pos hx]
        · rw [if_neg hx]
          by_cases hxk : x = k
          · rw [if_pos hxk, if_pos hxk]
          · rw [if_neg hxk, if_neg hxk, if_neg hx]

theorem find?_some_of_mem {m : OMap K V} (hm : Sorted m) {k : K} {v : V} (h : (k, v) ∈ m) :
    find? m k = some v := by
  induction m with
  | nil => cases h
  | cons a t ih =>
    obtain ⟨k', v'⟩ := a
    have ht : Sorted t := (List.pairwise_cons.1 hm).2
    have hk' := (List.pairwise_cons.1 hm).1
    simp only [find?]
    rcases List.mem_cons.1 h with h | h
    · cases h; rw [if_pos rfl]
    · have := hk' _ h
      rw [if_neg (ne_of_gt this)]
      exact ih ht h

theorem mem_of_find?_some {m : OMap K V} {k : K} {v : V} (h : find? m k = some v) :
    (k, v) ∈ m := by
  induction m with
  | nil => cases h
  | cons a t ih =>
    obtain ⟨k', v'⟩ := a
    simp only [find?] at h
    split at h
    · rename_i heq; subst heq; cases h; exact List.mem_cons_self
    · exact List.mem_cons_of_mem _ (ih h)

theorem find?_eq_some_iff {m : OMap K V} (hm : Sorted m) {k : K} {v : V} :
    find? m k = some v ↔ (k, v) ∈ m :=
  ⟨mem_of_find?_some, find?_some_of_mem hm⟩

/-- Sorted maps are determined by their lookups. -/
theorem ext {m₁ m₂ : OMap K V} (h₁ : Sorted m₁) (h₂ : Sorted m₂)
    (h : ∀ k, find? m₁ k = find? m₂ k) : m₁ = m₂ := by
  induction m₁ generalizing m₂ with
  | nil =>
    cases m₂ with
    | nil => rfl
    | cons b t =>
      have := h b.1
      simp [find?] at this
  | cons a t ih =>
    obtain ⟨k, v⟩ := a
    cases m₂ with
    | nil => have := h k; simp [find?] at this
    | cons b t₂ =>
      obtain ⟨k₂, v₂⟩ := b
      have ht₁ := (List.pairwise_cons.1 h₁).2
      have hk₁ := (List.pairwise_cons.1 h₁).1
      have ht₂ := (List.pairwise_cons.1 h₂).2
      have hk₂ := (List.pairwise_cons.1 h₂).1
      have hkk : k = k₂ := by
        rcases lt_trichotomy k k₂ with hl | he | hl
        · have h' := h k
          have hn : find? ((k₂, v₂) :: t₂) k = none := by
            apply find?_eq_none_of_lt
            intro p hp
            rcases List.mem_cons.1 hp with e | e
            · rw [e]; exact hl
            · exact lt_trans hl (hk₂ p e)
          rw [hn] at h'; simp [find?] at h'
        · exact he
        · have h' := h k₂
          have hn : find? ((k, v) :: t) k₂ = none := by
            apply find?_eq_none_of_lt
            intro p hp
            rcases List.mem_cons.1 hp with e | e
            · rw [e]; exact hl
            · exact lt_trans hl (hk₁ p e)
          rw [hn] at h'; simp [find?] at h'
      subst hkk
      have hv : v = v₂ := by have := h k; simpa [find?] using this
      subst hv
      congr 1
      apply ih ht₁ ht₂
      intro x
      by_cases hx : x = k
      · subst hx
        rw [find?_eq_none_of_lt hk₁, find?_eq_none_of_lt hk₂]
      · have := h x
        simpa [find?, hx] using this

theorem Sorted.erase {m : OMap K V} (hm : Sorted m) (k : K) : Sorted (erase k m) := by
  have hsub : List.Sublist (OMap.erase k m) m := by
    clear hm
    induction m with
    | nil => exact List.Sublist.slnil
    | cons a t ih =>
      obtain ⟨k', v⟩ := a
      unfold OMap.erase
      split
      · exact List.sublist_cons_self _ _
      · exact List.Sublist.cons_cons _ ih
  exact List.Pairwise.sublist hsub hm

theorem find?_erase {m : OMap K V} (hm : Sorted m) (k x : K) :
    find? (erase k m) x = if x = k then none else find? m x := by
  induction m with
  | nil => simp [erase, find?]
  | cons a t ih =>
    obtain ⟨k', v⟩ := a
    have ht : Sorted t := (List.pairwise_cons.1 hm).2
    have hk' := (List.pairwise_cons.1 hm).1
    unfold erase
    split
    · rename_i heq
      subst heq
      simp only [find?]
      split
      · rename_i hx; subst hx; exact find?_eq_none_of_lt hk'
      · rfl
    · rename_i hne
      simp only [find?, ih ht]
      by_cases hx : x = k'
      · rw [if_pos hx, if_pos hx, if_neg (by rw [hx]; exact Ne.symm hne)]
      · rw [if_neg hx, if_neg hx]

end OMap

/-! ## Additive maps (`m[k] += v`) -/
namespace OMap
variable {K : Type} [LinearOrder K]

/-- `m[k] += v` for a map of unsigned counters. -/
def add (m : OMap K Nat) (kv : K × Nat) : OMap K Nat :=
  upsert kv.1 (fun o => o.getD 0 + kv.2) m

/-- Value at `k`, 0 when absent. -/
def get0 (m : OMap K Nat) (k : K) : Nat := (find? m k).getD 0

/-- `for (auto [k,v] : xs) m[k] += v;` -/
def addAll (m : OMap K Nat) (xs : List (K × Nat)) : OMap K Nat := xs.foldl add m

/-- Sum of the second components of those pairs whose key is `k`. -/
def sumAt (xs : List (K × Nat)) (k : K) : Nat :=
  ((xs.filter (fun p => p.1 = k)).map Prod.snd).sum

theorem Sorted.add {m : OMap K Nat} (hm : Sorted m) (kv : K × Nat) : Sorted (add m kv) :=
  hm.upsert _ _

theorem Sorted.addAll {m : OMap K Nat} (hm : Sorted m) (xs : List (K × Nat)) :
    Sorted (addAll m xs) := by
  induction xs generalizing m with
  | nil => exact hm
  | cons a t ih => exact ih (hm.add a)

theorem find?_add {m : OMap K Nat} (hm : Sorted m) (kv : K × Nat) (x : K) :
    find? (add m kv) x = if x = kv.1 then some (get0 m kv.1 + kv.2) else find? m x := by
  unfold add get0; rw [find?_upsert hm]

theorem find?_addAll {m : OMap K Nat} (hm : Sorted m) (xs : List (K × Nat)) (x : K) :
    find? (addAll m xs) x =
      if x ∈ xs.map Prod.fst ∨ (find? m x).isSome then some (get0 m x + sumAt xs x) else none := by
  induction xs generalizing m with
  | nil =>
    simp [addAll, get0, sumAt]
    cases h : find? m x <;> simp
  | cons a t ih =>
    have : addAll m (a :: t) = addAll (add m a) t := rfl
    rw [this, ih (hm.add a)]
    unfold get0
    rw [find?_add hm]
    by_cases hx : x = a.1
    · subst hx
      simp [sumAt, get0]
      ring
    · have hx' : ¬ a.1 = x := fun h => hx h.symm
      have hs : sumAt (a :: t) x = sumAt t x := by simp [sumAt, hx']
      rw [if_neg hx, hs, List.map_cons]
      simp only [List.mem_cons, hx, false_or]

theorem get0_addAll {m : OMap K Nat} (hm : Sorted m) (xs : List (K × Nat)) (x : K) :
    get0 (addAll m xs) x = get0 m x + sumAt xs x := by
  unfold get0
  rw [find?_addAll hm]
  split
  · simp [get0]
  · rename_i h
    rw [not_or] at h
    have h1 : find? m x = none := by
      cases hf : find? m x with
      | none => rfl
      | some v => simp [hf] at h
    have h2 : sumAt xs x = 0 := by
      unfold sumAt
      have : xs.filter (fun p => p.1 = x) = [] := by
        apply List.filter_eq_nil_iff.2
        intro p hp hpx
        apply h.1
        simp at hpx
        rw [← hpx]; exact List.mem_map_of_mem hp
      rw [this]; rfl
    simp [h1, h2]

theorem sumAt_perm {xs ys : List (K × Nat)} (h : xs.Perm ys) (k : K) : sumAt xs k = sumAt ys k := by
  unfold sumAt
  exact ((h.filter _).map _).sum_nat

theorem sumAt_append (xs ys : List (K × Nat)) (k : K) :
    sumAt (xs ++ ys) k = sumAt xs k + sumAt ys k := by
  simp [sumAt]

theorem addAll_perm {m : OMap K Nat} (hm : Sorted m) {xs ys : List (K × Nat)} (h : xs.Perm ys) :
    addAll m xs = addAll m ys := by
  apply ext (hm.addAll _) (hm.addAll _)
  intro k
  rw [find?_addAll hm, find?_addAll hm, sumAt_perm h]
  have : (k ∈ xs.map Prod.fst) ↔ (k ∈ ys.map Prod.fst) := (h.map Prod.fst).mem_iff
  simp only [this]

theorem sumAt_of_sorted {m : OMap K Nat} (hm : Sorted m) (k : K) : sumAt m k = get0 m k := by
  induction m with
  | nil => simp [sumAt, get0, find?]
  | cons a t ih =>
    obtain ⟨k', v⟩ := a
    have ht : Sorted t := (List.pairwise_cons.1 hm).2
    have hk' := (List.pairwise_cons.1 hm).1
    have e : sumAt ((k', v) :: t) k = (if k' = k then v else 0) + sumAt t k := by
      unfold sumAt
      by_cases h : k' = k <;> simp [h]
    rw [e, ih ht]
    by_cases h : k' = k
    · subst h
      simp [get0, find?, find?_eq_none_of_lt hk']
    · have h' : ¬ k = k' := fun e => h e.symm
      simp [get0, find?, h, h']

theorem mem_keys_iff {m : OMap K Nat} (k : K) :
    k ∈ m.map Prod.fst ↔ (find? m k).isSome := by
  induction m with
  | nil => simp [find?]
  | cons a t ih =>
    obtain ⟨k', v⟩ := a
    simp only [List.map_cons, List.mem_cons, ih, find?]
    by_cases h : k = k' <;> simp [h]

/-- Sum of all counters. -/
def total (m : OMap K Nat) : Nat := (m.map Prod.snd).sum

theorem total_add (m : OMap K Nat) (kv : K × Nat) : total (add m kv) = total m + kv.2 := by
  obtain ⟨k, c⟩ := kv
  unfold add total
  induction m with
  | nil => simp [upsert]
  | cons a t ih =>
    obtain ⟨k', v⟩ := a
    unfold upsert
    split
    · simp; omega
    · split
      · simp; omega
      · simp at ih ⊢; omega

theorem total_addAll (m : OMap K Nat) (xs : List (K × Nat)) :
    total (addAll m xs) = total m + (xs.map Prod.snd).sum := by
  induction xs generalizing m with
  | nil => simp [addAll]
  | cons a t ih =>
    have : addAll m (a :: t) = addAll (add m a) t := rfl
    rw [this, ih, total_add]; simp; omega

end OMap
end Verif

namespace Verif.OMap
variable {K V : Type} [LinearOrder K]

/-- `it = m.upper_bound(k); it == begin ? none : *--it`: the last entry whose key is `≤ k`. -/
def floor? : OMap K V → K → Option (K × V)
  | [], _ => none
  | (a, v) :: t, k => if a ≤ k then (floor? t k).or (some (a, v)) else none

/-- `m.upper_bound(k)` dereferenced: the first entry whose key is `> k`. -/
def upper? : OMap K V → K → Option (K × V)
  | [], _ => none
  | (a, v) :: t, k => if a ≤ k then upper? t k else some (a, v)

theorem floor?_mem {m : OMap K V} {k : K} {e : K × V} (h : floor? m k = some e) : e ∈ m ∧ e.1 ≤ k := by
  induction m with
  | nil => cases h
  | cons a t ih =>
    obtain ⟨a, v⟩ := a
    simp only [floor?] at h
    by_cases ha : a ≤ k
    · rw [if_pos ha] at h
      cases hf : floor? t k with
      | none => rw [hf] at h; cases h; exact ⟨List.mem_cons_self, ha⟩
      | some x =>
        rw [hf] at h; cases h
        exact ⟨List.mem_cons_of_mem _ (ih hf).1, (ih hf).2⟩
    · rw [if_neg ha] at h; cases h

theorem floor?_greatest {m : OMap K V} (hm : Sorted m) {k : K} {e x : K × V}
    (h : floor? m k = some e) (hx : x ∈ m) (hk : x.1 ≤ k) : x.1 ≤ e.1 := by
  induction m with
  | nil => cases h
  | cons a t ih =>
    obtain ⟨a, v⟩ := a
    have hs := List.pairwise_cons.1 hm
    simp only [floor?] at h
    by_cases ha : a ≤ k
    · rw [if_pos ha] at h
      cases hf : floor? t k with
      | none =>
        rw [hf] at h; cases h
        rcases List.mem_cons.1 hx with rfl | hx
        · exact le_refl _
        · -- `x` would be found
          exfalso
          have : ∀ (l : OMap K V), Sorted l → x ∈ l → floor? l k ≠ none := by
            intro l hl hxl
            cases l with
            | nil => cases hxl
            | cons b s =>
              obtain ⟨b, w⟩ := b
              have hb := List.pairwise_cons.1 hl
              have hbk : b ≤ k := by
                rcases List.mem_cons.1 hxl with rfl | hxs
                · exact hk
                · exact le_trans (le_of_lt (hb.1 x hxs)) hk
              simp only [floor?]
              rw [if_pos hbk]
              cases floor? s k <;> simp
          exact this t hs.2 hx hf
      | some y =>
        rw [hf] at h; cases h
        rcases List.mem_cons.1 hx with rfl | hx
        · exact le_of_lt (hs.1 _ (floor?_mem hf).1)
        · exact ih hs.2 hf hx
    · rw [if_neg ha] at h; cases h

theorem floor?_eq_none {m : OMap K V} (hm : Sorted m) {k : K} :
    floor? m k = none ↔ ∀ x ∈ m, k < x.1 := by
  cases m with
  | nil => simp [floor?]
  | cons a t =>
    obtain ⟨a, v⟩ := a
    have hs := List.pairwise_cons.1 hm
    simp only [floor?]
    by_cases ha : a ≤ k
    · rw [if_pos ha]
      constructor
      · intro h
        cases hf : floor? t k <;> rw [hf] at h <;> cases h
      · intro h
        exact absurd (h _ List.mem_cons_self) (not_lt.2 ha)
    · rw [if_neg ha]
      refine ⟨fun _ x hx => ?_, fun _ => rfl⟩
      rcases List.mem_cons.1 hx with rfl | hx
      · exact not_le.1 ha
      · exact lt_trans (not_le.1 ha) (hs.1 x hx)

/-- `floor?` finds the entry with the greatest key `≤ k`. -/
theorem floor?_iff {m : OMap K V} (hm : Sorted m) {k : K} {e : K × V} :
    floor? m k = some e ↔ e ∈ m ∧ e.1 ≤ k ∧ ∀ x ∈ m, x.1 ≤ k → x.1 ≤ e.1 := by
  constructor
  · intro h
    exact ⟨(floor?_mem h).1, (floor?_mem h).2, fun x hx hk => floor?_greatest hm h hx hk⟩
  · rintro ⟨h1, h2, h3⟩
    cases hf : floor? m k with
    | none => exact absurd ((floor?_eq_none hm).1 hf e h1) (not_lt.2 h2)
    | some y =>
      have hy := floor?_mem hf
      have a1 := h3 y hy.1 hy.2
      have a2 := floor?_greatest hm hf h1 h2
      have hkey : y.1 = e.1 := le_antisymm a1 a2
      have := (find?_eq_some_iff hm).2 h1
      have h' := (find?_eq_some_iff hm).2 hy.1
      rw [hkey] at h'
      obtain ⟨yk, yv⟩ := y
      obtain ⟨ek, ev⟩ := e
      simp only at hkey
      subst hkey
      rw [this] at h'
      cases h'
      rfl

theorem upper?_mem {m : OMap K V} {k : K} {e : K × V} (h : upper? m k = some e) :
    e ∈ m ∧ k < e.1 := by
  induction m with
  | nil => cases h
  | cons a t ih =>
    obtain ⟨a, v⟩ := a
    simp only [upper?] at h
    by_cases ha : a ≤ k
    · rw [if_pos ha] at h
      exact ⟨List.mem_cons_of_mem _ (ih h).1, (ih h).2⟩
    · rw [if_neg ha] at h; cases h
      exact ⟨List.mem_cons_self, not_le.1 ha⟩

theorem upper?_least {m : OMap K V} (hm : Sorted m) {k : K} {e x : K × V}
    (h : upper? m k = some e) (hx : x ∈ m) (hk : k < x.1) : e.1 ≤ x.1 := by
  induction m with
  | nil => cases h
  | cons a t ih =>
    obtain ⟨a, v⟩ := a
    have hs := List.pairwise_cons.1 hm
    simp only [upper?] at h
    by_cases ha : a ≤ k
    · rw [if_pos ha] at h
      rcases List.mem_cons.1 hx with rfl | hx
      · exact absurd hk (not_lt.2 ha)
      · exact ih hs.2 h hx
    · rw [if_neg ha] at h; cases h
      rcases List.mem_cons.1 hx with rfl | hx
      · exact le_refl _
      · exact le_of_lt (hs.1 x hx)

theorem upper?_eq_none {m : OMap K V} {k : K} : upper? m k = none ↔ ∀ x ∈ m, x.1 ≤ k := by
  induction m with
  | nil => simp [upper?]
  | cons a t ih =>
    obtain ⟨a, v⟩ := a
    simp only [upper?]
    by_cases ha : a ≤ k
    · rw [if_pos ha, ih]; simp [ha]
    · rw [if_neg ha]; simp [ha]

end Verif.OMap

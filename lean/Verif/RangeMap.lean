import Verif.OMap
import Mathlib.Tactic.Linarith

/-! # C38: NonOverlappingRangeMap (util/symbolize/nonoverlapping_range_map.h) -/
namespace Verif.RangeMap
open Verif

variable {V : Type}

/-- `ranges_`: ranges ordered by their low end, with high end and value. -/
abbrev RMap (V : Type) := OMap Nat (Nat × V)

/-- `ranges_.insert(...)` followed by `CHECK(insert_status.second)`. -/
def insertNew (m : RMap V) (lo hi : Nat) (v : V) : Option (RMap V) :=
  if (OMap.find? m lo).isSome then none else some (OMap.set lo (hi, v) m)

/-- `RangeStrictlyContains` (nonoverlapping_range_map.h:212-218). -/
def strictlyContains (olo ohi ilo ihi : Nat) : Bool :=
  decide (olo ≤ ilo) && decide (ihi ≤ ohi) && (decide (olo ≠ ilo) || decide (ohi ≠ ihi))

/-- `SplitRange` (nonoverlapping_range_map.h:220-246). -/
def splitRange (m : RMap V) (r : Nat × (Nat × V)) (low high : Nat) (v : V) : Option (RMap V) :=
  (if low ≠ r.1 then insertNew (OMap.erase r.1 m) r.1 low r.2.2 else some (OMap.erase r.1 m)).bind fun m2 =>
  (insertNew m2 low high v).bind fun m3 =>
  if high ≠ r.2.1 then insertNew m3 high r.2.1 r.2.2 else some m3

/-- The `while` loop (nonoverlapping_range_map.h:129-151); the list is what `insert_point` has still to visit.
`none`: a `CHECK` fails. -/
def fill (high : Nat) (v : V) : List (Nat × (Nat × V)) → RMap V → Nat → Option (RMap V)
  | [], m, low => if low < high then some (OMap.emplace low (high, v) m) else some m
  | x :: xs, m, low =>
    if low < high then
      if low ≠ x.1 then
        if (min high x.1 = high ∨ x.2.1 ≤ high) ∧ low < min high x.1 then
          (insertNew m low (min high x.1) v).bind fun m1 => fill high v xs m1 (min high x.2.1)
        else none
      else fill high v xs m (min high x.2.1)
    else some m

/-- The part of `InsertRange` after the predecessor (nonoverlapping_range_map.h:123-151). -/
def insertFrom (m : RMap V) (suffix : List (Nat × (Nat × V))) (low high : Nat) (v : V) : Option (RMap V) :=
  match suffix.head? with
  | some x => if strictlyContains x.1 x.2.1 low high then splitRange m x low high v else fill high v suffix m low
  | none => fill high v suffix m low

/-- `InsertRange` (nonoverlapping_range_map.h:103-152). -/
def insertRange (m : RMap V) (low high : Nat) (v : V) : Option (RMap V) :=
  if low = high then some m
  else
    let suffix := m.dropWhile fun e => decide (e.1 < low)
    match (m.takeWhile fun e => decide (e.1 < low)).getLast? with
    | some p =>
      if strictlyContains p.1 p.2.1 low high then splitRange m p low high v
      else if p.2.1 ≤ low then insertFrom m suffix low high v
      else none
    | none => insertFrom m suffix low high v

/-- `InsertRangeList` (nonoverlapping_range_map.h:93-101). -/
def insertRangeList (m : RMap V) (l : List (Nat × Nat)) (v : V) : Option (RMap V) :=
  l.foldlM (fun m r => insertRange m r.1 r.2 v) m

/-- `Find` and `FindHelper` (nonoverlapping_range_map.h:154-184). -/
def find (m : RMap V) (a : Nat) : Option (Nat × (Nat × V)) :=
  let cand : Option (Nat × (Nat × V)) :=
    match (List.dropWhile (fun e : Nat × (Nat × V) => decide (e.1 < a)) m).head? with
    | some x => if x.1 = a then some x else (List.takeWhile (fun e : Nat × (Nat × V) => decide (e.1 < a)) m).getLast?
    | none => (List.takeWhile (fun e : Nat × (Nat × V) => decide (e.1 < a)) m).getLast?
  cand.filter fun x => decide (a < x.2.1)

/-! ### Specification -/

/-- The stored ranges are non-empty and do not overlap. -/
def NonOverlapping (m : RMap V) : Prop :=
  OMap.Sorted m ∧ (∀ e ∈ m, e.1 < e.2.1) ∧ ∀ e ∈ m, ∀ e' ∈ m, e.1 < e'.1 → e.2.1 ≤ e'.1

/-- Some stored range with value `v` contains the address `a`. -/
def Holds (m : RMap V) (a : Nat) (v : V) : Prop := ∃ e ∈ m, e.1 ≤ a ∧ a < e.2.1 ∧ e.2.2 = v

/-- A stored range strictly contains `[low, high)`. -/
def Nested (m : RMap V) (low high : Nat) : Prop :=
  ∃ e ∈ m, e.1 ≤ low ∧ high ≤ e.2.1 ∧ ¬ (e.1 = low ∧ e.2.1 = high)

/-! ### Proofs -/

theorem strictlyContains_iff {a b c d : Nat} :
    strictlyContains a b c d = true ↔ a ≤ c ∧ d ≤ b ∧ ¬ (a = c ∧ b = d) := by
  simp [strictlyContains]
  omega

theorem mem_iff_find {m : RMap V} (hs : OMap.Sorted m) (k hi : Nat) (v : V) :
    (k, (hi, v)) ∈ m ↔ OMap.find? m k = some (hi, v) := (OMap.find?_eq_some_iff hs).symm

theorem insertNew_spec {m : RMap V} (hm : NonOverlapping m) {lo hi : Nat} (v : V) (hlt : lo < hi)
    (hd : ∀ e ∈ m, e.2.1 ≤ lo ∨ hi ≤ e.1) :
    ∃ m', insertNew m lo hi v = some m' ∧ NonOverlapping m' ∧ ∀ e, e ∈ m' ↔ e = (lo, (hi, v)) ∨ e ∈ m := by
  have hnone : OMap.find? m lo = none := by
    cases h : OMap.find? m lo with
    | none => rfl
    | some x =>
      have hmem := OMap.mem_of_find?_some h
      have h1 := hm.2.1 _ hmem
      have h2 := hd _ hmem
      simp only at h1 h2; omega
  have hs' : OMap.Sorted (OMap.set lo (hi, v) m) := OMap.Sorted.upsert hm.1 _ _
  have hmem : ∀ e, e ∈ OMap.set lo (hi, v) m ↔ e = (lo, (hi, v)) ∨ e ∈ m := by
    rintro ⟨k, h, w⟩
    rw [mem_iff_find hs', mem_iff_find hm.1, OMap.set, OMap.find?_upsert hm.1]
    by_cases hk : k = lo
    · subst hk
      rw [if_pos rfl, hnone]
      simp
      constructor
      · rintro ⟨rfl, rfl⟩; exact ⟨rfl, rfl⟩
      · rintro ⟨rfl, rfl⟩; exact ⟨rfl, rfl⟩
    · simp [hk]
  refine ⟨_, by simp [insertNew, hnone], ⟨hs', ?_, ?_⟩, hmem⟩
  · intro e he
    rcases (hmem e).mp he with rfl | he
    · exact hlt
    · exact hm.2.1 e he
  · intro e he e' he' hlt'
    rcases (hmem e).mp he with rfl | he <;> rcases (hmem e').mp he' with rfl | he'
    · exact absurd hlt' (lt_irrefl _)
    · have h1 := hd e' he'
      have h2 := hm.2.1 e' he'
      simp only at hlt' ⊢; omega
    · have h1 := hd e he
      have h2 := hm.2.1 e he
      simp only at hlt' ⊢; omega
    · exact hm.2.2 e he e' he' hlt'

theorem mem_unique {m : RMap V} (hm : NonOverlapping m) {e e' : Nat × (Nat × V)} (he : e ∈ m) (he' : e' ∈ m) {a : Nat}
    (h1 : e.1 ≤ a ∧ a < e.2.1) (h2 : e'.1 ≤ a ∧ a < e'.2.1) : e = e' := by
  rcases Nat.lt_trichotomy e.1 e'.1 with h | h | h
  · have := hm.2.2 e he e' he' h; omega
  · have h3 := OMap.find?_some_of_mem hm.1 (k := e.1) (v := e.2) he
    have h4 := OMap.find?_some_of_mem hm.1 (k := e'.1) (v := e'.2) he'
    rw [h, h4] at h3
    cases e; cases e'; simp at h3 h; simp [h, h3]
  · have := hm.2.2 e' he' e he h; omega

theorem mem_erase {m : RMap V} (hs : OMap.Sorted m) (k : Nat) (e : Nat × (Nat × V)) :
    e ∈ OMap.erase k m ↔ e ∈ m ∧ e.1 ≠ k := by
  obtain ⟨a, b, c⟩ := e
  rw [mem_iff_find (OMap.Sorted.erase hs k), mem_iff_find hs, OMap.find?_erase hs]
  by_cases h : a = k <;> simp [h]

/-- Splitting a range overrides the inner part. -/
theorem splitRange_spec {m : RMap V} (hm : NonOverlapping m) {r : Nat × (Nat × V)} (hr : r ∈ m) {low high : Nat} (v : V)
    (h1 : r.1 ≤ low) (h2 : low < high) (h3 : high ≤ r.2.1) :
    ∃ m', splitRange m r low high v = some m' ∧ NonOverlapping m' ∧
      ∀ a w, Holds m' a w ↔ if low ≤ a ∧ a < high then w = v else Holds m a w := by
  have hm1 : NonOverlapping (OMap.erase r.1 m) := by
    refine ⟨OMap.Sorted.erase hm.1 _, ?_, ?_⟩
    · intro e he; exact hm.2.1 e ((mem_erase hm.1 _ _).mp he).1
    · intro e he e' he'
      exact hm.2.2 e ((mem_erase hm.1 _ _).mp he).1 e' ((mem_erase hm.1 _ _).mp he').1
  have hout : ∀ e ∈ OMap.erase r.1 m, e.2.1 ≤ r.1 ∨ r.2.1 ≤ e.1 := by
    intro e he
    obtain ⟨he1, he2⟩ := (mem_erase hm.1 _ _).mp he
    rcases Nat.lt_or_gt_of_ne he2 with h | h
    · left; exact hm.2.2 e he1 r hr h
    · right; exact hm.2.2 r hr e he1 h
  have s2 : ∃ m2, (if low ≠ r.1 then insertNew (OMap.erase r.1 m) r.1 low r.2.2 else some (OMap.erase r.1 m)) = some m2 ∧
      NonOverlapping m2 ∧ ∀ e, e ∈ m2 ↔ (low ≠ r.1 ∧ e = (r.1, (low, r.2.2))) ∨ e ∈ OMap.erase r.1 m := by
    by_cases hl : low = r.1
    · exact ⟨_, by simp [hl], hm1, fun e => by simp [hl]⟩
    · obtain ⟨m2, e1, e2, e3⟩ := insertNew_spec hm1 (lo := r.1) (hi := low) r.2.2 (by omega)
        (fun e he => by have := hout e he; omega)
      exact ⟨m2, by simp [hl, e1], e2, fun e => by rw [e3]; simp [hl]⟩
  obtain ⟨m2, e2, n2, c2⟩ := s2
  obtain ⟨m3, e3, n3, c3⟩ := insertNew_spec n2 (lo := low) (hi := high) v h2 (by
    intro e he
    rcases (c2 e).mp he with ⟨_, rfl⟩ | he
    · left; exact le_refl _
    · have := hout e he; omega)
  have s4 : ∃ m4, (if high ≠ r.2.1 then insertNew m3 high r.2.1 r.2.2 else some m3) = some m4 ∧
      NonOverlapping m4 ∧ ∀ e, e ∈ m4 ↔ (high ≠ r.2.1 ∧ e = (high, (r.2.1, r.2.2))) ∨ e ∈ m3 := by
    by_cases hl : high = r.2.1
    · exact ⟨_, by simp [hl], n3, fun e => by simp [hl]⟩
    · obtain ⟨m4, e1, e2, e3⟩ := insertNew_spec n3 (lo := high) (hi := r.2.1) r.2.2 (by omega) (by
        intro e he
        rcases (c3 e).mp he with rfl | he
        · left; exact le_refl _
        · rcases (c2 e).mp he with ⟨_, rfl⟩ | he
          · left; exact le_of_lt h2
          · have := hout e he; omega)
      exact ⟨m4, by simp [hl, e1], e2, fun e => by rw [e3]; simp [hl]⟩
  obtain ⟨m4, e4, n4, c4⟩ := s4
  refine ⟨m4, ?_, n4, ?_⟩
  · unfold splitRange
    rw [e2]; simp only [Option.bind_some]; rw [e3]; simp only [Option.bind_some]; exact e4
  · intro a w
    have hmem : ∀ e, e ∈ m4 ↔ (high ≠ r.2.1 ∧ e = (high, (r.2.1, r.2.2))) ∨ e = (low, (high, v)) ∨
        (low ≠ r.1 ∧ e = (r.1, (low, r.2.2))) ∨ (e ∈ m ∧ e.1 ≠ r.1) := by
      intro e; rw [c4, c3, c2, mem_erase hm.1]
    by_cases hin : low ≤ a ∧ a < high
    · rw [if_pos hin]
      constructor
      · rintro ⟨e, he, h5, h6, rfl⟩
        rcases (hmem e).mp he with ⟨_, rfl⟩ | rfl | ⟨_, rfl⟩ | ⟨he1, he2⟩
        · simp only at h5; omega
        · rfl
        · simp only at h6; omega
        · exfalso
          have : e = r := mem_unique hm he1 hr ⟨h5, h6⟩ ⟨by omega, by omega⟩
          exact he2 (by rw [this])
      · rintro rfl
        exact ⟨(low, (high, w)), (hmem _).mpr (Or.inr (Or.inl rfl)), hin.1, hin.2, rfl⟩
    · rw [if_neg hin]
      constructor
      · rintro ⟨e, he, h5, h6, rfl⟩
        rcases (hmem e).mp he with ⟨_, rfl⟩ | rfl | ⟨_, rfl⟩ | ⟨he1, he2⟩
        · exact ⟨r, hr, by simp only at h5; omega, h6, rfl⟩
        · exact absurd ⟨h5, h6⟩ hin
        · exact ⟨r, hr, h5, by simp only at h6; omega, rfl⟩
        · exact ⟨e, he1, h5, h6, rfl⟩
      · rintro ⟨e, he, h5, h6, rfl⟩
        by_cases hk : e.1 = r.1
        · have : e = r := by
            have h3 := OMap.find?_some_of_mem hm.1 (k := e.1) (v := e.2) he
            have h4 := OMap.find?_some_of_mem hm.1 (k := r.1) (v := r.2) hr
            rw [hk, h4] at h3
            cases e; cases r; simp at h3 hk; simp [hk, h3]
          subst this
          rcases Nat.lt_or_ge a low with hlt | hge
          · exact ⟨_, (hmem _).mpr (Or.inr (Or.inr (Or.inl ⟨by omega, rfl⟩))), h5, hlt, rfl⟩
          · exact ⟨_, (hmem _).mpr (Or.inl ⟨by omega, rfl⟩), by show high ≤ a; omega, h6, rfl⟩
        · exact ⟨e, (hmem _).mpr (Or.inr (Or.inr (Or.inr ⟨he, hk⟩))), h5, h6, rfl⟩

/-- State of the loop: ranges before the insertion point end before `low`. -/
structure LoopInv (m : RMap V) (s : List (Nat × (Nat × V))) (low high : Nat) : Prop where
  ok : NonOverlapping m
  sub : ∀ e ∈ s, e ∈ m
  sorted : s.Pairwise fun a b => a.1 < b.1
  ge : low < high → ∀ e ∈ s, low ≤ e.1
  done : low < high → ∀ e ∈ m, e ∈ s ∨ e.2.1 ≤ low

/-- One step that inserts a piece before `x`. -/
theorem step_insert {m : RMap V} {x : Nat × (Nat × V)} {xs : List (Nat × (Nat × V))} {low high : Nat} (v : V)
    (hI : LoopInv m (x :: xs) low high) (hlt : low < high) (hne : low ≠ x.1) :
    ∃ m1, insertNew m low (min high x.1) v = some m1 ∧ LoopInv m1 xs (min high x.2.1) high ∧
      ∀ e, e ∈ m1 ↔ e = (low, (min high x.1, v)) ∨ e ∈ m := by
  have hge := hI.ge hlt
  have hx := hge x (by simp)
  have hxm := hI.sub x (by simp)
  have hxlt := hI.ok.2.1 x hxm
  have hxs := (List.pairwise_cons.mp hI.sorted)
  obtain ⟨m1, e1, e2, e3⟩ := insertNew_spec hI.ok (lo := low) (hi := min high x.1) v (by omega) (by
    intro e he
    rcases hI.done hlt e he with h | h
    · right
      rcases List.mem_cons.mp h with rfl | h
      · exact min_le_right _ _
      · have := hxs.1 e h; omega
    · exact Or.inl h)
  refine ⟨m1, e1, ⟨e2, ?_, hxs.2, ?_, ?_⟩, e3⟩
  · intro e he; exact (e3 e).mpr (Or.inr (hI.sub e (by simp [he])))
  · intro hlt' e he
    have := hI.ok.2.2 x hxm e (hI.sub e (by simp [he])) (hxs.1 e he)
    omega
  · intro hlt' e he
    rcases (e3 e).mp he with rfl | he
    · right; show min high x.1 ≤ min high x.2.1; omega
    · rcases hI.done hlt e he with h | h
      · rcases List.mem_cons.mp h with rfl | h
        · right; omega
        · exact Or.inl h
      · right; omega

theorem step_skip {m : RMap V} {x : Nat × (Nat × V)} {xs : List (Nat × (Nat × V))} {low high : Nat}
    (hI : LoopInv m (x :: xs) low high) (hlt : low < high) (heq : low = x.1) : LoopInv m xs (min high x.2.1) high := by
  have hxm := hI.sub x (by simp)
  have hxlt := hI.ok.2.1 x hxm
  have hxs := (List.pairwise_cons.mp hI.sorted)
  refine ⟨hI.ok, fun e he => hI.sub e (by simp [he]), hxs.2, ?_, ?_⟩
  · intro hlt' e he
    have := hI.ok.2.2 x hxm e (hI.sub e (by simp [he])) (hxs.1 e he)
    omega
  · intro hlt' e he
    rcases hI.done hlt e he with h | h
    · rcases List.mem_cons.mp h with rfl | h
      · right; omega
      · exact Or.inl h
    · right; omega

/-- Filling the gaps. -/
theorem fill_spec (high : Nat) (v : V) : ∀ (s : List (Nat × (Nat × V))) (m : RMap V) (low : Nat) (m' : RMap V),
    LoopInv m s low high → fill high v s m low = some m' →
    NonOverlapping m' ∧ ∀ a w, Holds m' a w ↔ Holds m a w ∨ (low ≤ a ∧ a < high ∧ (∀ u, ¬ Holds m a u) ∧ w = v) := by
  intro s
  induction s with
  | nil =>
    intro m low m' hI h
    rw [fill] at h
    split at h
    · rename_i hlt
      obtain ⟨m1, e1, e2, e3⟩ := insertNew_spec hI.ok (lo := low) (hi := high) v hlt (by
        intro e he
        rcases hI.done hlt e he with h | h
        · simp at h
        · exact Or.inl h)
      have hm' : m' = m1 := by
        have hnone : OMap.find? m low = none := by
          unfold insertNew at e1
          split at e1
          · cases e1
          · rename_i hh; simpa using hh
        unfold insertNew at e1
        rw [hnone] at e1
        simp at e1 h
        rw [← h, ← e1]
        apply OMap.ext (OMap.Sorted.upsert hI.ok.1 _ _) (OMap.Sorted.upsert hI.ok.1 _ _)
        intro k
        rw [OMap.find?_upsert hI.ok.1, OMap.find?_upsert hI.ok.1]
        by_cases hk : k = low <;> simp [hk, hnone]
      subst hm'
      refine ⟨e2, ?_⟩
      intro a w
      constructor
      · rintro ⟨e, he, h5, h6, rfl⟩
        rcases (e3 e).mp he with rfl | he
        · right
          refine ⟨h5, h6, ?_, rfl⟩
          rintro u ⟨e', he', h7, h8, rfl⟩
          rcases hI.done hlt e' he' with h | h
          · simp at h
          · simp only at h5; omega
        · exact Or.inl ⟨e, he, h5, h6, rfl⟩
      · rintro (⟨e, he, h5⟩ | ⟨h5, h6, _, rfl⟩)
        · exact ⟨e, (e3 e).mpr (Or.inr he), h5⟩
        · exact ⟨_, (e3 _).mpr (Or.inl rfl), h5, h6, rfl⟩
    · cases h
      refine ⟨hI.ok, fun a w => ?_⟩
      constructor
      · exact Or.inl
      · rintro (h | ⟨h1, h2, _⟩)
        · exact h
        · omega
  | cons x xs ih =>
    intro m low m' hI h
    rw [fill] at h
    split at h
    · rename_i hlt
      have hxm := hI.sub x (by simp)
      have hxlt := hI.ok.2.1 x hxm
      have hxge := hI.ge hlt x (by simp)
      split at h
      · rename_i hne
        split at h
        · obtain ⟨m1, e1, e2, e3⟩ := step_insert v hI hlt hne
          rw [e1] at h
          obtain ⟨h7, h8⟩ := ih m1 _ m' e2 h
          refine ⟨h7, ?_⟩
          have h1 : ∀ a w, Holds m1 a w ↔ (low ≤ a ∧ a < min high x.1 ∧ w = v) ∨ Holds m a w := by
            intro a w
            constructor
            · rintro ⟨e, he, h5, h6, rfl⟩
              rcases (e3 e).mp he with rfl | he
              · exact Or.inl ⟨h5, h6, rfl⟩
              · exact Or.inr ⟨e, he, h5, h6, rfl⟩
            · rintro (⟨h5, h6, rfl⟩ | ⟨e, he, h5⟩)
              · exact ⟨_, (e3 _).mpr (Or.inl rfl), h5, h6, rfl⟩
              · exact ⟨e, (e3 e).mpr (Or.inr he), h5⟩
          have hgap : ∀ a u, low ≤ a → a < min high x.1 → ¬ Holds m a u := by
            rintro a u h5 h6 ⟨e, he, h9, h10, rfl⟩
            rcases hI.done hlt e he with h | h
            · rcases List.mem_cons.mp h with rfl | h
              · omega
              · have := (List.pairwise_cons.mp hI.sorted).1 e h; omega
            · omega
          intro a w
          rw [h8, h1]
          constructor
          · rintro ((⟨h5, h6, rfl⟩ | h5) | ⟨h5, h6, h9, rfl⟩)
            · exact Or.inr ⟨h5, by omega, fun u => hgap a u h5 h6, rfl⟩
            · exact Or.inl h5
            · right
              exact ⟨by omega, h6, fun u hu => h9 u ((h1 a u).mpr (Or.inr hu)), rfl⟩
          · rintro (h5 | ⟨h5, h6, h9, rfl⟩)
            · exact Or.inl (Or.inr h5)
            · by_cases ha : a < min high x.1
              · exact Or.inl (Or.inl ⟨h5, ha, rfl⟩)
              · have hx2 : x.2.1 ≤ a := by
                  by_contra hh
                  exact h9 x.2.2 ⟨x, hxm, by omega, by omega, rfl⟩
                right
                refine ⟨by omega, h6, ?_, rfl⟩
                intro u hu
                rcases (h1 a u).mp hu with ⟨_, h10, _⟩ | hu
                · exact ha h10
                · exact h9 u hu
        · cases h
      · rename_i heq
        have heq : low = x.1 := by simpa using heq
        obtain ⟨h7, h8⟩ := ih m _ m' (step_skip hI hlt heq) h
        refine ⟨h7, ?_⟩
        intro a w
        rw [h8]
        constructor
        · rintro (h5 | ⟨h5, h6, h9, rfl⟩)
          · exact Or.inl h5
          · exact Or.inr ⟨by omega, h6, h9, rfl⟩
        · rintro (h5 | ⟨h5, h6, h9, rfl⟩)
          · exact Or.inl h5
          · have hx2 : x.2.1 ≤ a := by
              by_contra hh
              exact h9 x.2.2 ⟨x, hxm, by omega, by omega, rfl⟩
            exact Or.inr ⟨by omega, h6, h9, rfl⟩
    · cases h
      refine ⟨hI.ok, fun a w => ?_⟩
      constructor
      · exact Or.inl
      · rintro (h | ⟨h1, h2, _⟩)
        · exact h
        · omega

/-- Each stored range is outside of `[low, high)`, or inside. -/
def Compatible (m : RMap V) (low high : Nat) : Prop :=
  ∀ e ∈ m, e.2.1 ≤ low ∨ high ≤ e.1 ∨ (low ≤ e.1 ∧ e.2.1 ≤ high)

theorem fill_ok (high : Nat) (v : V) : ∀ (s : List (Nat × (Nat × V))) (m : RMap V) (low : Nat),
    LoopInv m s low high → (∀ e ∈ s, high ≤ e.1 ∨ e.2.1 ≤ high) → ∃ m', fill high v s m low = some m' := by
  intro s
  induction s with
  | nil => intro m low _ _; rw [fill]; split <;> exact ⟨_, rfl⟩
  | cons x xs ih =>
    intro m low hI hc
    rw [fill]
    split
    · rename_i hlt
      have hxge := hI.ge hlt x (by simp)
      have hcx := hc x (by simp)
      split
      · rename_i hne
        rw [if_pos (by omega)]
        obtain ⟨m1, e1, e2, e3⟩ := step_insert v hI hlt hne
        rw [e1]
        exact ih m1 _ e2 (fun e he => hc e (by simp [he]))
      · rename_i heq
        exact ih m _ (step_skip hI hlt (by simpa using heq)) (fun e he => hc e (by simp [he]))
    · exact ⟨_, rfl⟩

theorem split_lists (m : RMap V) (low : Nat) :
    m = (m.takeWhile fun e => decide (e.1 < low)) ++ (m.dropWhile fun e => decide (e.1 < low)) :=
  (List.takeWhile_append_dropWhile).symm

theorem mem_takeWhile_lt {m : RMap V} (low : Nat) : ∀ e ∈ (m.takeWhile fun e => decide (e.1 < low)), e.1 < low := by
  induction m with
  | nil => simp
  | cons x m ih =>
    intro e he
    rw [List.takeWhile_cons] at he
    split at he
    · rename_i hx
      rcases List.mem_cons.mp he with rfl | he
      · simpa using hx
      · exact ih e he
    · simp at he

theorem mem_dropWhile_ge {m : RMap V} (hs : OMap.Sorted m) (low : Nat) :
    ∀ e ∈ (m.dropWhile fun e => decide (e.1 < low)), low ≤ e.1 := by
  induction m with
  | nil => simp
  | cons x m ih =>
    intro e he
    rw [List.dropWhile_cons] at he
    split at he
    · exact ih (List.pairwise_cons.mp hs).2 e he
    · rename_i hx
      simp at hx
      rcases List.mem_cons.mp he with rfl | he
      · exact hx
      · have := (List.pairwise_cons.mp hs).1 e he; omega

theorem loopInv_init {m : RMap V} (hm : NonOverlapping m) {low high : Nat}
    (hp : ∀ p, (m.takeWhile fun e => decide (e.1 < low)).getLast? = some p → p.2.1 ≤ low) :
    LoopInv m (m.dropWhile fun e => decide (e.1 < low)) low high := by
  refine ⟨hm, fun e he => (List.dropWhile_sublist _).subset he, hm.1.sublist (List.dropWhile_sublist _),
    fun _ => mem_dropWhile_ge hm.1 low, ?_⟩
  intro _ e he
  rw [split_lists m low] at he
  rcases List.mem_append.mp he with he | he
  · right
    cases hl : (m.takeWhile fun e => decide (e.1 < low)).getLast? with
    | none => rw [List.getLast?_eq_none_iff] at hl; rw [hl] at he; simp at he
    | some p =>
      have hple := hp p hl
      have hpm : p ∈ (m.takeWhile fun e => decide (e.1 < low)) := List.mem_of_getLast? hl
      have hin : ∀ x ∈ (m.takeWhile fun e => decide (e.1 < low)), x ∈ m := fun x hx => (List.takeWhile_sublist _).subset hx
      obtain ⟨init, hinit⟩ : ∃ init, (m.takeWhile fun e => decide (e.1 < low)) = init ++ [p] := by
        obtain ⟨ys, hys⟩ := List.getLast?_eq_some_iff.mp hl
        exact ⟨ys, hys⟩
      have hsrt : (m.takeWhile fun e => decide (e.1 < low)).Pairwise fun a b => a.1 < b.1 :=
        hm.1.sublist (List.takeWhile_sublist _)
      rw [hinit] at he hsrt
      rcases List.mem_append.mp he with he | he
      · have h1 := (List.pairwise_append.mp hsrt).2.2 e he p (by simp)
        have h2 := hm.2.2 e (hin e (by rw [hinit]; simp [he])) p (hin p hpm) h1
        have := hm.2.1 p (hin p hpm)
        omega
      · simp at he; subst he; exact hple
  · exact Or.inl he

theorem nested_pred {m : RMap V} (hm : NonOverlapping m) {low high : Nat} (hlt : low < high) (hn : Nested m low high) :
    (∃ p, (m.takeWhile fun e => decide (e.1 < low)).getLast? = some p ∧ strictlyContains p.1 p.2.1 low high = true) ∨
    ((∀ p, (m.takeWhile fun e => decide (e.1 < low)).getLast? = some p → strictlyContains p.1 p.2.1 low high = false ∧ p.2.1 ≤ low) ∧
     ∃ x, (m.dropWhile fun e => decide (e.1 < low)).head? = some x ∧ strictlyContains x.1 x.2.1 low high = true) := by
  obtain ⟨e, he, h1, h2, h3⟩ := hn
  have hin1 : ∀ x ∈ (m.takeWhile fun e => decide (e.1 < low)), x ∈ m := fun x hx => (List.takeWhile_sublist _).subset hx
  have hin2 : ∀ x ∈ (m.dropWhile fun e => decide (e.1 < low)), x ∈ m := fun x hx => (List.dropWhile_sublist _).subset hx
  by_cases hel : e.1 < low
  · left
    have he' := he
    rw [split_lists m low] at he'
    rcases List.mem_append.mp he' with he' | he'
    · cases hl : (m.takeWhile fun e => decide (e.1 < low)).getLast? with
      | none => rw [List.getLast?_eq_none_iff] at hl; rw [hl] at he'; simp at he'
      | some p =>
        obtain ⟨ys, hys⟩ := List.getLast?_eq_some_iff.mp hl
        have hsrt : (m.takeWhile fun e => decide (e.1 < low)).Pairwise fun a b => a.1 < b.1 :=
          hm.1.sublist (List.takeWhile_sublist _)
        have hpm := hin1 p (List.mem_of_getLast? hl)
        have hpl := mem_takeWhile_lt low p (List.mem_of_getLast? hl)
        rw [hys] at he' hsrt
        rcases List.mem_append.mp he' with he' | he'
        · have h4 := (List.pairwise_append.mp hsrt).2.2 e he' p (by simp)
          have := hm.2.2 e he p hpm h4
          omega
        · simp at he'; subst he'
          exact ⟨e, rfl, strictlyContains_iff.mpr ⟨h1, h2, h3⟩⟩
    · have := mem_dropWhile_ge hm.1 low e he'; omega
  · right
    have hel : e.1 = low := by omega
    have hed : e ∈ (m.dropWhile fun e => decide (e.1 < low)) := by
      have he' := he
      rw [split_lists m low] at he'
      rcases List.mem_append.mp he' with he' | he'
      · have := mem_takeWhile_lt low e he'; omega
      · exact he'
    constructor
    · intro p hp
      have hpm := hin1 p (List.mem_of_getLast? hp)
      have hpl := mem_takeWhile_lt low p (List.mem_of_getLast? hp)
      have := hm.2.2 p hpm e he (by omega)
      refine ⟨?_, by omega⟩
      rw [Bool.eq_false_iff]
      intro hc
      have := (strictlyContains_iff.mp hc).2.1
      omega
    · cases hl : (m.dropWhile fun e => decide (e.1 < low)) with
      | nil => rw [hl] at hed; simp at hed
      | cons x xs =>
        have hsrt : (m.dropWhile fun e => decide (e.1 < low)).Pairwise fun a b => a.1 < b.1 :=
          hm.1.sublist (List.dropWhile_sublist _)
        have hxl := mem_dropWhile_ge hm.1 low x (by rw [hl]; simp)
        rw [hl] at hed hsrt
        rcases List.mem_cons.mp hed with rfl | hed
        · exact ⟨e, rfl, strictlyContains_iff.mpr ⟨h1, h2, h3⟩⟩
        · have := (List.pairwise_cons.mp hsrt).1 e hed; omega

/-- **C38**: an accepted insertion keeps the ranges disjoint; inside a stored range it overrides exactly the
inserted part; otherwise it only fills what was not covered before. -/
theorem insertRange_spec (m m' : RMap V) (low high : Nat) (v : V) (hm : NonOverlapping m) (hle : low ≤ high)
    (h : insertRange m low high v = some m') :
    NonOverlapping m' ∧
    (Nested m low high → ∀ a w, Holds m' a w ↔ if low ≤ a ∧ a < high then w = v else Holds m a w) ∧
    (¬ Nested m low high → ∀ a w, Holds m' a w ↔
      Holds m a w ∨ (low ≤ a ∧ a < high ∧ (∀ u, ¬ Holds m a u) ∧ w = v)) := by
  have hin1 : ∀ x ∈ (m.takeWhile fun e => decide (e.1 < low)), x ∈ m := fun x hx => (List.takeWhile_sublist _).subset hx
  have hin2 : ∀ x ∈ (m.dropWhile fun e => decide (e.1 < low)), x ∈ m := fun x hx => (List.dropWhile_sublist _).subset hx
  unfold insertRange at h
  split at h
  · rename_i heq
    cases h
    refine ⟨hm, ?_, ?_⟩
    · intro _ a w
      rw [if_neg (by omega)]
    · intro _ a w
      constructor
      · exact Or.inl
      · rintro (h | ⟨h1, h2, _⟩)
        · exact h
        · omega
  · rename_i hne
    have hlt : low < high := by omega
    simp only at h
    have split_case : ∀ r, r ∈ m → strictlyContains r.1 r.2.1 low high = true → splitRange m r low high v = some m' →
        NonOverlapping m' ∧ (Nested m low high → ∀ a w, Holds m' a w ↔ if low ≤ a ∧ a < high then w = v else Holds m a w) ∧
        (¬ Nested m low high → ∀ a w, Holds m' a w ↔
          Holds m a w ∨ (low ≤ a ∧ a < high ∧ (∀ u, ¬ Holds m a u) ∧ w = v)) := by
      intro r hr hc hs
      obtain ⟨h1, h2, h3⟩ := strictlyContains_iff.mp hc
      obtain ⟨m1, e1, e2, e3⟩ := splitRange_spec hm hr v h1 hlt h2
      rw [hs] at e1; cases e1
      exact ⟨e2, fun _ => e3, fun hn => absurd ⟨r, hr, h1, h2, h3⟩ hn⟩
    have from_case : (∀ p, (m.takeWhile fun e => decide (e.1 < low)).getLast? = some p →
          strictlyContains p.1 p.2.1 low high = false ∧ p.2.1 ≤ low) →
        insertFrom m (m.dropWhile fun e => decide (e.1 < low)) low high v = some m' →
        NonOverlapping m' ∧ (Nested m low high → ∀ a w, Holds m' a w ↔ if low ≤ a ∧ a < high then w = v else Holds m a w) ∧
        (¬ Nested m low high → ∀ a w, Holds m' a w ↔
          Holds m a w ∨ (low ≤ a ∧ a < high ∧ (∀ u, ¬ Holds m a u) ∧ w = v)) := by
      intro hp hf
      have hI := loopInv_init hm (high := high) (fun p hpp => (hp p hpp).2)
      have no_nested : (∀ x, (m.dropWhile fun e => decide (e.1 < low)).head? = some x →
          strictlyContains x.1 x.2.1 low high = false) → ¬ Nested m low high := by
        intro hx hn
        rcases nested_pred hm hlt hn with ⟨p, h1, h2⟩ | ⟨_, x, h1, h2⟩
        · rw [(hp p h1).1] at h2; cases h2
        · rw [hx x h1] at h2; cases h2
      unfold insertFrom at hf
      split at hf
      · rename_i x hx
        split at hf
        · rename_i hc
          exact split_case x (hin2 x (List.mem_of_mem_head? hx)) hc hf
        · rename_i hc
          obtain ⟨h1, h2⟩ := fill_spec high v _ m low m' hI hf
          have hnn := no_nested (fun y hy => by rw [hx] at hy; cases hy; simpa using hc)
          exact ⟨h1, fun hn => absurd hn hnn, fun _ => h2⟩
      · rename_i hx
        obtain ⟨h1, h2⟩ := fill_spec high v _ m low m' hI hf
        have hnn := no_nested (fun y hy => by rw [hx] at hy; cases hy)
        exact ⟨h1, fun hn => absurd hn hnn, fun _ => h2⟩
    split at h
    · rename_i p hp
      split at h
      · rename_i hc
        exact split_case p (hin1 p (List.mem_of_getLast? hp)) hc h
      · rename_i hc
        split at h
        · rename_i hpl
          apply from_case _ h
          intro q hq
          rw [hp] at hq; cases hq
          exact ⟨by simpa using hc, hpl⟩
        · cases h
    · rename_i hp
      apply from_case _ h
      intro q hq
      rw [hp] at hq; cases hq

/-- **C38**: a range that is nested in a stored range, or such that every stored range is outside or inside of it,
is accepted. -/
theorem insertRange_accepts (m : RMap V) (low high : Nat) (v : V) (hm : NonOverlapping m) (hle : low ≤ high)
    (hc : Nested m low high ∨ Compatible m low high) : ∃ m', insertRange m low high v = some m' := by
  have hin1 : ∀ x ∈ (m.takeWhile fun e => decide (e.1 < low)), x ∈ m := fun x hx => (List.takeWhile_sublist _).subset hx
  have hin2 : ∀ x ∈ (m.dropWhile fun e => decide (e.1 < low)), x ∈ m := fun x hx => (List.dropWhile_sublist _).subset hx
  unfold insertRange
  split
  · exact ⟨_, rfl⟩
  · rename_i hne
    have hlt : low < high := by omega
    simp only
    have hsplit : ∀ r, r ∈ m → strictlyContains r.1 r.2.1 low high = true → ∃ m', splitRange m r low high v = some m' := by
      intro r hr hcc
      obtain ⟨h1, h2, h3⟩ := strictlyContains_iff.mp hcc
      obtain ⟨m1, e1, _⟩ := splitRange_spec hm hr v h1 hlt h2
      exact ⟨m1, e1⟩
    have hfrom : (∀ p, (m.takeWhile fun e => decide (e.1 < low)).getLast? = some p →
          strictlyContains p.1 p.2.1 low high = false ∧ p.2.1 ≤ low) →
        ∃ m', insertFrom m (m.dropWhile fun e => decide (e.1 < low)) low high v = some m' := by
      intro hp
      have hI := loopInv_init hm (high := high) (fun p hpp => (hp p hpp).2)
      have hfill : (∀ x, (m.dropWhile fun e => decide (e.1 < low)).head? = some x →
          strictlyContains x.1 x.2.1 low high = false) →
          ∃ m', fill high v (m.dropWhile fun e => decide (e.1 < low)) m low = some m' := by
        intro hx
        rcases hc with hn | hcomp
        · exfalso
          rcases nested_pred hm hlt hn with ⟨p, h1, h2⟩ | ⟨_, x, h1, h2⟩
          · rw [(hp p h1).1] at h2; cases h2
          · rw [hx x h1] at h2; cases h2
        · apply fill_ok high v _ m low hI
          intro e he
          have h1 := mem_dropWhile_ge hm.1 low e he
          have h2 := hm.2.1 e (hin2 e he)
          rcases hcomp e (hin2 e he) with h | h | h
          · omega
          · exact Or.inl h
          · exact Or.inr h.2
      unfold insertFrom
      split
      · rename_i x hx
        split
        · rename_i hcc; exact hsplit x (hin2 x (List.mem_of_mem_head? hx)) hcc
        · rename_i hcc
          exact hfill (fun y hy => by rw [hx] at hy; cases hy; simpa using hcc)
      · rename_i hx
        exact hfill (fun y hy => by rw [hx] at hy; cases hy)
    split
    · rename_i p hp
      split
      · rename_i hcc; exact hsplit p (hin1 p (List.mem_of_getLast? hp)) hcc
      · rename_i hcc
        have hpl : p.2.1 ≤ low := by
          rcases hc with hn | hcomp
          · rcases nested_pred hm hlt hn with ⟨q, h1, h2⟩ | ⟨hq, _⟩
            · rw [hp] at h1; cases h1; rw [h2] at hcc; simp at hcc
            · exact (hq p hp).2
          · have h1 := mem_takeWhile_lt low p (List.mem_of_getLast? hp)
            have h2 := hm.2.1 p (hin1 p (List.mem_of_getLast? hp))
            rcases hcomp p (hin1 p (List.mem_of_getLast? hp)) with h | h | h <;> omega
        rw [if_pos hpl]
        apply hfrom
        intro q hq
        rw [hp] at hq; cases hq
        exact ⟨by simpa using hcc, hpl⟩
    · rename_i hp
      apply hfrom
      intro q hq
      rw [hp] at hq; cases hq

/-- **C38**: lookup returns the range containing the address, when there is one. -/
theorem find_spec (m : RMap V) (hm : NonOverlapping m) (a : Nat) (e : Nat × (Nat × V)) :
    find m a = some e ↔ e ∈ m ∧ e.1 ≤ a ∧ a < e.2.1 := by
  have hin1 : ∀ x ∈ (m.takeWhile fun e => decide (e.1 < a)), x ∈ m := fun x hx => (List.takeWhile_sublist _).subset hx
  have hin2 : ∀ x ∈ (m.dropWhile fun e => decide (e.1 < a)), x ∈ m := fun x hx => (List.dropWhile_sublist _).subset hx
  have hsrt1 : (m.takeWhile fun e => decide (e.1 < a)).Pairwise fun a b => a.1 < b.1 := hm.1.sublist (List.takeWhile_sublist _)
  have hsrt2 : (m.dropWhile fun e => decide (e.1 < a)).Pairwise fun a b => a.1 < b.1 := hm.1.sublist (List.dropWhile_sublist _)
  -- the candidate, when the next range does not start at `a`
  have hpred : (∀ x, (m.dropWhile fun e => decide (e.1 < a)).head? = some x → x.1 ≠ a) →
      (((m.takeWhile fun e => decide (e.1 < a)).getLast?.filter fun x => decide (a < x.2.1)) = some e ↔
        e ∈ m ∧ e.1 ≤ a ∧ a < e.2.1) := by
    intro hx
    constructor
    · intro h
      rw [Option.filter_eq_some_iff] at h
      obtain ⟨h1, h2⟩ := h
      have := mem_takeWhile_lt a e (List.mem_of_getLast? h1)
      exact ⟨hin1 e (List.mem_of_getLast? h1), by omega, by simpa using h2⟩
    · rintro ⟨h1, h2, h3⟩
      have he' := h1
      rw [split_lists m a] at he'
      rcases List.mem_append.mp he' with he' | he'
      · rw [Option.filter_eq_some_iff]
        refine ⟨?_, by simpa using h3⟩
        cases hl : (m.takeWhile fun e => decide (e.1 < a)).getLast? with
        | none => rw [List.getLast?_eq_none_iff] at hl; rw [hl] at he'; simp at he'
        | some p =>
          obtain ⟨ys, hys⟩ := List.getLast?_eq_some_iff.mp hl
          have hpm := hin1 p (List.mem_of_getLast? hl)
          have hpl := mem_takeWhile_lt a p (List.mem_of_getLast? hl)
          rw [hys] at he' hsrt1
          rcases List.mem_append.mp he' with he' | he'
          · have h4 := (List.pairwise_append.mp hsrt1).2.2 e he' p (by simp)
            have := hm.2.2 e h1 p hpm h4
            omega
          · simp at he'; rw [he']
      · exfalso
        have h4 := mem_dropWhile_ge hm.1 a e he'
        cases hl : (m.dropWhile fun e => decide (e.1 < a)) with
        | nil => rw [hl] at he'; simp at he'
        | cons x xs =>
          have h5 := hx x (by rw [hl]; rfl)
          have h6 := mem_dropWhile_ge hm.1 a x (by rw [hl]; simp)
          rw [hl] at he' hsrt2
          rcases List.mem_cons.mp he' with rfl | he'
          · omega
          · have := (List.pairwise_cons.mp hsrt2).1 e he'; omega
  unfold find
  simp only
  split
  · rename_i x hx
    have hxm := hin2 x (List.mem_of_mem_head? hx)
    have hxlt := hm.2.1 x hxm
    split
    · rename_i hxa
      rw [Option.filter_eq_some_iff]
      constructor
      · rintro ⟨h1, h2⟩; cases h1; exact ⟨hxm, by omega, by simpa using h2⟩
      · rintro ⟨h1, h2, h3⟩
        have := mem_unique hm hxm h1 (a := a) ⟨by omega, by omega⟩ ⟨h2, h3⟩
        subst this
        exact ⟨rfl, by simpa using h3⟩
    · rename_i hxa
      apply hpred
      intro y hy
      rw [hx] at hy; cases hy; exact hxa
  · rename_i hx
    apply hpred
    intro y hy
    rw [hx] at hy; cases hy

/-- **C38**: any sequence of insertions into the empty map keeps the ranges disjoint. -/
theorem history_nonoverlapping (l : List ((Nat × Nat) × V)) (hl : ∀ r ∈ l, r.1.1 ≤ r.1.2) (m : RMap V)
    (h : l.foldlM (fun m r => insertRange m r.1.1 r.1.2 r.2) ([] : RMap V) = some m) : NonOverlapping m := by
  have gen : ∀ (l : List ((Nat × Nat) × V)), (∀ r ∈ l, r.1.1 ≤ r.1.2) → ∀ m0 m : RMap V, NonOverlapping m0 →
      l.foldlM (fun m r => insertRange m r.1.1 r.1.2 r.2) m0 = some m → NonOverlapping m := by
    intro l
    induction l with
    | nil => intro _ m0 m h0 h; simp at h; subst h; exact h0
    | cons r l ih =>
      intro hl m0 m h0 h
      rw [List.foldlM_cons] at h
      cases h1 : insertRange m0 r.1.1 r.1.2 r.2 with
      | none => rw [h1] at h; cases h
      | some m1 =>
        rw [h1] at h
        exact ih (fun r hr => hl r (by simp [hr])) m1 m
          (insertRange_spec m0 m1 _ _ _ h0 (hl r (by simp)) h1).1 h
  exact gen l hl [] m ⟨OMap.sorted_nil, by simp, by simp⟩ h

/-- Concrete case: nested insert, then an enclosing insert. -/
theorem insert_example :
    insertRange ([(10, (20, 1))] : RMap Nat) 12 15 2 = some [(10, (12, 1)), (12, (15, 2)), (15, (20, 1))] ∧
    insertRange ([(5, (7, 1)), (10, (12, 2))] : RMap Nat) 0 15 3 =
      some [(0, (5, 3)), (5, (7, 1)), (7, (10, 3)), (10, (12, 2)), (12, (15, 3))] ∧
    insertRange ([(10, (20, 1))] : RMap Nat) 15 25 2 = none := by
  refine ⟨?_, ?_, ?_⟩ <;> decide +kernel

/-- The documentation promises a `CHECK` failure whenever the inserted range intersects the middle of a stored range;
`[10,25)` ends in the middle of `[20,30)` but is accepted (and changes nothing). -/
theorem insert_partial_overlap_violated :
    insertRange ([(10, (20, 1)), (20, (30, 2))] : RMap Nat) 10 25 3 = some [(10, (20, 1)), (20, (30, 2))] := by
  decide +kernel

/-- With `low > high` inside a stored range the map is corrupted: the stored ranges overlap. -/
theorem insert_reversed_violated :
    insertRange ([(0, (10, 1))] : RMap Nat) 7 3 2 = some [(0, (7, 1)), (3, (10, 1)), (7, (3, 2))] := by
  decide +kernel

end Verif.RangeMap

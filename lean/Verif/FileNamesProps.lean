import Verif.FileNames

/-! # C100: proofs -/
namespace Verif.FileNames
open Verif Verif.SymbolMap Verif.Afdo

/-! ## The file table -/

/-- What a file map knows after the symbols `vs` (function and file). -/
structure Knows (m : FileMap) (vs : List (Name × Name)) : Prop where
  nodup : m.files.Nodup
  mem : ∀ f, f ∈ m.files ↔ ∃ v ∈ vs, v.2 = f
  sNames : OMap.Sorted m.names
  sIndex : OMap.Sorted m.index
  index : ∀ f i, OMap.find? m.index f = some i ↔ m.files[i]? = some f
  get : ∀ n, (m.get n).map (fun i => m.files[i]?) = (vs.reverse.find? fun v => v.1 = n).map fun v => some v.2

theorem knows_add {m : FileMap} {vs : List (Name × Name)} (h : Knows m vs) (v : Name × Name) : Knows (m.add v.1 v.2) (vs ++ [v]) := by
  have hget : ∀ n, ((vs ++ [v]).reverse.find? fun w => w.1 = n) = if v.1 = n then some v else vs.reverse.find? fun w => w.1 = n := by
    intro n
    rw [List.reverse_append, List.reverse_singleton, List.singleton_append, List.find?_cons]
    by_cases hv : v.1 = n <;> simp [hv]
  unfold FileMap.add
  cases hi : OMap.find? m.index v.2 with
  | some i =>
    simp only
    have hf := (h.index _ _).1 hi
    refine ⟨h.nodup, ?_, h.sNames.upsert _ _, h.sIndex, h.index, ?_⟩
    · intro f
      rw [h.mem]
      constructor
      · rintro ⟨w, hw, rfl⟩
        exact ⟨w, by simp [hw], rfl⟩
      · rintro ⟨w, hw, rfl⟩
        rcases List.mem_append.1 hw with hw | hw
        · exact ⟨w, hw, rfl⟩
        · rw [List.mem_singleton] at hw
          subst hw
          exact (h.mem _).1 (List.mem_of_getElem? hf)
    · intro n
      rw [hget]
      simp only [FileMap.get, OMap.set]
      rw [OMap.find?_upsert h.sNames]
      by_cases hn : v.1 = n
      · simp [hn, hf]
      · rw [if_neg (Ne.symm hn), if_neg hn]
        exact h.get n
  | none =>
    simp only
    have hnew : v.2 ∉ m.files := by
      intro hm
      obtain ⟨i, hi', hi''⟩ := List.getElem_of_mem hm
      rw [(h.index _ i).2 (by rw [List.getElem?_eq_getElem hi', hi''])] at hi
      cases hi
    have hsome : ∀ (i : Nat) (f : Name), m.files[i]? = some f → (m.files ++ [v.2])[i]? = some f := by
      intro i f hf
      rw [List.getElem?_append_left (List.getElem?_eq_some_iff.1 hf).1, hf]
    refine ⟨?_, ?_, h.sNames.upsert _ _, h.sIndex.upsert _ _, ?_, ?_⟩
    · rw [List.nodup_append]
      refine ⟨h.nodup, by simp, ?_⟩
      intro a ha b hb
      rw [List.mem_singleton] at hb
      rintro rfl
      exact hnew (hb ▸ ha)
    · intro f
      rw [List.mem_append, h.mem, List.mem_singleton]
      constructor
      · rintro (⟨w, hw, rfl⟩ | rfl)
        · exact ⟨w, by simp [hw], rfl⟩
        · exact ⟨v, by simp, rfl⟩
      · rintro ⟨w, hw, rfl⟩
        rcases List.mem_append.1 hw with hw | hw
        · exact Or.inl ⟨w, hw, rfl⟩
        · rw [List.mem_singleton] at hw
          exact Or.inr (by rw [hw])
    · intro f i
      simp only [OMap.set]
      rw [OMap.find?_upsert h.sIndex]
      by_cases hf : f = v.2
      · rw [if_pos hf]
        subst hf
        constructor
        · intro e
          cases e
          simp
        · intro e
          by_cases hlt : i < m.files.length
          · rw [List.getElem?_append_left hlt] at e
            exact absurd (List.mem_of_getElem? e) hnew
          · have := (List.getElem?_eq_some_iff.1 e).1
            simp only [List.length_append, List.length_singleton] at this
            congr 1
            omega
      · rw [if_neg hf, h.index]
        constructor
        · exact hsome i f
        · intro e
          by_cases hlt : i < m.files.length
          · rwa [List.getElem?_append_left hlt] at e
          · have := (List.getElem?_eq_some_iff.1 e).1
            simp only [List.length_append, List.length_singleton] at this
            have hi2 : i = m.files.length := by omega
            subst hi2
            simp at e
            exact absurd e.symm hf
    · intro n
      rw [hget]
      simp only [FileMap.get, OMap.set]
      rw [OMap.find?_upsert h.sNames]
      by_cases hn : v.1 = n
      · simp [hn]
      · rw [if_neg (Ne.symm hn), if_neg hn, ← h.get n]
        cases hg : OMap.find? m.names n with
        | none => simp [FileMap.get, hg]
        | some i =>
          have := h.get n
          simp only [FileMap.get, hg, Option.map_some] at this ⊢
          cases hv : vs.reverse.find? fun w => w.1 = n with
          | none => rw [hv] at this; cases this
          | some w =>
            rw [hv] at this
            simp only [Option.map_some, Option.some.injEq] at this
            rw [this, hsome _ _ this]

theorem knows_foldl (vs : List (Name × Src)) : Knows (vs.foldl (fun m v => m.add v.1 v.2.path) ⟨[], [], []⟩)
    (vs.map fun v => (v.1, v.2.path)) := by
  have : ∀ (vs : List (Name × Src)) m (done : List (Name × Name)), Knows m done →
      Knows (vs.foldl (fun m v => m.add v.1 v.2.path) m) (done ++ vs.map fun v => (v.1, v.2.path)) := by
    intro vs
    induction vs with
    | nil => intro m done h; simpa using h
    | cons v t ih =>
      intro m done h
      have := ih _ _ (knows_add h (v.1, v.2.path))
      simpa [List.append_assoc] using this
  simpa using this vs _ [] ⟨by simp, by simp, OMap.sorted_nil, OMap.sorted_nil, by simp [OMap.find?], by simp [FileMap.get, OMap.find?]⟩

/-! ## The symbols visited -/

theorem fsym_ind {P : FSym → Prop} (h : ∀ d cs, (∀ p ∈ cs, P p.2) → P (.mk d cs)) : (s : FSym) → P s
  | .mk d cs => h d cs fun p hp => fsym_ind h p.2
termination_by s => sizeOf s
decreasing_by
  have := List.sizeOf_lt_of_mem hp
  simp only [FSym.mk.sizeOf_spec]
  have h3 : sizeOf p = 1 + sizeOf p.1 + sizeOf p.2 := by cases p; rfl
  omega

theorem keys_child {i c : FSym} {k : Callsite} (h : Keys i) (hc : lookup i.calls k = some c) : Keys c := by
  intro path u hu
  exact h (k :: path) u (by simp only [FSym.at?, hc]; exact hu)

theorem keys_self {i : FSym} (h : Keys i) : (i.calls.map Prod.fst).Nodup := h [] i rfl

theorem mem_visitsCalls (v : Name × Src) : ∀ cs : List (Callsite × FSym), v ∈ visitsCalls cs ↔ ∃ p ∈ cs, v ∈ visits p.1.2 p.2
  | [] => by simp [visitsCalls]
  | (k, i) :: t => by simp [visitsCalls, mem_visitsCalls v t]

theorem nameAt_cons (n : Name) (k : Callsite) (path : List Callsite) : nameAt n (k :: path) = nameAt k.2 path := by
  unfold nameAt
  cases path with
  | nil => rfl
  | cons a t => simp [List.getLast?_cons]

theorem mem_visits (n m : Name) (s : Src) (i : FSym) (h : Keys i) :
    (m, s) ∈ visits n i ↔ ∃ path, i.srcAt path = some s ∧ nameAt n path = m := by
  revert n h
  refine fsym_ind (P := fun i => ∀ n, Keys i → ((m, s) ∈ visits n i ↔ ∃ path, i.srcAt path = some s ∧ nameAt n path = m)) ?_ i
  intro d cs ih n h
  rw [visits, List.mem_cons, mem_visitsCalls]
  constructor
  · rintro (h1 | ⟨p, hp, hm⟩)
    · simp only [Prod.mk.injEq] at h1
      obtain ⟨rfl, rfl⟩ := h1
      exact ⟨[], rfl, rfl⟩
    · have hl : lookup cs p.1 = some p.2 := lookup_of_mem (keys_self h) hp
      obtain ⟨path, h1, h2⟩ := (ih p hp p.1.2 (keys_child h hl)).1 hm
      refine ⟨p.1 :: path, ?_, ?_⟩
      · simp only [FSym.srcAt, FSym.at?, FSym.calls, hl] at h1 ⊢
        exact h1
      · rw [nameAt_cons, h2]
  · rintro ⟨path, h1, h2⟩
    cases path with
    | nil =>
      left
      simp only [FSym.srcAt, FSym.at?, Option.map_some, FSym.src, Option.some.injEq] at h1
      simp only [nameAt, List.getLast?_nil, Option.map_none, Option.getD_none] at h2
      rw [h1, h2]
    | cons k path =>
      right
      simp only [FSym.srcAt, FSym.at?, FSym.calls] at h1
      cases hl : lookup cs k with
      | none => rw [hl] at h1; cases h1
      | some c =>
        rw [hl] at h1
        have hm := mem_of_lookup hl
        exact ⟨(k, c), hm, (ih _ hm k.2 (keys_child h hl)).2 ⟨path, h1, by rw [← h2, nameAt_cons]⟩⟩

/-- **C100, the table**: each file of a function or inlined call is listed once, and nothing else. -/
theorem table_files (syms : List (Name × FSym)) (hk : ∀ p ∈ syms, Keys p.2) :
    (fileMap syms).files.Nodup ∧ ∀ f, f ∈ (fileMap syms).files ↔ ∃ m s, Occurs syms m s ∧ s.path = f := by
  have h := knows_foldl (syms.flatMap fun p => visits p.1 p.2)
  refine ⟨h.nodup, fun f => ?_⟩
  rw [fileMap, h.mem]
  simp only [List.mem_map, List.mem_flatMap]
  constructor
  · rintro ⟨_, ⟨v, ⟨p, hp, hv⟩, rfl⟩, rfl⟩
    obtain ⟨path, h1, h2⟩ := (mem_visits p.1 v.1 v.2 p.2 (hk p hp)).1 hv
    exact ⟨v.1, v.2, ⟨p, hp, path, h1, h2⟩, rfl⟩
  · rintro ⟨m, s, ⟨p, hp, path, h1, h2⟩, rfl⟩
    exact ⟨_, ⟨(m, s), ⟨p, hp, (mem_visits p.1 m s p.2 (hk p hp)).2 ⟨path, h1, h2⟩⟩, rfl⟩, rfl⟩

/-- **C100, the index of a name**: it is the index of the file of the symbol of this name that was visited last; a name that is only
a call target has no file. -/
theorem table_last (syms : List (Name × FSym)) (n : Name) :
    ((fileMap syms).get n).map (fun i => (fileMap syms).files[i]?) =
      ((syms.flatMap fun p => visits p.1 p.2).reverse.find? fun v => v.1 = n).map fun v => some v.2.path := by
  have h := (knows_foldl (syms.flatMap fun p => visits p.1 p.2)).get n
  rw [fileMap, h, ← List.map_reverse, List.find?_map, Option.map_map]
  rfl

/-- **C100, a file of the function**: the file of a name is the file of a function or inlined call of this name; there is none
exactly if there is no such function. -/
theorem table_get (syms : List (Name × FSym)) (hk : ∀ p ∈ syms, Keys p.2) (n : Name) :
    match (fileMap syms).get n with
    | none => ∀ s, ¬ Occurs syms n s
    | some i => ∃ s, Occurs syms n s ∧ (fileMap syms).files[i]? = some s.path := by
  have h := table_last syms n
  have hocc : ∀ s, Occurs syms n s ↔ (n, s) ∈ syms.flatMap fun p => visits p.1 p.2 := by
    intro s
    rw [List.mem_flatMap]
    constructor
    · rintro ⟨p, hp, path, h1, h2⟩
      exact ⟨p, hp, (mem_visits p.1 n s p.2 (hk p hp)).2 ⟨path, h1, h2⟩⟩
    · rintro ⟨p, hp, hv⟩
      obtain ⟨path, h1, h2⟩ := (mem_visits p.1 n s p.2 (hk p hp)).1 hv
      exact ⟨p, hp, path, h1, h2⟩
  cases hg : (fileMap syms).get n with
  | none =>
    simp only
    intro s hs
    rw [hg] at h
    simp only [Option.map_none] at h
    have hn := Option.map_eq_none_iff.1 h.symm
    rw [List.find?_eq_none] at hn
    have := hn (n, s) (List.mem_reverse.2 ((hocc s).1 hs))
    simp at this
  | some i =>
    simp only
    rw [hg] at h
    simp only [Option.map_some] at h
    obtain ⟨v, hv, he⟩ := Option.map_eq_some_iff.1 h.symm
    have h1 := List.find?_some hv
    have h2 := List.mem_reverse.1 (List.mem_of_find?_eq_some hv)
    simp only [decide_eq_true_eq] at h1
    refine ⟨v.2, (hocc _).2 ?_, he.symm⟩
    rw [← h1]
    exact h2

/-- The file name stored for a function: an absolute file name, or one without a compilation directory, is taken as it is;
    any other one is put after the directory and one separator, whether or not the directory is written with a separator at its end. -/
theorem path_spec (d f : Name) (hd : d.getLast? ≠ some 47) :
    (⟨[], f⟩ : Src).path = f ∧ (f.head? = some 47 → (⟨d, f⟩ : Src).path = f ∧ (⟨d ++ [47], f⟩ : Src).path = f) ∧
      (f.head? ≠ some 47 → (⟨d ++ [47], f⟩ : Src).path = d ++ [47] ++ f ∧ (d ≠ [] → (⟨d, f⟩ : Src).path = d ++ [47] ++ f)) := by
  refine ⟨by simp [Src.path], fun h => ⟨?_, ?_⟩, fun h => ⟨?_, fun hn => ?_⟩⟩
  · unfold Src.path join
    simp [h]
  · unfold Src.path join
    simp [h]
  · unfold Src.path join
    simp [h]
  · unfold Src.path join
    simp [h, hd, hn]

end Verif.FileNames

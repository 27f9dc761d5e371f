import Verif.Compute
import Verif.SampleProps
import Mathlib.Data.List.Nodup
import Mathlib.Data.List.Perm.Basic

/-!
# Aggregation of samples per function (first half of C53)
-/
namespace Verif.Compute
open Verif Verif.SymbolMap Verif.AddrLookup Verif.Sample

/-! ## Specification -/

/-- The symbol table is one a linker produces: sorted, disjoint, non-empty, distinct names. -/
structure BinOk (b : Bin) : Prop where
  sorted : OMap.Sorted b.syms
  disjoint : NonOverlapping b.syms
  names : (b.syms.map (fun e => e.2.1)).Nodup
  sizes : ∀ e ∈ b.syms, 0 < e.2.2

/-- The address samples inside `[lo, hi)`, at their static addresses. -/
def addrsIn (b : Bin) (lo hi : Nat) (xs : List (Nat × Nat)) : List (Nat × Nat) :=
  (xs.filter (fun x => decide (lo ≤ b.vaddr x.1) && decide (b.vaddr x.1 < hi))).map
    (fun x => (b.vaddr x.1, x.2))

/-- The ranges (or branches) starting inside `[lo, hi)`, at their static addresses. -/
def pairsIn (b : Bin) (lo hi : Nat) (xs : List (Pair × Nat)) : List (Pair × Nat) :=
  (xs.filter (fun x => decide (lo ≤ b.vaddr (ofLex x.1).1) && decide (b.vaddr (ofLex x.1).1 < hi))).map
    (fun x => (toLex (b.vaddr (ofLex x.1).1, b.vaddr (ofLex x.1).2), x.2))

/-- The samples of the function occupying `[lo, hi)`. -/
def mapsIn (b : Bin) (S : Maps) (lo hi : Nat) : Maps :=
  ⟨OMap.addAll [] (pairsIn b lo hi S.range), OMap.addAll [] (addrsIn b lo hi S.addr),
    OMap.addAll [] (pairsIn b lo hi S.branch)⟩

/-- The functions of the symbol table with their samples. -/
def fnOf (b : Bin) (S : Maps) (e : Nat × Name × Nat) : Name × FnMaps :=
  (e.2.1, ⟨e.1, e.1 + e.2.2, mapsIn b S e.1 (e.1 + e.2.2)⟩)

/-! ## Proof -/

/-- Name of the symbol covering an address. -/
def symName (b : Bin) (v : Nat) : Option Name := (symbolInfo b.syms v).map Prod.fst

theorem BinOk.unique {b : Bin} (hb : BinOk b) {e e' : Nat × Name × Nat} (h : e ∈ b.syms)
    (h' : e' ∈ b.syms) (hn : e.2.1 = e'.2.1) : e = e' :=
  List.inj_on_of_nodup_map hb.names h h' hn

theorem symName_iff {b : Bin} (hb : BinOk b) {e : Nat × Name × Nat} (he : e ∈ b.syms) (v : Nat) :
    symName b v = some e.2.1 ↔ e.1 ≤ v ∧ v < e.1 + e.2.2 := by
  unfold symName
  constructor
  · intro h
    cases hs : symbolInfo b.syms v with
    | none => rw [hs] at h; cases h
    | some r =>
      obtain ⟨n, s, t⟩ := r
      obtain ⟨size, hm, rfl, h1, h2⟩ := (symbol_lookup_iff b.syms hb.sorted hb.disjoint v n s t).1 hs
      rw [hs] at h
      simp only [Option.map_some, Option.some.injEq] at h
      have := hb.unique hm he h
      subst this
      exact ⟨h1, h2⟩
  · rintro ⟨h1, h2⟩
    rw [(symbol_lookup_iff b.syms hb.sorted hb.disjoint v e.2.1 e.1 (e.1 + e.2.2)).2
      ⟨e.2.2, he, rfl, h1, h2⟩]
    rfl

/-- `P` holds the maps `M`. -/
structure Inv (b : Bin) (P : Prof) (M : Name → Maps) : Prop where
  sorted : OMap.Sorted P
  some : ∀ n x, OMap.find? P n = some x →
    ∃ lo size, (lo, n, size) ∈ b.syms ∧ x = ⟨lo, lo + size, M n⟩
  none : ∀ n, OMap.find? P n = none → M n = Maps.empty

theorem Inv.congr {b : Bin} {P : Prof} {M M' : Name → Maps} (h : Inv b P M) (hM : ∀ n, M n = M' n) :
    Inv b P M' := by
  have : M = M' := funext hM
  rw [← this]; exact h

theorem touch_inv {b : Bin} (hb : BinOk b) {P : Prof} {M : Name → Maps} (h : Inv b P M) (v : Nat)
    (f : Maps → Maps) :
    Inv b (touch b P v f) (fun n => if symName b v = some n then f (M n) else M n) := by
  unfold touch
  cases hs : symbolInfo b.syms v with
  | none =>
    refine h.congr ?_
    intro n
    simp [symName, hs]
  | some r =>
    obtain ⟨name, start, stop⟩ := r
    obtain ⟨size, hm, rfl, _, _⟩ :=
      (symbol_lookup_iff b.syms hb.sorted hb.disjoint v name start stop).1 hs
    have hsn : symName b v = some name := by simp [symName, hs]
    refine ⟨OMap.Sorted.upsert h.sorted _ _, ?_, ?_⟩
    · intro n x hx
      dsimp only at hx
      rw [OMap.find?_upsert h.sorted] at hx
      by_cases hn : n = name
      · subst hn
        rw [if_pos rfl] at hx
        simp only [hsn, if_true]
        cases ho : OMap.find? P n with
        | none =>
          rw [ho] at hx
          simp only [Option.getD_none, Option.some.injEq] at hx
          refine ⟨start, size, hm, ?_⟩
          rw [← hx, h.none n ho]
        | some y =>
          obtain ⟨lo, sz, hy1, hy2⟩ := h.some n y ho
          rw [ho, hy2] at hx
          simp only [Option.getD_some, Option.some.injEq] at hx
          exact ⟨lo, sz, hy1, hx.symm⟩
      · rw [if_neg hn] at hx
        have : ¬ symName b v = some n := by rw [hsn]; simpa using fun h => hn h.symm
        simp only [this, if_false]
        exact h.some n x hx
    · intro n hx
      dsimp only at hx
      rw [OMap.find?_upsert h.sorted] at hx
      by_cases hn : n = name
      · rw [if_pos hn] at hx; cases hx
      · rw [if_neg hn] at hx
        have : ¬ symName b v = some n := by rw [hsn]; simpa using fun h => hn h.symm
        simp only [this, if_false]
        exact h.none n hx

theorem aggAddr_inv {b : Bin} (hb : BinOk b) (xs : List (Nat × Nat)) {P : Prof} {M : Name → Maps}
    (h : Inv b P M) :
    Inv b (aggAddr b P xs) (fun n => { M n with
      addr := OMap.addAll (M n).addr ((xs.filter (fun x => symName b (b.vaddr x.1) = some n)).map (fun x => (b.vaddr x.1, x.2))) }) := by
  induction xs generalizing P M with
  | nil => exact h.congr (fun n => by simp [OMap.addAll])
  | cons x t ih =>
    refine (ih (touch_inv hb h _ _)).congr ?_
    intro n
    by_cases hn : symName b (b.vaddr x.1) = some n <;> simp [hn, OMap.addAll]

theorem aggRange_inv {b : Bin} (hb : BinOk b) (xs : List (Pair × Nat)) {P : Prof} {M : Name → Maps}
    (h : Inv b P M) :
    Inv b (aggRange b P xs) (fun n => { M n with
      range := OMap.addAll (M n).range ((xs.filter (fun x => symName b (b.vaddr (ofLex x.1).1) = some n)).map
        (fun x => (toLex (b.vaddr (ofLex x.1).1, b.vaddr (ofLex x.1).2), x.2))) }) := by
  induction xs generalizing P M with
  | nil => exact h.congr (fun n => by simp [OMap.addAll])
  | cons x t ih =>
    refine (ih (touch_inv hb h _ _)).congr ?_
    intro n
    by_cases hn : symName b (b.vaddr (ofLex x.1).1) = some n <;> simp [hn, OMap.addAll]

theorem aggBranch_inv {b : Bin} (hb : BinOk b) (xs : List (Pair × Nat)) {P : Prof} {M : Name → Maps}
    (h : Inv b P M) :
    Inv b (aggBranch b P xs) (fun n => { M n with
      branch := OMap.addAll (M n).branch ((xs.filter (fun x => symName b (b.vaddr (ofLex x.1).1) = some n)).map
        (fun x => (toLex (b.vaddr (ofLex x.1).1, b.vaddr (ofLex x.1).2), x.2))) }) := by
  induction xs generalizing P M with
  | nil => exact h.congr (fun n => by simp [OMap.addAll])
  | cons x t ih =>
    refine (ih (touch_inv hb h _ _)).congr ?_
    intro n
    by_cases hn : symName b (b.vaddr (ofLex x.1).1) = some n <;> simp [hn, OMap.addAll]

/-! ### Every symbol gets an entry -/

theorem nameAddrs_aux (l : AddrMap) (m : OMap Name Nat) (hm : OMap.Sorted m) (n : Name) :
    (∀ a, OMap.find? (l.foldl (fun m e => OMap.set e.2.1 e.1 m) m) n = some a →
      OMap.find? m n = some a ∨ ∃ size, (a, n, size) ∈ l) ∧
    (((OMap.find? m n).isSome ∨ ∃ e ∈ l, e.2.1 = n) →
      (OMap.find? (l.foldl (fun m e => OMap.set e.2.1 e.1 m) m) n).isSome) ∧
    OMap.Sorted (l.foldl (fun m e => OMap.set e.2.1 e.1 m) m) := by
  induction l generalizing m with
  | nil => simp [hm]
  | cons e t ih =>
    obtain ⟨i1, i2, i3⟩ := ih (OMap.set e.2.1 e.1 m) (OMap.Sorted.upsert hm _ _)
    rw [List.foldl_cons]
    have hf : OMap.find? (OMap.set e.2.1 e.1 m) n = if n = e.2.1 then some e.1 else OMap.find? m n := by
      unfold OMap.set; rw [OMap.find?_upsert hm]; split <;> simp_all
    refine ⟨?_, ?_, i3⟩
    · intro a ha
      rcases i1 a ha with h | ⟨size, h⟩
      · rw [hf] at h
        by_cases hn : n = e.2.1
        · rw [if_pos hn] at h
          cases h
          exact Or.inr ⟨e.2.2, by rw [hn]; exact List.mem_cons_self⟩
        · rw [if_neg hn] at h; exact Or.inl h
      · exact Or.inr ⟨size, List.mem_cons_of_mem _ h⟩
    · intro h
      apply i2
      rw [hf]
      by_cases hn : n = e.2.1
      · rw [if_pos hn]; exact Or.inl rfl
      · rw [if_neg hn]
        rcases h with h | ⟨e', he', rfl⟩
        · exact Or.inl h
        · rcases List.mem_cons.1 he' with rfl | he'
          · exact absurd rfl hn
          · exact Or.inr ⟨e', he', rfl⟩

theorem touch_isSome (b : Bin) {P : Prof} (hP : OMap.Sorted P) (v : Nat) (f : Maps → Maps) (n : Name)
    (h : (OMap.find? P n).isSome ∨ symName b v = some n) : (OMap.find? (touch b P v f) n).isSome := by
  unfold touch
  cases hs : symbolInfo b.syms v with
  | none =>
    rcases h with h | h
    · exact h
    · simp [symName, hs] at h
  | some r =>
    obtain ⟨name, start, stop⟩ := r
    dsimp only
    rw [OMap.find?_upsert hP]
    by_cases hn : n = name
    · rw [if_pos hn]; rfl
    · rw [if_neg hn]
      rcases h with h | h
      · exact h
      · simp only [symName, hs, Option.map_some, Option.some.injEq] at h
        exact absurd h.symm hn

theorem aggNames_inv {b : Bin} (hb : BinOk b) (l : List (Name × Nat))
    (hl : ∀ na ∈ l, ∃ size, (na.2, na.1, size) ∈ b.syms) {P : Prof} {M : Name → Maps}
    (h : Inv b P M) :
    ∃ P', l.foldlM (aggName b) P = some P' ∧ Inv b P' M ∧
      ∀ n, ((OMap.find? P n).isSome ∨ n ∈ l.map Prod.fst) → (OMap.find? P' n).isSome := by
  induction l generalizing P with
  | nil => exact ⟨P, rfl, h, by simp⟩
  | cons na t ih =>
    obtain ⟨size, hm⟩ := hl na List.mem_cons_self
    have hsz := hb.sizes _ hm
    dsimp only at hsz
    have hsi := (symbol_lookup_iff b.syms hb.sorted hb.disjoint na.2 na.1 na.2 (na.2 + size)).2
      ⟨size, hm, rfl, Nat.le_refl _, by omega⟩
    have h1 : Inv b (touch b P na.2 id) M := (touch_inv hb h na.2 id).congr (fun n => by simp)
    obtain ⟨P', e, hi, hp⟩ := ih (fun x hx => hl x (List.mem_cons_of_mem _ hx)) h1
    refine ⟨P', ?_, hi, ?_⟩
    · rw [List.foldlM_cons]
      simp only [aggName, hsi]
      exact e
    · intro n hn
      apply hp
      have := touch_isSome b h.sorted na.2 id n
      rcases hn with hn | hn
      · exact Or.inl (this (Or.inl hn))
      · rw [List.map_cons, List.mem_cons] at hn
        rcases hn with rfl | hn
        · exact Or.inl (this (Or.inr (by simp [symName, hsi])))
        · exact Or.inr hn

theorem filter_sym {A : Type} {b : Bin} (hb : BinOk b) {e : Nat × Name × Nat} (he : e ∈ b.syms)
    (xs : List A) (g : A → Nat) :
    xs.filter (fun x => symName b (g x) = some e.2.1) =
      xs.filter (fun x => decide (e.1 ≤ g x) && decide (g x < e.1 + e.2.2)) := by
  apply List.filter_congr
  intro x _
  rw [Bool.eq_iff_iff]
  simp only [decide_eq_true_eq, Bool.and_eq_true, symName_iff hb he]

/-- Aggregation succeeds and gives every function of the symbol table, in some order, exactly its
samples: those whose (start) address lies in the function. -/
theorem aggregate_spec (b : Bin) (hb : BinOk b) (S : Maps) :
    ∃ P, aggregate b S = some P ∧ P.Perm (b.syms.map (fnOf b S)) := by
  have h0 : Inv b [] (fun _ => Maps.empty) := ⟨OMap.sorted_nil, by simp [OMap.find?], by simp⟩
  have h3 := aggBranch_inv hb S.branch (aggRange_inv hb S.range (aggAddr_inv hb S.addr h0))
  have hna := fun n => nameAddrs_aux b.syms [] OMap.sorted_nil n
  obtain ⟨P, e, hi, hp⟩ := aggNames_inv hb (nameAddrs b.syms) (by
    intro na hna'
    have hs := (hna na.1).2.2
    have := OMap.find?_some_of_mem hs (k := na.1) (v := na.2) hna'
    rcases (hna na.1).1 _ this with h | h
    · simp [OMap.find?] at h
    · exact h) h3
  refine ⟨P, e, ?_⟩
  have hM : ∀ x ∈ b.syms, ∀ y, OMap.find? P x.2.1 = some y → (x.2.1, y) = fnOf b S x := by
    intro x hx y hy
    obtain ⟨lo, size, hm, rfl⟩ := hi.some _ _ hy
    have hxe := hb.unique hm hx rfl
    obtain ⟨lo', n', size'⟩ := x
    simp only [Prod.mk.injEq, true_and] at hxe
    obtain ⟨rfl, rfl⟩ := hxe
    simp only [fnOf, mapsIn, pairsIn, addrsIn, Prod.mk.injEq, true_and, FnMaps.mk.injEq]
    simp only [Maps.empty]
    rw [filter_sym hb hm S.addr (fun x => b.vaddr x.1),
      filter_sym hb hm S.range (fun x => b.vaddr (ofLex x.1).1),
      filter_sym hb hm S.branch (fun x => b.vaddr (ofLex x.1).1)]
  rw [List.perm_ext_iff_of_nodup]
  · rintro ⟨n, y⟩
    rw [List.mem_map]
    constructor
    · intro h
      have hf := OMap.find?_some_of_mem hi.sorted h
      obtain ⟨lo, size, hm, _⟩ := hi.some _ _ hf
      exact ⟨_, hm, (hM _ hm y hf).symm⟩
    · rintro ⟨x, hx, he⟩
      have hsome : (OMap.find? P x.2.1).isSome := by
        apply hp
        right
        have := (hna x.2.1).2.1 (Or.inr ⟨x, hx, rfl⟩)
        obtain ⟨a, ha⟩ := Option.isSome_iff_exists.1 this
        exact List.mem_map.2 ⟨_, OMap.mem_of_find?_some ha, rfl⟩
      obtain ⟨y', hy'⟩ := Option.isSome_iff_exists.1 hsome
      have := hM x hx y' hy'
      rw [he] at this
      have h2 := OMap.mem_of_find?_some hy'
      rw [this] at h2
      exact h2
  · exact List.Pairwise.imp (fun h => by rintro rfl; exact lt_irrefl _ h) hi.sorted
  · have : (List.map Prod.fst (b.syms.map (fnOf b S))).Nodup := by
      rw [List.map_map]
      exact hb.names
    exact List.Nodup.of_map _ this

end Verif.Compute

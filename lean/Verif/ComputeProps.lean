import Verif.ComputeOps

/-!
# C53: the profile computed from samples
-/
namespace Verif.Compute
open Verif Verif.SymbolMap Verif.AddrLookup Verif.Sample

/-! ## Specification -/

/-- The samples counted for address `a` of the function at `[lo, hi)`: with LBR the ranges that begin
in the function and cover `a`, otherwise the samples at `a`. -/
def weight (b : Bin) (c : Cfg) (S : Maps) (lo hi a : Nat) : Nat :=
  if c.lbr then
    (S.range.map (fun x => if lo ≤ b.vaddr (ofLex x.1).1 ∧ b.vaddr (ofLex x.1).1 < hi ∧
      b.vaddr (ofLex x.1).1 ≤ a ∧ a ≤ b.vaddr (ofLex x.1).2 then x.2 else 0)).sum
  else (S.addr.map (fun x => if b.vaddr x.1 = a then x.2 else 0)).sum

/-- The samples of all functions with the same base name as `f`. -/
def familyCount (b : Bin) (c : Cfg) (S : Maps) (f : Name) : Nat :=
  ((b.syms.filter (fun e => originalName c.pol e.2.1 = originalName c.pol f)).map
    (fun e => (mapsIn b S e.1 (e.1 + e.2.2)).totalCountFrom 0)).sum

/-- A function of the symbol table is written. -/
def written (b : Bin) (c : Cfg) (S : Maps) (thr : Nat) (e : Nat × Name × Nat) : Bool :=
  decide (familyCount b c S e.2.1 > thr)

/-- Branches out of this function are counted: it is written and, with LBR, has a range. -/
def branchesCounted (b : Bin) (c : Cfg) (S : Maps) (thr : Nat) (e : Nat × Name × Nat) : Bool :=
  written b c S thr e && (!c.lbr || !(pairsIn b e.1 (e.1 + e.2.2) S.range).isEmpty)

/-- The address lies in a function whose branches are counted. -/
def fromCounted (b : Bin) (c : Cfg) (S : Maps) (thr : Nat) (a : Nat) : Bool :=
  b.syms.any (fun e => decide (e.1 ≤ a) && decide (a < e.1 + e.2.2) && branchesCounted b c S thr e)

/-- What the profile of a written function `e = (start, name, size)` is. -/
structure FunctionProfile (b : Bin) (c : Cfg) (S : Maps) (thr : Nat) (e : Nat × Name × Nat) (s : Sym) :
    Prop where
  /-- The inline instances are those some instruction of the function comes from. -/
  instances : ∀ p, (s.node? p).isSome = true ↔
    p = [] ∨ ∃ a, e.1 ≤ a ∧ a < e.1 + e.2.2 ∧ through true (b.stack a) p = true
  /-- Total of an inline instance: the samples of all its instructions. -/
  total : ∀ p, s.totalAt p = ((List.range' e.1 e.2.2).map (fun a =>
    if through true (b.stack a) p = true then scale b c a (weight b c S e.1 (e.1 + e.2.2) a) else 0)).sum
  /-- Count of a location: the largest count of its instructions. -/
  count : ∀ p loc, s.countAt p loc = ((List.range' e.1 e.2.2).map (fun a =>
    if lands true (b.stack a) p loc = true then scale b c a (weight b c S e.1 (e.1 + e.2.2) a)
    else 0)).foldl Nat.max 0
  /-- Number of instructions of a location. -/
  inst : ∀ p loc, s.instAt p loc = ((List.range' e.1 e.2.2).map (fun a =>
    if lands true (b.stack a) p loc = true then 1 else 0)).sum
  /-- Entry count: the branches to the start of the function from functions whose branches are
  counted. -/
  entry : ∀ p, s.headAt p = if p = [] then (S.branch.map (fun x =>
    if fromCounted b c S thr (b.vaddr (ofLex x.1).1) = true ∧ b.vaddr (ofLex x.1).2 = e.1
    then x.2 else 0)).sum else 0
  /-- Call targets: a recorded count is that of one branch out of the function at that location to
  the start of a written function of that (base) name. -/
  target : ∀ p loc n, s.targetAt p loc n ≠ 0 → branchesCounted b c S thr e = true ∧
    ∃ x ∈ OMap.addAll [] (pairsIn b e.1 (e.1 + e.2.2) S.branch), x.2 = s.targetAt p loc n ∧
      lands true (b.stack (ofLex x.1).1) p loc = true ∧
      ∃ e' ∈ b.syms, written b c S thr e' = true ∧ e'.1 = (ofLex x.1).2 ∧
        originalName c.pol e'.2.1 = n
  /-- Call targets: every such branch with a non-zero count is recorded, with its own count or that of
  another one at the same location with the same target. -/
  targetSome : branchesCounted b c S thr e = true →
    ∀ x ∈ OMap.addAll [] (pairsIn b e.1 (e.1 + e.2.2) S.branch), ∀ e' ∈ b.syms,
      written b c S thr e' = true → e'.1 = (ofLex x.1).2 → ∀ p loc,
      lands true (b.stack (ofLex x.1).1) p loc = true →
      ∃ x' ∈ OMap.addAll [] (pairsIn b e.1 (e.1 + e.2.2) S.branch),
        lands true (b.stack (ofLex x'.1).1) p loc = true ∧
        (∃ e'' ∈ b.syms, written b c S thr e'' = true ∧ e''.1 = (ofLex x'.1).2 ∧
          originalName c.pol e''.2.1 = originalName c.pol e'.2.1) ∧
        s.targetAt p loc (originalName c.pol e'.2.1) = x'.2

/-! ## Sums over addresses -/

theorem sum_update (L : List Nat) (hL : L.Nodup) (k : Nat) (g h : Nat → Nat) (hk : h k = 0)
    (hgh : ∀ a ∈ L, a ≠ k → g a = h a) :
    (L.map g).sum = (L.map h).sum + (if k ∈ L then g k else 0) := by
  induction L with
  | nil => simp
  | cons a t ih =>
    rw [List.nodup_cons] at hL
    have ih := ih hL.2 (fun x hx => hgh x (List.mem_cons_of_mem _ hx))
    simp only [List.map_cons, List.sum_cons, ih]
    by_cases ha : a = k
    · subst ha
      simp [hL.1, hk]
      omega
    · have : (k ∈ a :: t) ↔ k ∈ t := by
        rw [List.mem_cons]
        exact ⟨fun h => h.resolve_left (fun h => ha h.symm), Or.inr⟩
      simp only [this]
      rw [hgh a List.mem_cons_self ha]
      omega

theorem find?_cons_self (k : Nat) (v : Nat) (t : OMap Nat Nat) : OMap.get0 ((k, v) :: t) k = v := by
  simp [OMap.get0, OMap.find?]

/-- A sum over the entries of a count map with keys in `L` is a sum over `L`. -/
theorem sum_entries (L : List Nat) (hL : L.Nodup) (m : OMap Nat Nat) (hm : OMap.Sorted m)
    (q : Nat → Bool) (hq : ∀ a, q a = true ↔ a ∈ L) (g : Nat → Nat → Nat) (hg : ∀ a, g a 0 = 0) :
    ((m.filter (fun e => q e.1)).map (fun e => g e.1 e.2)).sum =
      (L.map (fun a => g a (OMap.get0 m a))).sum := by
  induction m with
  | nil => simp [OMap.get0, OMap.find?, hg]
  | cons e t ih =>
    obtain ⟨k, v⟩ := e
    obtain ⟨h1, h2⟩ := List.pairwise_cons.1 hm
    have ht : OMap.get0 t k = 0 := by
      unfold OMap.get0; rw [OMap.find?_eq_none_of_lt h1]; rfl
    have hne : ∀ a, a ≠ k → OMap.get0 ((k, v) :: t) a = OMap.get0 t a := by
      intro a ha
      simp [OMap.get0, OMap.find?, ha]
    rw [sum_update L hL k (fun a => g a (OMap.get0 ((k, v) :: t) a)) (fun a => g a (OMap.get0 t a))
      (by rw [ht]; exact hg k) (fun a _ ha => by rw [hne a ha]), ← ih h2, List.filter_cons]
    by_cases hk : k ∈ L
    · rw [if_pos ((hq k).2 hk), if_pos hk, List.map_cons, List.sum_cons, find?_cons_self]
      dsimp only
      omega
    · have : ¬ q k = true := fun h => hk ((hq k).1 h)
      rw [if_neg this, if_neg hk, Nat.add_zero]

theorem foldl_max_le (l : List Nat) (a x : Nat) :
    l.foldl Nat.max a ≤ x ↔ a ≤ x ∧ ∀ y ∈ l, y ≤ x := by
  induction l generalizing a with
  | nil => simp
  | cons b t ih =>
    rw [List.foldl_cons, ih]
    have : Nat.max a b ≤ x ↔ a ≤ x ∧ b ≤ x := Nat.max_le
    rw [this]
    simp only [List.mem_cons, forall_eq_or_imp]
    tauto

theorem foldl_max_ext (l l' : List Nat) (h : ∀ x, (∀ y ∈ l, y ≤ x) ↔ (∀ y ∈ l', y ≤ x)) :
    l.foldl Nat.max 0 = l'.foldl Nat.max 0 := by
  have key : ∀ x, l.foldl Nat.max 0 ≤ x ↔ l'.foldl Nat.max 0 ≤ x := by
    intro x; rw [foldl_max_le, foldl_max_le, h]
  exact Nat.le_antisymm ((key _).2 (Nat.le_refl _)) ((key _).1 (Nat.le_refl _))

/-- The same for maxima. -/
theorem max_entries (L : List Nat) (m : OMap Nat Nat) (hm : OMap.Sorted m)
    (q : Nat → Bool) (hq : ∀ a, q a = true ↔ a ∈ L) (g : Nat → Nat → Nat) (hg : ∀ a, g a 0 = 0) :
    ((m.filter (fun e => q e.1)).map (fun e => g e.1 e.2)).foldl Nat.max 0 =
      (L.map (fun a => g a (OMap.get0 m a))).foldl Nat.max 0 := by
  apply foldl_max_ext
  intro x
  simp only [List.mem_map, List.mem_filter, forall_exists_index, and_imp]
  constructor
  · rintro h y a ha rfl
    cases hf : OMap.find? m a with
    | none => simp [OMap.get0, hf, hg]
    | some v =>
      have := h _ (a, v) (OMap.mem_of_find?_some hf) ((hq a).2 ha) rfl
      simpa [OMap.get0, hf] using this
  · rintro h y e he hqe rfl
    have := h _ e.1 ((hq e.1).1 hqe) rfl
    have hf := OMap.find?_some_of_mem hm (k := e.1) (v := e.2) he
    simpa [OMap.get0, hf] using this

theorem has_iff (x : FnMaps) (a : Nat) :
    x.has a = true ↔ a ∈ List.range' x.start (x.stop - x.start) := by
  simp only [FnMaps.has, Bool.and_eq_true, decide_eq_true_eq, List.mem_range'_1]
  omega

/-! ## Weights -/

theorem sumAt_walkRange (x : FnMaps) (e s v a : Nat) :
    OMap.sumAt ((walkRange x e s).map (fun k => (k, v))) a =
      if x.start ≤ s ∧ s ≤ a ∧ a < x.stop ∧ a ≤ e then v else 0 := by
  fun_induction walkRange x e s with
  | case1 s h ih =>
    simp only [FnMaps.has, Bool.and_eq_true, decide_eq_true_eq] at h
    have hc : OMap.sumAt ((s :: walkRange x e (s + 1)).map (fun k => (k, v))) a =
        (if s = a then v else 0) + OMap.sumAt ((walkRange x e (s + 1)).map (fun k => (k, v))) a := by
      unfold OMap.sumAt
      by_cases h' : s = a <;> simp [h']
    rw [hc, ih]
    by_cases h1 : s = a
    · subst h1
      rw [if_pos rfl, if_neg (by omega), if_pos (by omega), Nat.add_zero]
    · by_cases h2 : x.start ≤ s ∧ s ≤ a ∧ a < x.stop ∧ a ≤ e
      · rw [if_neg h1, if_pos (by omega), if_pos h2, Nat.zero_add]
      · rw [if_neg h1, if_neg (by omega), if_neg h2]
  | case2 s h =>
    simp only [FnMaps.has, Bool.and_eq_true, decide_eq_true_eq] at h
    rw [if_neg (by omega)]
    simp [OMap.sumAt]

theorem weights_lbr (x : FnMaps) : weights true x =
    OMap.addAll [] (x.maps.range.flatMap
      (fun r => (walkRange x (ofLex r.1).2 (ofLex r.1).1).map (fun a => (a, r.2)))) := by
  unfold weights
  rw [if_pos rfl]
  generalize ([] : OMap Nat Nat) = m
  induction x.maps.range generalizing m with
  | nil => rfl
  | cons r t ih =>
    rw [List.foldl_cons, List.flatMap_cons, ih, ← addAll_append]
    congr 1
    unfold OMap.addAll
    rw [List.foldl_map]

theorem sumAt_flatMap {A : Type} (l : List A) (g : A → List (Nat × Nat)) (a : Nat) :
    OMap.sumAt (l.flatMap g) a = (l.map (fun x => OMap.sumAt (g x) a)).sum := by
  induction l with
  | nil => simp [OMap.sumAt]
  | cons x t ih => rw [List.flatMap_cons, OMap.sumAt_append, ih]; simp

theorem filter_map_sum {A : Type} (l : List A) (q : A → Bool) (g : A → Nat) :
    ((l.filter q).map g).sum = (l.map (fun x => if q x = true then g x else 0)).sum := by
  induction l with
  | nil => rfl
  | cons x t ih =>
    rw [List.filter_cons]
    by_cases h : q x = true <;> simp [h, ih]

theorem sum_map_congr {A : Type} (l : List A) (g h : A → Nat) (hgh : ∀ x ∈ l, g x = h x) :
    (l.map g).sum = (l.map h).sum := by
  rw [List.map_congr_left hgh]

theorem sorted_mapsIn (b : Bin) (S : Maps) (lo hi : Nat) : (mapsIn b S lo hi).Ok :=
  ⟨OMap.Sorted.addAll OMap.sorted_nil _, OMap.Sorted.addAll OMap.sorted_nil _,
    OMap.Sorted.addAll OMap.sorted_nil _⟩

theorem get0_weights (b : Bin) (c : Cfg) (S : Maps) (lo hi a : Nat) (h1 : lo ≤ a) (h2 : a < hi) :
    OMap.get0 (weights c.lbr ⟨lo, hi, mapsIn b S lo hi⟩) a = weight b c S lo hi a := by
  unfold weight
  cases hl : c.lbr
  · simp only [weights, Bool.false_eq_true, if_false, mapsIn]
    rw [OMap.get0_addAll OMap.sorted_nil]
    simp only [OMap.get0, OMap.find?, Option.getD_none, Nat.zero_add]
    unfold OMap.sumAt addrsIn
    rw [List.filter_map, List.filter_filter, List.map_map, filter_map_sum]
    apply sum_map_congr
    intro x _
    simp only [Function.comp_apply, Bool.and_eq_true, decide_eq_true_eq]
    by_cases hx : b.vaddr x.1 = a
    · rw [if_pos hx, if_pos (by omega)]
    · rw [if_neg hx, if_neg (by omega)]
  · rw [weights_lbr, OMap.get0_addAll OMap.sorted_nil, sumAt_flatMap]
    simp only [OMap.get0, OMap.find?, Option.getD_none, Nat.zero_add, if_true, mapsIn]
    have hw := weighted_sum_addAll (fun r : Pair =>
      if lo ≤ (ofLex r).1 ∧ (ofLex r).1 ≤ a ∧ a < hi ∧ a ≤ (ofLex r).2 then 1 else 0) []
      (pairsIn b lo hi S.range)
    simp only [List.map_nil, List.sum_nil, Nat.zero_add] at hw
    have hstep : ((OMap.addAll [] (pairsIn b lo hi S.range)).map (fun r =>
        OMap.sumAt ((walkRange ⟨lo, hi, mapsIn b S lo hi⟩ (ofLex r.1).2 (ofLex r.1).1).map
          (fun a => (a, r.2))) a)).sum =
        ((OMap.addAll [] (pairsIn b lo hi S.range)).map (fun r => r.2 *
          if lo ≤ (ofLex r.1).1 ∧ (ofLex r.1).1 ≤ a ∧ a < hi ∧ a ≤ (ofLex r.1).2 then 1 else 0)).sum := by
      apply sum_map_congr
      intro r _
      rw [sumAt_walkRange]
      split <;> simp
    unfold mapsIn at hstep
    rw [hstep, hw]
    unfold pairsIn
    rw [List.map_map, filter_map_sum]
    apply sum_map_congr
    intro x _
    simp only [Function.comp_apply, ofLex_toLex, Bool.and_eq_true, decide_eq_true_eq]
    by_cases hx : lo ≤ b.vaddr (ofLex x.1).1 ∧ b.vaddr (ofLex x.1).1 < hi
    · rw [if_pos hx]
      by_cases hy : b.vaddr (ofLex x.1).1 ≤ a ∧ a ≤ b.vaddr (ofLex x.1).2
      · rw [if_pos (show lo ≤ b.vaddr (ofLex x.1).1 ∧ b.vaddr (ofLex x.1).1 < hi ∧
          b.vaddr (ofLex x.1).1 ≤ a ∧ a ≤ b.vaddr (ofLex x.1).2 by omega)]
        exact (congrArg (x.2 * ·) (if_pos (by omega))).trans (Nat.mul_one _)
      · rw [if_neg (show ¬ (lo ≤ b.vaddr (ofLex x.1).1 ∧ b.vaddr (ofLex x.1).1 < hi ∧
          b.vaddr (ofLex x.1).1 ≤ a ∧ a ≤ b.vaddr (ofLex x.1).2) by omega)]
        exact (congrArg (x.2 * ·) (if_neg (by omega))).trans (Nat.mul_zero _)
    · rw [if_neg hx, if_neg (by omega)]

theorem sorted_weights (b : Bin) (c : Cfg) (S : Maps) (lo hi : Nat) :
    OMap.Sorted (weights c.lbr ⟨lo, hi, mapsIn b S lo hi⟩) := by
  cases c.lbr
  · exact (sorted_mapsIn b S lo hi).2.1
  · rw [weights_lbr]; exact OMap.Sorted.addAll OMap.sorted_nil _

theorem weights_empty (lbr : Bool) (x : FnMaps) (h : lbr = true ∧ x.maps.range.isEmpty = true) :
    weights lbr x = [] := by
  obtain ⟨rfl, h⟩ := h
  rw [weights_lbr, List.isEmpty_iff.1 h]
  rfl

/-! ## Order of the functions -/

theorem baseCount_eq (b : Bin) (c : Cfg) (S : Maps) (order : List (Name × FnMaps))
    (hp : order.Perm (b.syms.map (fnOf b S))) (f : Name) :
    baseCount c.pol order f = familyCount b c S f := by
  unfold baseCount familyCount
  rw [((hp.filter _).map _).sum_eq, List.filter_map, List.map_map]
  rfl

theorem emitted_perm (b : Bin) (c : Cfg) (S : Maps) (thr : Nat) (order : List (Name × FnMaps))
    (hp : order.Perm (b.syms.map (fnOf b S))) :
    (emitted c thr order).Perm ((b.syms.filter (written b c S thr)).map (fnOf b S)) := by
  unfold emitted
  refine (hp.filter _).trans ?_
  rw [List.filter_map]
  have : (fun p : Name × FnMaps => decide (baseCount c.pol order p.1 > thr)) ∘ fnOf b S =
      written b c S thr := by
    funext e
    simp only [Function.comp_apply, written, fnOf, baseCount_eq b c S order hp]
    rfl
  rw [this]

theorem inList_iff (b : Bin) (c : Cfg) (S : Maps) (thr : Nat) (order : List (Name × FnMaps))
    (hp : order.Perm (b.syms.map (fnOf b S))) (f : Name) :
    inList (emitted c thr order) f = true ↔ ∃ e ∈ b.syms, written b c S thr e = true ∧ e.2.1 = f := by
  unfold inList
  rw [decide_eq_true_eq, ((emitted_perm b c S thr order hp).map Prod.fst).mem_iff, List.map_map]
  simp only [List.mem_map, List.mem_filter, Function.comp_apply, fnOf]
  constructor
  · rintro ⟨e, ⟨h1, h2⟩, h3⟩; exact ⟨e, h1, h2, h3⟩
  · rintro ⟨e, h1, h2, h3⟩; exact ⟨e, ⟨h1, h2⟩, h3⟩

theorem split_order {b : Bin} (hb : BinOk b) (c : Cfg) (S : Maps) (thr : Nat)
    (order : List (Name × FnMaps)) (hp : order.Perm (b.syms.map (fnOf b S))) (e : Nat × Name × Nat)
    (he : e ∈ b.syms) (hw : written b c S thr e = true) :
    ∃ l1 l2 : List (Name × FnMaps), emitted c thr order = l1 ++ fnOf b S e :: l2 ∧
      ∀ p ∈ l1 ++ l2, p.1 ≠ e.2.1 := by
  have hperm := emitted_perm b c S thr order hp
  have hmem : fnOf b S e ∈ emitted c thr order := by
    rw [hperm.mem_iff]
    exact List.mem_map_of_mem (List.mem_filter.2 ⟨he, hw⟩)
  obtain ⟨l1, l2, hl⟩ := List.append_of_mem hmem
  refine ⟨l1, l2, hl, ?_⟩
  have hnd : ((emitted c thr order).map Prod.fst).Nodup := by
    rw [(hperm.map Prod.fst).nodup_iff, List.map_map]
    exact (List.filter_sublist.map _).nodup hb.names
  rw [hl, List.map_append, List.map_cons] at hnd
  intro p hpm hpe
  rw [List.nodup_middle, List.nodup_cons] at hnd
  apply hnd.1
  rw [← List.map_append]
  exact List.mem_map.2 ⟨p, hpm, hpe⟩

theorem opsOf_shape (b : Bin) (c : Cfg) (E : Name → Bool) (p : Name × FnMaps) :
    ∀ o ∈ opsOf b c E p, (∃ s n i, o = .src p.1 s n i) ∨ (∃ f n, o = .head f n) ∨
      ∃ s t n, o = .target p.1 s t n := by
  intro o ho
  unfold opsOf instOps weightOps at ho
  rw [List.mem_append] at ho
  rcases ho with ho | ho
  · obtain ⟨a, _, rfl⟩ := List.mem_map.1 ho
    exact Or.inl ⟨_, _, _, rfl⟩
  · split at ho
    · cases ho
    · rw [List.mem_append] at ho
      rcases ho with ho | ho
      · obtain ⟨a, _, rfl⟩ := List.mem_map.1 ho
        exact Or.inl ⟨_, _, _, rfl⟩
      · obtain ⟨e, _, he⟩ := List.mem_flatMap.1 ho
        unfold branchOp at he
        split at he
        · split at he
          · cases he
          · split at he
            · simp only [List.mem_cons, List.not_mem_nil, or_false] at he
              rcases he with rfl | rfl
              · exact Or.inr (Or.inl ⟨_, _, rfl⟩)
              · exact Or.inr (Or.inr ⟨_, _, _, rfl⟩)
            · cases he
        · cases he

/-- Updates made for another function leave `f` alone (except for its entry count). -/
theorem opsOf_other (b : Bin) (c : Cfg) (E : Name → Bool) (q : Name × FnMaps) (f : Name)
    (hq : q.1 ≠ f) : ∀ o ∈ opsOf b c E q, ∀ p, o.creates true f p = false ∧ o.total true f p = 0 ∧
      ∀ loc, o.count true f p loc = 0 ∧ o.inst true f p loc = 0 ∧
        ∀ n old, o.target' c.pol true f p loc n old = old := by
  intro o ho p
  rcases opsOf_shape b c E q o ho with ⟨s, n, i, rfl⟩ | ⟨g, n, rfl⟩ | ⟨s, t, n, rfl⟩ <;>
    simp [Op.creates, Op.total, Op.count, Op.inst, Op.target', hq]

theorem sum_zero {A : Type} (l : List A) (g : A → Nat) (h : ∀ x ∈ l, g x = 0) : (l.map g).sum = 0 := by
  induction l with
  | nil => rfl
  | cons x t ih =>
    rw [List.map_cons, List.sum_cons, h x List.mem_cons_self,
      ih (fun y hy => h y (List.mem_cons_of_mem _ hy))]

theorem sum_split {A B : Type} (l1 l2 : List A) (x : A) (ops : A → List B) (g : B → Nat)
    (h : ∀ y ∈ l1 ++ l2, ∀ o ∈ ops y, g o = 0) :
    (((l1 ++ x :: l2).flatMap ops).map g).sum = ((ops x).map g).sum := by
  rw [List.flatMap_append, List.flatMap_cons, List.map_append, List.map_append, List.sum_append,
    List.sum_append, sum_zero (l1.flatMap ops), sum_zero (l2.flatMap ops)]
  · omega
  · intro o ho
    obtain ⟨y, hy, ho⟩ := List.mem_flatMap.1 ho
    exact h y (List.mem_append_right _ hy) o ho
  · intro o ho
    obtain ⟨y, hy, ho⟩ := List.mem_flatMap.1 ho
    exact h y (List.mem_append_left _ hy) o ho

theorem max_split {A B : Type} (l1 l2 : List A) (x : A) (ops : A → List B) (g : B → Nat)
    (h : ∀ y ∈ l1 ++ l2, ∀ o ∈ ops y, g o = 0) :
    (((l1 ++ x :: l2).flatMap ops).map g).foldl Nat.max 0 = ((ops x).map g).foldl Nat.max 0 := by
  apply foldl_max_ext
  intro z
  simp only [List.mem_map, List.mem_flatMap, List.mem_append, List.mem_cons]
  constructor
  · rintro hz y ⟨o, ho, rfl⟩
    exact hz _ ⟨o, ⟨x, by simp, ho⟩, rfl⟩
  · rintro hz y ⟨o, ⟨q, hq, ho⟩, rfl⟩
    rcases hq with hq | rfl | hq
    · rw [h q (List.mem_append_left _ hq) o ho]; exact Nat.zero_le _
    · exact hz _ ⟨o, ho, rfl⟩
    · rw [h q (List.mem_append_right _ hq) o ho]; exact Nat.zero_le _

theorem foldl_id {A B : Type} (l : List A) (g : B → A → B) (h : ∀ x ∈ l, ∀ old, g old x = old)
    (old : B) : l.foldl g old = old := by
  induction l with
  | nil => rfl
  | cons x t ih =>
    rw [List.foldl_cons, h x List.mem_cons_self]
    exact ih (fun y hy => h y (List.mem_cons_of_mem _ hy))

theorem foldl_split {A B C : Type} (l1 l2 : List A) (x : A) (ops : A → List B) (g : C → B → C)
    (h : ∀ y ∈ l1 ++ l2, ∀ o ∈ ops y, ∀ old, g old o = old) (init : C) :
    ((l1 ++ x :: l2).flatMap ops).foldl g init = (ops x).foldl g init := by
  rw [List.flatMap_append, List.flatMap_cons, List.foldl_append, List.foldl_append,
    foldl_id (l1.flatMap ops), foldl_id (l2.flatMap ops)]
  · intro o ho
    obtain ⟨y, hy, ho⟩ := List.mem_flatMap.1 ho
    exact h y (List.mem_append_right _ hy) o ho
  · intro o ho
    obtain ⟨y, hy, ho⟩ := List.mem_flatMap.1 ho
    exact h y (List.mem_append_left _ hy) o ho

end Verif.Compute

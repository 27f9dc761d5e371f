import Verif.ComputeProps

/-!
# C53, main theorem
-/
namespace Verif.Compute
open Verif Verif.SymbolMap Verif.AddrLookup Verif.Sample

/-! ## Updates of one function -/

theorem scale_zero (b : Bin) (c : Cfg) (a : Nat) : scale b c a 0 = 0 := by
  unfold scale; split <;> simp

/-- Only the weight updates have a total or a count. -/
theorem opsOf_sum_weight (b : Bin) (c : Cfg) (E : Name → Bool) (q : Name × FnMaps) (g : Op → Nat)
    (h1 : ∀ s i, g (.src q.1 s 0 i) = 0) (h2 : ∀ f n, g (.head f n) = 0)
    (h3 : ∀ f s t n, g (.target f s t n) = 0) :
    ((opsOf b c E q).map g).sum = ((weightOps b c q).map g).sum ∧
    ((opsOf b c E q).map g).foldl Nat.max 0 = ((weightOps b c q).map g).foldl Nat.max 0 := by
  have hi : ∀ o ∈ instOps b q, g o = 0 := by
    intro o ho
    obtain ⟨a, _, rfl⟩ := List.mem_map.1 ho
    exact h1 _ _
  have hbr : ∀ o ∈ q.2.maps.branch.flatMap (branchOp b E q), g o = 0 := by
    intro o ho
    obtain ⟨e, _, he⟩ := List.mem_flatMap.1 ho
    unfold branchOp at he
    split at he
    · split at he
      · cases he
      · split at he
        · simp only [List.mem_cons, List.not_mem_nil, or_false] at he
          rcases he with rfl | rfl
          · exact h2 _ _
          · exact h3 _ _ _ _
        · cases he
    · cases he
  unfold opsOf
  by_cases hc : c.lbr = true ∧ q.2.maps.range.isEmpty = true
  · have hw : weightOps b c q = [] := by
      unfold weightOps; rw [weights_empty c.lbr q.2 hc]; rfl
    rw [if_pos hc, hw, List.append_nil]
    refine ⟨by rw [sum_zero _ _ hi]; rfl, ?_⟩
    apply foldl_max_ext
    intro x
    simp only [List.mem_map, List.map_nil, List.not_mem_nil, false_imp_iff, implies_true, iff_true]
    rintro y ⟨o, ho, rfl⟩
    rw [hi o ho]; exact Nat.zero_le _
  · rw [if_neg hc]
    refine ⟨?_, ?_⟩
    · rw [List.map_append, List.map_append, List.sum_append, List.sum_append, sum_zero _ _ hi,
        sum_zero _ _ hbr]
      omega
    · apply foldl_max_ext
      intro x
      simp only [List.mem_map, List.mem_append]
      constructor
      · rintro hx y ⟨o, ho, rfl⟩
        exact hx _ ⟨o, Or.inr (Or.inl ho), rfl⟩
      · rintro hx y ⟨o, ho, rfl⟩
        rcases ho with ho | ho | ho
        · rw [hi o ho]; exact Nat.zero_le _
        · exact hx _ ⟨o, ho, rfl⟩
        · rw [hbr o ho]; exact Nat.zero_le _

theorem fn_total (b : Bin) (c : Cfg) (S : Maps) (E : Name → Bool) (e : Nat × Name × Nat)
    (p : List Callsite) :
    ((opsOf b c E (fnOf b S e)).map (Op.total true e.2.1 p)).sum =
      ((List.range' e.1 e.2.2).map (fun a => if through true (b.stack a) p = true
        then scale b c a (weight b c S e.1 (e.1 + e.2.2) a) else 0)).sum := by
  rw [(opsOf_sum_weight b c E _ _ (by simp [Op.total]) (by simp [Op.total]) (by simp [Op.total])).1]
  unfold weightOps
  rw [List.map_map]
  have h := sum_entries (List.range' e.1 e.2.2) List.nodup_range'
    (weights c.lbr (fnOf b S e).2) (sorted_weights b c S e.1 (e.1 + e.2.2)) (fnOf b S e).2.has
    (by intro a; rw [has_iff]; simp [fnOf])
    (fun a v => if through true (b.stack a) p = true then scale b c a v else 0)
    (by intro a; simp [scale_zero])
  refine Eq.trans ?_ (h.trans ?_)
  · apply sum_map_congr
    intro x _
    simp [Op.total, fnOf]
  · apply sum_map_congr
    intro a ha
    rw [List.mem_range'_1] at ha
    unfold fnOf
    rw [get0_weights b c S e.1 (e.1 + e.2.2) a ha.1 ha.2]

theorem fn_count (b : Bin) (c : Cfg) (S : Maps) (E : Name → Bool) (e : Nat × Name × Nat)
    (p : List Callsite) (loc : Nat) :
    ((opsOf b c E (fnOf b S e)).map (Op.count true e.2.1 p loc)).foldl Nat.max 0 =
      ((List.range' e.1 e.2.2).map (fun a => if lands true (b.stack a) p loc = true
        then scale b c a (weight b c S e.1 (e.1 + e.2.2) a) else 0)).foldl Nat.max 0 := by
  rw [(opsOf_sum_weight b c E _ _ (by simp [Op.count]) (by simp [Op.count]) (by simp [Op.count])).2]
  unfold weightOps
  rw [List.map_map]
  have h := max_entries (List.range' e.1 e.2.2)
    (weights c.lbr (fnOf b S e).2) (sorted_weights b c S e.1 (e.1 + e.2.2)) (fnOf b S e).2.has
    (by intro a; rw [has_iff]; simp [fnOf])
    (fun a v => if lands true (b.stack a) p loc = true then scale b c a v else 0)
    (by intro a; simp [scale_zero])
  refine Eq.trans ?_ (h.trans ?_)
  · congr 1
    apply List.map_congr_left
    intro x _
    simp [Op.count, fnOf]
  · congr 1
    apply List.map_congr_left
    intro a ha
    rw [List.mem_range'_1] at ha
    unfold fnOf
    rw [get0_weights b c S e.1 (e.1 + e.2.2) a ha.1 ha.2]

theorem fn_inst (b : Bin) (c : Cfg) (S : Maps) (E : Name → Bool) (e : Nat × Name × Nat)
    (p : List Callsite) (loc : Nat) :
    ((opsOf b c E (fnOf b S e)).map (Op.inst true e.2.1 p loc)).sum =
      ((List.range' e.1 e.2.2).map (fun a => if lands true (b.stack a) p loc = true
        then 1 else 0)).sum := by
  unfold opsOf
  rw [List.map_append, List.sum_append]
  refine Eq.trans (congrArg (_ + ·) (sum_zero _ _ ?_)) ?_
  rotate_left
  · rw [Nat.add_zero]
    unfold instOps
    rw [List.map_map]
    have : (fnOf b S e).2.stop - (fnOf b S e).2.start = e.2.2 := by simp [fnOf]
    rw [this]
    apply sum_map_congr
    intro a _
    simp [Op.inst, fnOf]
  · intro o ho
    split at ho
    · cases ho
    · rw [List.mem_append] at ho
      rcases ho with ho | ho
      · obtain ⟨a, _, rfl⟩ := List.mem_map.1 ho
        simp [Op.inst]
      · obtain ⟨x, _, hx⟩ := List.mem_flatMap.1 ho
        unfold branchOp at hx
        split at hx
        · split at hx
          · cases hx
          · split at hx
            · simp only [List.mem_cons, List.not_mem_nil, or_false] at hx
              rcases hx with rfl | rfl <;> rfl
            · cases hx
        · cases hx

theorem fn_creates (b : Bin) (c : Cfg) (S : Maps) (E : Name → Bool) (e : Nat × Name × Nat)
    (p : List Callsite) :
    (opsOf b c E (fnOf b S e)).any (fun o => o.creates true e.2.1 p) = true ↔
      ∃ a, e.1 ≤ a ∧ a < e.1 + e.2.2 ∧ through true (b.stack a) p = true := by
  rw [List.any_eq_true]
  constructor
  · rintro ⟨o, ho, hc⟩
    unfold opsOf instOps weightOps at ho
    rw [List.mem_append] at ho
    rcases ho with ho | ho
    · obtain ⟨a, ha, rfl⟩ := List.mem_map.1 ho
      rw [List.mem_range'_1] at ha
      simp only [fnOf] at ha
      simp only [Op.creates, Bool.and_eq_true] at hc
      exact ⟨a, by omega, by omega, hc.2⟩
    · split at ho
      · cases ho
      · rw [List.mem_append] at ho
        rcases ho with ho | ho
        · obtain ⟨x, hx, rfl⟩ := List.mem_map.1 ho
          have hh := (List.mem_filter.1 hx).2
          simp only [FnMaps.has, fnOf, Bool.and_eq_true] at hh
          simp only [Op.creates, Bool.and_eq_true] at hc
          exact ⟨x.1, of_decide_eq_true hh.1, of_decide_eq_true hh.2, hc.2⟩
        · obtain ⟨x, _, hx⟩ := List.mem_flatMap.1 ho
          unfold branchOp at hx
          split at hx
          · rename_i hh
            simp only [FnMaps.has, fnOf, Bool.and_eq_true] at hh
            split at hx
            · cases hx
            · split at hx
              · simp only [List.mem_cons, List.not_mem_nil, or_false] at hx
                rcases hx with rfl | rfl
                · cases hc
                · simp only [Op.creates, Bool.and_eq_true] at hc
                  exact ⟨_, of_decide_eq_true hh.1, of_decide_eq_true hh.2, hc.2⟩
              · cases hx
          · cases hx
  · rintro ⟨a, h1, h2, h3⟩
    refine ⟨.src e.2.1 (b.stack a) 0 1, ?_, by simp [Op.creates, h3]⟩
    unfold opsOf
    apply List.mem_append_left
    unfold instOps
    refine List.mem_map.2 ⟨a, ?_, rfl⟩
    rw [List.mem_range'_1]
    simp only [fnOf]
    omega

/-! ## Entry counts -/

theorem start_iff {b : Bin} (hb : BinOk b) {e : Nat × Name × Nat} (he : e ∈ b.syms) (a : Nat) :
    nameByStart b.syms a = some e.2.1 ↔ a = e.1 := by
  unfold nameByStart
  constructor
  · intro h
    cases hf : OMap.find? b.syms a with
    | none => rw [hf] at h; cases h
    | some r =>
      rw [hf] at h
      simp only [Option.map_some, Option.some.injEq] at h
      have := hb.unique (OMap.mem_of_find?_some hf) he h
      rw [← this]
  · rintro rfl
    rw [OMap.find?_some_of_mem hb.sorted (k := e.1) (v := e.2) he]
    rfl

theorem sum_flatMap {A B : Type} (l : List A) (ops : A → List B) (g : B → Nat) :
    ((l.flatMap ops).map g).sum = (l.map (fun x => ((ops x).map g).sum)).sum := by
  induction l with
  | nil => rfl
  | cons x t ih => rw [List.flatMap_cons, List.map_append, List.sum_append, ih]; rfl

theorem branchOp_entry {b : Bin} (hb : BinOk b) (E : Name → Bool) (q : Name × FnMaps)
    {e : Nat × Name × Nat} (he : e ∈ b.syms) (hE : E e.2.1 = true) (x : Pair × Nat) :
    ((branchOp b E q x).map (Op.entry e.2.1 [])).sum =
      x.2 * (if q.2.has (ofLex x.1).1 = true ∧ (ofLex x.1).2 = e.1 then 1 else 0) := by
  unfold branchOp
  by_cases hh : q.2.has (ofLex x.1).1 = true
  · rw [if_pos hh]
    by_cases hs : (ofLex x.1).2 = e.1
    · rw [if_pos ⟨hh, hs⟩, (start_iff hb he _).2 hs]
      simp [hE, Op.entry]
    · rw [if_neg (fun h => hs h.2)]
      cases hn : nameByStart b.syms (ofLex x.1).2 with
      | none => simp
      | some callee =>
        have : callee ≠ e.2.1 := by
          rintro rfl
          exact hs ((start_iff hb he _).1 hn)
        simp only
        split <;> simp [Op.entry, this]
  · rw [if_neg hh, if_neg (fun h => hh h.1)]
    simp

theorem fn_entry {b : Bin} (hb : BinOk b) (c : Cfg) (S : Maps) (thr : Nat) (E : Name → Bool)
    {e : Nat × Name × Nat} (he : e ∈ b.syms) (hE : E e.2.1 = true) (g : Nat × Name × Nat)
    (hg : written b c S thr g = true) :
    ((opsOf b c E (fnOf b S g)).map (Op.entry e.2.1 [])).sum =
      (S.branch.map (fun x => if (decide (g.1 ≤ b.vaddr (ofLex x.1).1) &&
        decide (b.vaddr (ofLex x.1).1 < g.1 + g.2.2) && branchesCounted b c S thr g) = true ∧
        b.vaddr (ofLex x.1).2 = e.1 then x.2 else 0)).sum := by
  have hi : ((instOps b (fnOf b S g)).map (Op.entry e.2.1 [])).sum = 0 := by
    apply sum_zero
    intro o ho
    obtain ⟨a, _, rfl⟩ := List.mem_map.1 ho
    rfl
  have hemp : ∀ l : List (Pair × Nat), (OMap.addAll ([] : OMap Pair Nat) l).isEmpty = l.isEmpty := by
    intro l
    cases l with
    | nil => rfl
    | cons x t =>
      have h := OMap.find?_addAll (K := Pair) OMap.sorted_nil (x :: t) x.1
      rw [if_pos (Or.inl (by simp))] at h
      cases hl : OMap.addAll ([] : OMap Pair Nat) (x :: t) with
      | nil => rw [hl] at h; simp [OMap.find?] at h
      | cons _ _ => rfl
  unfold opsOf
  rw [List.map_append, List.sum_append, hi, Nat.zero_add]
  by_cases hc : c.lbr = true ∧ (fnOf b S g).2.maps.range.isEmpty = true
  · rw [if_pos hc]
    have hbc : branchesCounted b c S thr g = false := by
      have h2 := hc.2
      simp only [fnOf, mapsIn, hemp] at h2
      simp [branchesCounted, hc.1, h2]
    rw [sum_zero S.branch]
    · rfl
    · intro x _
      simp [hbc]
  · rw [if_neg hc, List.map_append, List.sum_append, sum_zero (weightOps b c _), Nat.zero_add,
      sum_flatMap]
    · have hbc : branchesCounted b c S thr g = true := by
        simp only [fnOf, mapsIn, hemp] at hc
        simp only [branchesCounted, hg, Bool.true_and, Bool.or_eq_true, Bool.not_eq_true']
        by_cases hl : c.lbr = true
        · right
          by_contra h
          exact hc ⟨hl, by simpa using h⟩
        · left; simpa using hl
      rw [sum_map_congr _ _ _ (fun x _ => branchOp_entry hb E (fnOf b S g) he hE x)]
      have hw := weighted_sum_addAll (fun r : Pair => if (fnOf b S g).2.has (ofLex r).1 = true ∧
        (ofLex r).2 = e.1 then 1 else 0) [] (pairsIn b g.1 (g.1 + g.2.2) S.branch)
      simp only [List.map_nil, List.sum_nil, Nat.zero_add] at hw
      refine Eq.trans hw ?_
      unfold pairsIn
      rw [List.map_map, filter_map_sum]
      apply sum_map_congr
      intro x _
      simp only [Function.comp_apply, hbc, Bool.and_true, FnMaps.has, fnOf]
      by_cases hx : (decide (g.1 ≤ b.vaddr (ofLex x.1).1) &&
        decide (b.vaddr (ofLex x.1).1 < g.1 + g.2.2)) = true
      · rw [if_pos hx]
        by_cases hy : b.vaddr (ofLex x.1).2 = e.1
        · rw [if_pos ⟨hx, hy⟩]
          exact (congrArg (x.2 * ·) (if_pos ⟨hx, hy⟩)).trans (Nat.mul_one _)
        · rw [if_neg (fun h => hy h.2)]
          exact (congrArg (x.2 * ·) (if_neg (fun h => hy h.2))).trans (Nat.mul_zero _)
      · rw [if_neg hx, if_neg (fun h => hx h.1)]
    · intro o ho
      obtain ⟨a, _, rfl⟩ := List.mem_map.1 ho
      rfl

theorem sum_add {A : Type} (k : List A) (f g : A → Nat) :
    (k.map (fun y => f y + g y)).sum = (k.map f).sum + (k.map g).sum := by
  induction k with
  | nil => rfl
  | cons y k ih => simp only [List.map_cons, List.sum_cons]; omega

theorem sum_comm {A B : Type} (l : List A) (k : List B) (g : A → B → Nat) :
    (l.map (fun x => (k.map (g x)).sum)).sum = (k.map (fun y => (l.map (fun x => g x y)).sum)).sum := by
  induction l with
  | nil =>
    simp only [List.map_nil, List.sum_nil]
    exact (sum_zero k _ (fun _ _ => rfl)).symm
  | cons x t ih =>
    simp only [List.map_cons, List.sum_cons, ih, sum_add]

theorem sum_one {A : Type} (l : List A) (q : A → Bool) (h : l.Pairwise (fun a b => ¬ (q a = true ∧ q b = true)))
    (v : Nat) : (l.map (fun x => if q x = true then v else 0)).sum = if l.any q = true then v else 0 := by
  induction l with
  | nil => rfl
  | cons x t ih =>
    obtain ⟨h1, h2⟩ := List.pairwise_cons.1 h
    rw [List.map_cons, List.sum_cons, ih h2, List.any_cons]
    by_cases hx : q x = true
    · have : t.any q = false := by
        rw [List.any_eq_false]
        intro y hy hq
        exact h1 y hy ⟨hx, hq⟩
      simp [hx, this]
    · simp [hx]

theorem all_entry {b : Bin} (hb : BinOk b) (c : Cfg) (S : Maps) (thr : Nat)
    (order : List (Name × FnMaps)) (hp : order.Perm (b.syms.map (fnOf b S)))
    {e : Nat × Name × Nat} (he : e ∈ b.syms) (E : Name → Bool) (hE : E e.2.1 = true) :
    (((emitted c thr order).flatMap (opsOf b c E)).map (Op.entry e.2.1 [])).sum =
      (S.branch.map (fun x => if fromCounted b c S thr (b.vaddr (ofLex x.1).1) = true ∧
        b.vaddr (ofLex x.1).2 = e.1 then x.2 else 0)).sum := by
  rw [sum_flatMap, ((emitted_perm b c S thr order hp).map _).sum_eq, List.map_map, filter_map_sum]
  have h1 : ∀ g ∈ b.syms, (if written b c S thr g = true then
      ((fun x => ((opsOf b c E x).map (Op.entry e.2.1 [])).sum) ∘ fnOf b S) g else 0) =
      (S.branch.map (fun x => if (decide (g.1 ≤ b.vaddr (ofLex x.1).1) &&
        decide (b.vaddr (ofLex x.1).1 < g.1 + g.2.2) && branchesCounted b c S thr g &&
        decide (b.vaddr (ofLex x.1).2 = e.1)) = true then x.2 else 0)).sum := by
    intro g _
    by_cases hw : written b c S thr g = true
    · rw [if_pos hw]
      rw [Function.comp_apply, fn_entry hb c S thr E he hE g hw]
      apply sum_map_congr
      intro x _
      simp only [Bool.and_eq_true, decide_eq_true_eq]
    · rw [if_neg hw, sum_zero]
      intro x _
      have : branchesCounted b c S thr g = false := by
        simp [branchesCounted, Bool.eq_false_iff.2 hw]
      simp [this]
  rw [sum_map_congr _ _ _ h1, sum_comm]
  apply sum_map_congr
  intro x _
  rw [sum_one]
  · have hany : (b.syms.any (fun g => decide (g.1 ≤ b.vaddr (ofLex x.1).1) &&
        decide (b.vaddr (ofLex x.1).1 < g.1 + g.2.2) && branchesCounted b c S thr g &&
        decide (b.vaddr (ofLex x.1).2 = e.1))) = true ↔
        (fromCounted b c S thr (b.vaddr (ofLex x.1).1) = true ∧ b.vaddr (ofLex x.1).2 = e.1) := by
      unfold fromCounted
      simp only [List.any_eq_true, Bool.and_eq_true, decide_eq_true_eq]
      constructor
      · rintro ⟨g, hg, ⟨h1, h2⟩, h3⟩; exact ⟨⟨g, hg, h1, h2⟩, h3⟩
      · rintro ⟨⟨g, hg, h1, h2⟩, h3⟩; exact ⟨g, hg, ⟨h1, h2⟩, h3⟩
    by_cases hx : fromCounted b c S thr (b.vaddr (ofLex x.1).1) = true ∧ b.vaddr (ofLex x.1).2 = e.1
    · rw [if_pos hx, if_pos (hany.2 hx)]
    · rw [if_neg hx, if_neg (fun h => hx (hany.1 h))]
  · have hs : b.syms.Pairwise (fun g g' => g.1 + g.2.2 ≤ g'.1) := by
      refine List.Pairwise.imp_of_mem ?_ hb.sorted
      intro g g' hg hg' hlt
      exact hb.disjoint g hg g' hg' hlt
    refine List.Pairwise.imp ?_ hs
    intro g g' hle
    simp only [Bool.and_eq_true, decide_eq_true_eq, not_and]
    intro h1 h2
    omega

/-! ## Call targets -/

/-- A call-target fold ends at the initial value or at the count of a matching update; if there is a
matching update, it ends at the count of one. -/
theorem target_fold (pol : Policy) (f : Name) (p : List Callsite) (loc : Nat) (n : Name) (ops : List Op)
    (old : Nat) :
    let r := ops.foldl (fun old o => o.target' pol true f p loc n old) old
    (r = old ∨ ∃ s t c, Op.target f s t c ∈ ops ∧ lands true s p loc = true ∧
      n = originalName pol t ∧ r = c) ∧
    ((∃ s t c, Op.target f s t c ∈ ops ∧ lands true s p loc = true ∧ n = originalName pol t) →
      ∃ s t c, Op.target f s t c ∈ ops ∧ lands true s p loc = true ∧ n = originalName pol t ∧ r = c) := by
  induction ops generalizing old with
  | nil => simp
  | cons o ops ih =>
    intro r
    have hr : r = ops.foldl (fun old o => o.target' pol true f p loc n old)
        (o.target' pol true f p loc n old) := rfl
    obtain ⟨i1, i2⟩ := ih (o.target' pol true f p loc n old)
    rw [← hr] at i1 i2
    have up : (∃ s t c, Op.target f s t c ∈ ops ∧ lands true s p loc = true ∧
        n = originalName pol t ∧ r = c) → ∃ s t c, Op.target f s t c ∈ o :: ops ∧
        lands true s p loc = true ∧ n = originalName pol t ∧ r = c := by
      rintro ⟨s, t, c, h1, h2⟩
      exact ⟨s, t, c, List.mem_cons_of_mem _ h1, h2⟩
    by_cases hm : ∃ s t c, o = Op.target f s t c ∧ lands true s p loc = true ∧ n = originalName pol t
    · obtain ⟨s, t, c, rfl, h2, h3⟩ := hm
      have ho : (Op.target f s t c).target' pol true f p loc n old = c := by
        simp [Op.target', h2, h3]
      rw [ho] at i1
      have hex : ∃ s' t' c', Op.target f s' t' c' ∈ Op.target f s t c :: ops ∧
          lands true s' p loc = true ∧ n = originalName pol t' ∧ r = c' := by
        rcases i1 with h | h
        · exact ⟨s, t, c, List.mem_cons_self, h2, h3, h⟩
        · exact up h
      exact ⟨Or.inr hex, fun _ => hex⟩
    · have ho : o.target' pol true f p loc n old = old := by
        cases o with
        | src => rfl
        | head => rfl
        | target g s t c =>
          simp only [Op.target']
          rw [if_neg]
          rintro ⟨rfl, h2, h3⟩
          exact hm ⟨s, t, c, rfl, h2, h3⟩
      rw [ho] at i1
      refine ⟨i1.imp id up, ?_⟩
      rintro ⟨s, t, c, h1, h2, h3⟩
      rcases List.mem_cons.1 h1 with h | h
      · exact absurd ⟨s, t, c, h.symm, h2, h3⟩ hm
      · exact up (i2 ⟨s, t, c, h, h2, h3⟩)

theorem target_mem (b : Bin) (c : Cfg) (E : Name → Bool) (q : Name × FnMaps) (f : Name)
    (s : List Frame) (t : Name) (n : Nat) :
    Op.target f s t n ∈ opsOf b c E q ↔
      ¬ (c.lbr = true ∧ q.2.maps.range.isEmpty = true) ∧ f = q.1 ∧
      ∃ x ∈ q.2.maps.branch, q.2.has (ofLex x.1).1 = true ∧
        nameByStart b.syms (ofLex x.1).2 = some t ∧ E t = true ∧ s = b.stack (ofLex x.1).1 ∧
        n = x.2 := by
  unfold opsOf instOps weightOps
  constructor
  · intro h
    rw [List.mem_append] at h
    rcases h with h | h
    · obtain ⟨a, _, h⟩ := List.mem_map.1 h
      cases h
    · split at h
      · cases h
      · rename_i hc
        refine ⟨hc, ?_⟩
        rw [List.mem_append] at h
        rcases h with h | h
        · obtain ⟨a, _, h⟩ := List.mem_map.1 h
          cases h
        · obtain ⟨x, hx, hb⟩ := List.mem_flatMap.1 h
          unfold branchOp at hb
          split at hb
          · rename_i hh
            split at hb
            · cases hb
            · rename_i callee hn
              split at hb
              · rename_i hE
                simp only [List.mem_cons, reduceCtorEq, List.not_mem_nil, or_false, false_or,
                  Op.target.injEq] at hb
                obtain ⟨rfl, rfl, rfl, rfl⟩ := hb
                exact ⟨rfl, x, hx, hh, hn, hE, rfl, rfl⟩
              · cases hb
          · cases hb
  · rintro ⟨hc, rfl, x, hx, hh, hn, hE, rfl, rfl⟩
    rw [if_neg hc]
    apply List.mem_append_right
    apply List.mem_append_right
    refine List.mem_flatMap.2 ⟨x, hx, ?_⟩
    unfold branchOp
    rw [if_pos hh, hn]
    simp [hE]

theorem mem_addAll_key {K : Type} [LinearOrder K] {l : List (K × Nat)} {x : K × Nat}
    (h : x ∈ OMap.addAll ([] : OMap K Nat) l) : x.1 ∈ l.map Prod.fst := by
  have hs := OMap.Sorted.addAll (K := K) OMap.sorted_nil l
  have hf := OMap.find?_some_of_mem hs (k := x.1) (v := x.2) h
  rw [OMap.find?_addAll OMap.sorted_nil] at hf
  by_contra hn
  rw [if_neg (by simp [hn, OMap.find?])] at hf
  cases hf

theorem addAll_isEmpty (l : List (Pair × Nat)) :
    (OMap.addAll ([] : OMap Pair Nat) l).isEmpty = l.isEmpty := by
  cases l with
  | nil => rfl
  | cons x t =>
    have h := OMap.find?_addAll (K := Pair) OMap.sorted_nil (x :: t) x.1
    rw [if_pos (Or.inl (by simp))] at h
    cases hl : OMap.addAll ([] : OMap Pair Nat) (x :: t) with
    | nil => rw [hl] at h; simp [OMap.find?] at h
    | cons _ _ => rfl

theorem counted_iff (b : Bin) (c : Cfg) (S : Maps) (thr : Nat) (e : Nat × Name × Nat)
    (hw : written b c S thr e = true) :
    branchesCounted b c S thr e = true ↔
      ¬ (c.lbr = true ∧ (fnOf b S e).2.maps.range.isEmpty = true) := by
  simp only [branchesCounted, hw, Bool.true_and, fnOf, mapsIn, addAll_isEmpty, Bool.or_eq_true,
    Bool.not_eq_true', not_and]
  cases c.lbr <;> simp

/-- **C53.** For every binary with a well-formed symbol table, every set of samples, every order in
which the functions are visited and every configuration: exactly the functions whose samples,
together with those of all functions of the same base name, exceed the threshold are written, and
each gets the profile described by `FunctionProfile`. -/
theorem compute_profile (b : Bin) (hb : BinOk b) (c : Cfg) (S : Maps) (thr : Nat) :
    ∃ P, aggregate b S = some P ∧ ∀ order : List (Name × FnMaps), order.Perm P →
      ∃ m, computeOrder b c thr order = some m ∧ m.WF ∧
        (∀ f, (OMap.find? m f).isSome = true ↔
          ∃ e ∈ b.syms, e.2.1 = f ∧ familyCount b c S f > thr) ∧
        ∀ e ∈ b.syms, familyCount b c S e.2.1 > thr →
          FunctionProfile b c S thr e (m.get e.2.1) := by
  obtain ⟨P, hP, hperm⟩ := aggregate_spec b hb S
  refine ⟨P, hP, ?_⟩
  intro order ho
  have hp := ho.trans hperm
  obtain ⟨m, e1, w, k, h⟩ := computeOrder_history b c thr order
  refine ⟨m, e1, w, ?_, ?_⟩
  · intro f
    rw [k, inList_iff b c S thr order hp]
    constructor
    · rintro ⟨e, he, hw, rfl⟩
      exact ⟨e, he, rfl, by simpa [written] using hw⟩
    · rintro ⟨e, he, rfl, hw⟩
      exact ⟨e, he, by simpa [written] using hw, rfl⟩
  · intro e he hf
    have hw : written b c S thr e = true := by simpa [written] using hf
    have hE : inList (emitted c thr order) e.2.1 = true :=
      (inList_iff b c S thr order hp _).2 ⟨e, he, hw, rfl⟩
    have h := h _ rfl e.2.1
    obtain ⟨l1, l2, hl, hne⟩ := split_order hb c S thr order hp e he hw
    generalize hEE : inList (emitted c thr order) = E at h hE
    have hoth := fun q (hq : q ∈ l1 ++ l2) => opsOf_other b c E q e.2.1 (hne q hq)
    have hEiff : ∀ t, E t = true ↔ ∃ e' ∈ b.syms, written b c S thr e' = true ∧ e'.2.1 = t := by
      intro t; rw [← hEE]; exact inList_iff b c S thr order hp t
    have htgt : ∀ p loc n, (m.get e.2.1).targetAt p loc n =
        (opsOf b c E (fnOf b S e)).foldl (fun old o => o.target' c.pol true e.2.1 p loc n old) 0 := by
      intro p loc n
      rw [((h p).2.2.2 loc).2.2 n, hl]
      exact foldl_split l1 l2 _ _ _ (fun q hq o hoq old => ((hoth q hq o hoq p).2.2 loc).2.2 n old) 0
    refine ⟨?_, ?_, ?_, ?_, ?_, ?_, ?_⟩
    · intro p
      rw [(h p).1, Bool.or_eq_true, decide_eq_true_eq]
      apply or_congr Iff.rfl
      rw [← fn_creates b c S E e p, hl, List.flatMap_append, List.flatMap_cons, List.any_append,
        List.any_append]
      have hz : ∀ l : List (Name × FnMaps), (∀ q ∈ l, q ∈ l1 ++ l2) →
          (l.flatMap (opsOf b c E)).any (fun o => o.creates true e.2.1 p) = false := by
        intro l hsub
        rw [List.any_eq_false]
        intro o hoq
        obtain ⟨q, hq, hoq⟩ := List.mem_flatMap.1 hoq
        rw [(hoth q (hsub q hq) o hoq p).1]
        exact Bool.false_ne_true
      rw [hz l1 (fun q hq => List.mem_append_left _ hq),
        hz l2 (fun q hq => List.mem_append_right _ hq)]
      simp
    · intro p
      rw [(h p).2.1, hl, sum_split l1 l2 _ _ _ (fun q hq o hoq => (hoth q hq o hoq p).2.1)]
      exact fn_total b c S E e p
    · intro p loc
      rw [((h p).2.2.2 loc).1, hl,
        max_split l1 l2 _ _ _ (fun q hq o hoq => ((hoth q hq o hoq p).2.2 loc).1)]
      exact fn_count b c S E e p loc
    · intro p loc
      rw [((h p).2.2.2 loc).2.1, hl,
        sum_split l1 l2 _ _ _ (fun q hq o hoq => ((hoth q hq o hoq p).2.2 loc).2.1)]
      exact fn_inst b c S E e p loc
    · intro p
      rw [(h p).2.2.1]
      by_cases hpn : p = []
      · subst hpn
        rw [if_pos rfl]
        exact all_entry hb c S thr order hp he E hE
      · rw [if_neg hpn]
        apply sum_zero
        intro o _
        cases o <;> simp [Op.entry, hpn]
    · intro p loc n hn
      have ht := (target_fold c.pol e.2.1 p loc n (opsOf b c E (fnOf b S e)) 0).1
      rw [← htgt] at ht
      rcases ht with ht | ⟨s, t, v, h1, h2, h3, h4⟩
      · exact absurd ht hn
      · obtain ⟨hc, _, x, hx, _, hns, hEt, rfl, rfl⟩ := (target_mem b c E _ _ _ _ _).1 h1
        refine ⟨(counted_iff b c S thr e hw).2 hc, x, hx, h4.symm, h2, ?_⟩
        obtain ⟨e', he', hw', rfl⟩ := (hEiff t).1 hEt
        exact ⟨e', he', hw', ((start_iff hb he' _).1 hns).symm, h3.symm⟩
    · intro hcnt x hx e' he' hw' hst p loc hland
      have hc := (counted_iff b c S thr e hw).1 hcnt
      have ht := (target_fold c.pol e.2.1 p loc (originalName c.pol e'.2.1)
        (opsOf b c E (fnOf b S e)) 0).2
      rw [← htgt] at ht
      have hhas : (fnOf b S e).2.has (ofLex x.1).1 = true := by
        have hk := mem_addAll_key hx
        unfold pairsIn at hk
        rw [List.map_map, List.mem_map] at hk
        obtain ⟨y, hy, hy2⟩ := hk
        have hy3 := (List.mem_filter.1 hy).2
        rw [← hy2]
        exact hy3
      obtain ⟨s, t, v, h1, h2, h3, h4⟩ := ht ⟨b.stack (ofLex x.1).1, e'.2.1, x.2,
        (target_mem b c E _ _ _ _ _).2 ⟨hc, rfl, x, hx, hhas, (start_iff hb he' _).2 hst.symm,
          (hEiff _).2 ⟨e', he', hw', rfl⟩, rfl, rfl⟩, hland, rfl⟩
      obtain ⟨_, _, x', hx', _, hns, hEt, rfl, rfl⟩ := (target_mem b c E _ _ _ _ _).1 h1
      obtain ⟨e'', he'', hw'', rfl⟩ := (hEiff t).1 hEt
      exact ⟨x', hx', h2, ⟨e'', he'', hw'', ((start_iff hb he'' _).1 hns).symm, h3.symm⟩, h4⟩

/-! ## Examples -/

/-- Function `a` at `[100, 108)` with `b` inlined at `[104, 106)`, function `c` at `[200, 204)`. -/
def exBin : Bin where
  syms := [(100, [97], 8), (200, [99], 4)]
  vaddr := id
  stack := fun x => if x = 104 ∨ x = 105 then [vframe [98], vframe [97]]
    else if x < 108 then [vframe [97]] else [vframe [99]]
  dup := fun _ => 1

/-- Two ranges in `a`, one in `c`, one call from `a` to `c`. -/
def exSamples : Maps :=
  ⟨[(toLex (100, 105), 10), (toLex (102, 105), 3), (toLex (200, 203), 5)], [],
    [(toLex (105, 200), 7)]⟩

theorem exBin_ok : BinOk exBin :=
  ⟨by simp [exBin, OMap.Sorted], by simp [exBin, NonOverlapping], by simp [exBin], by simp [exBin]⟩

example : familyCount exBin ⟨true, false, .none⟩ exSamples [97] > 10 ∧
    familyCount exBin ⟨true, false, .none⟩ exSamples [99] > 10 := by decide +kernel

/-- The profile of the example: 72 samples in `a`, 26 of them in the inlined `b`, the location of the
call executed 13 times; `c` entered 7 times. -/
example : ∃ P m, aggregate exBin exSamples = some P ∧
    computeOrder exBin ⟨true, false, .none⟩ 10 P = some m ∧
    (m.get [97]).totalAt [] = 72 ∧ (m.get [97]).totalAt [((vframe [97]).off, [98])] = 26 ∧
    (m.get [97]).countAt [((vframe [97]).off, [98])] (vframe [98]).off = 13 ∧
    (m.get [99]).headAt [] = 7 := by
  obtain ⟨P, h1, h2⟩ := compute_profile exBin exBin_ok ⟨true, false, .none⟩ exSamples 10
  obtain ⟨m, h3, _, _, h4⟩ := h2 P (List.Perm.refl _)
  have ha := h4 (100, [97], 8) (by simp [exBin]) (by decide +kernel)
  have hc := h4 (200, [99], 4) (by simp [exBin]) (by decide +kernel)
  refine ⟨P, m, h1, h3, ?_, ?_, ?_, ?_⟩
  · rw [ha.total]; decide +kernel
  · rw [ha.total]; decide +kernel
  · rw [ha.count]; decide +kernel
  · rw [hc.entry]; decide +kernel

/-- Two (static) functions with the same name. -/
def dupBin : Bin where
  syms := [(100, [97], 8), (200, [97], 8)]
  vaddr := id
  stack := fun _ => [vframe [97]]
  dup := fun _ => 1

/-- C53 violated when two functions have the same name (static functions of different files): they
share one set of maps with the address range of the first, so that all samples of the second are
dropped; here a range of 1000 samples at `[200, 208)` is not in the profile at all. -/
theorem compute_profile_duplicate_names_violated :
    ((aggregate dupBin ⟨[(toLex (100, 107), 2), (toLex (200, 207), 1000)], [], []⟩).bind
      (computeOrder dupBin ⟨true, false, .none⟩ 10)).map (fun m => (m.get [97]).totalAt []) =
      some 16 := by
  decide +kernel

end Verif.Compute

import Verif.Sym

/-!
# Lemmas about symbol trees
-/
namespace Verif.SymbolMap

theorem lookup_modifyAt {A : Type} (l : List (Callsite × A)) (k : Callsite) (f : Option A → A)
    (x : Callsite) :
    lookup (modifyAt l k f) x = if x = k then some (f (lookup l k)) else lookup l x := by
  induction l with
  | nil => simp [modifyAt, lookup]
  | cons a t ih =>
    obtain ⟨k', s⟩ := a
    simp only [modifyAt]
    by_cases h : k = k'
    · subst h
      by_cases hx : x = k
      · subst hx; simp [lookup]
      · simp [lookup, hx]
    · rw [if_neg h]
      simp only [lookup, ih]
      by_cases hx : x = k'
      · subst hx; simp [Ne.symm h]
      · simp [hx, h]

theorem lookup_eq_none_iff {A : Type} {l : List (Callsite × A)} {k : Callsite} :
    lookup l k = none ↔ k ∉ l.map Prod.fst := by
  induction l with
  | nil => simp [lookup]
  | cons a t ih =>
    obtain ⟨k', s⟩ := a
    simp only [lookup]
    by_cases h : k = k'
    · simp [h]
    · simp [h, ih]

theorem mem_of_lookup {A : Type} {l : List (Callsite × A)} {k : Callsite} {s : A}
    (h : lookup l k = some s) : (k, s) ∈ l := by
  induction l with
  | nil => simp [lookup] at h
  | cons a t ih =>
    obtain ⟨k', s'⟩ := a
    simp only [lookup] at h
    by_cases hk : k = k'
    · rw [if_pos hk] at h; cases h; subst hk; exact List.mem_cons_self
    · rw [if_neg hk] at h; exact List.mem_cons_of_mem _ (ih h)

theorem lookup_of_mem {A : Type} {l : List (Callsite × A)} (hn : (l.map Prod.fst).Nodup)
    {k : Callsite} {s : A} (h : (k, s) ∈ l) : lookup l k = some s := by
  induction l with
  | nil => cases h
  | cons a t ih =>
    obtain ⟨k', s'⟩ := a
    rw [List.map_cons, List.nodup_cons] at hn
    rcases List.mem_cons.1 h with h | h
    · cases h; simp [lookup]
    · have : k ≠ k' := fun e => hn.1 (List.mem_map.2 ⟨_, h, e⟩)
      simp only [lookup, if_neg this]
      exact ih hn.2 h

theorem modifyAt_keys {A : Type} (l : List (Callsite × A)) (k : Callsite) (f : Option A → A) :
    (modifyAt l k f).map Prod.fst =
      if k ∈ l.map Prod.fst then l.map Prod.fst else l.map Prod.fst ++ [k] := by
  induction l with
  | nil => simp [modifyAt]
  | cons a t ih =>
    obtain ⟨k', s⟩ := a
    simp only [modifyAt]
    by_cases h : k = k'
    · subst h; simp
    · rw [if_neg h, List.map_cons, ih]
      by_cases h2 : k ∈ t.map Prod.fst
      · rw [if_pos h2, if_pos (by simp only [List.map_cons, List.mem_cons]; exact Or.inr h2)]
        rfl
      · rw [if_neg h2, if_neg (by simp only [List.map_cons, List.mem_cons, not_or]; exact ⟨h, h2⟩)]
        rfl

theorem modifyAt_nodup {A : Type} {l : List (Callsite × A)} (h : (l.map Prod.fst).Nodup)
    (k : Callsite) (f : Option A → A) : ((modifyAt l k f).map Prod.fst).Nodup := by
  rw [modifyAt_keys]
  split
  · exact h
  · rename_i hk
    rw [List.nodup_append]
    refine ⟨h, by simp, ?_⟩
    intro a ha b hb
    rw [List.mem_singleton] at hb
    subst hb
    rintro rfl
    exact hk ha

/-! ## Position maps -/

theorem PosMap.sorted_modify {m : PosMap} (hm : OMap.Sorted m) (o : Nat) (f : PInfo → PInfo) :
    OMap.Sorted (PosMap.modify m o f) := OMap.Sorted.upsert hm _ _

theorem PosMap.find?_modify {m : PosMap} (hm : OMap.Sorted m) (o : Nat) (f : PInfo → PInfo)
    (x : Nat) : OMap.find? (PosMap.modify m o f) x =
      if x = o then some (f ((OMap.find? m o).getD PInfo.zero)) else OMap.find? m x :=
  OMap.find?_upsert hm _ _ _

theorem PosMap.sorted_addAll {m : PosMap} (hm : OMap.Sorted m) (xs : List (Nat × PInfo)) :
    OMap.Sorted (PosMap.addAll m xs) := by
  unfold PosMap.addAll
  induction xs generalizing m with
  | nil => exact hm
  | cons a t ih => exact ih (sorted_modify hm _ _)

/-- All target maps are sorted. -/
def PosMap.TargetsOk (m : PosMap) : Prop := ∀ p ∈ m, OMap.Sorted p.2.targets

theorem PosMap.mem_modify {m : PosMap} (hm : OMap.Sorted m) {o : Nat} {f : PInfo → PInfo}
    {p : Nat × PInfo} (h : p ∈ PosMap.modify m o f) :
    p ∈ m ∨ p = (o, f ((OMap.find? m o).getD PInfo.zero)) := by
  have h1 : OMap.find? (PosMap.modify m o f) p.1 = some p.2 :=
    OMap.find?_some_of_mem (sorted_modify hm o f) h
  rw [find?_modify hm] at h1
  by_cases hx : p.1 = o
  · right; rw [if_pos hx] at h1
    exact Prod.ext hx (Option.some.inj h1).symm
  · left; rw [if_neg hx] at h1; exact OMap.mem_of_find?_some h1

theorem PosMap.targetsOk_getD {m : PosMap} (ht : m.TargetsOk) (o : Nat) :
    OMap.Sorted ((OMap.find? m o).getD PInfo.zero).targets := by
  cases h : OMap.find? m o with
  | none => exact OMap.sorted_nil
  | some v => exact ht _ (OMap.mem_of_find?_some h)

theorem PosMap.targetsOk_modify {m : PosMap} (hm : OMap.Sorted m) (ht : m.TargetsOk) (o : Nat)
    (f : PInfo → PInfo) (hf : ∀ p, OMap.Sorted p.targets → OMap.Sorted (f p).targets) :
    PosMap.TargetsOk (PosMap.modify m o f) := by
  intro p hp
  rcases mem_modify hm hp with h | h
  · exact ht p h
  · rw [h]; exact hf _ (targetsOk_getD ht o)

theorem PosMap.targetsOk_addAll {m : PosMap} (hm : OMap.Sorted m) (ht : m.TargetsOk)
    (xs : List (Nat × PInfo)) : PosMap.TargetsOk (PosMap.addAll m xs) := by
  unfold PosMap.addAll
  induction xs generalizing m with
  | nil => exact ht
  | cons a t ih =>
    exact ih (sorted_modify hm _ _)
      (targetsOk_modify hm ht _ _ (fun p hp => OMap.Sorted.addAll hp _))

/-- Count recorded at a location (0 when absent). -/
def PosMap.countAt (m : PosMap) (o : Nat) : Nat := ((OMap.find? m o).getD PInfo.zero).count
/-- Instruction count recorded at a location (0 when absent). -/
def PosMap.instAt (m : PosMap) (o : Nat) : Nat := ((OMap.find? m o).getD PInfo.zero).numInst
/-- Count of a call target at a location (0 when absent). -/
def PosMap.targetAt (m : PosMap) (o : Nat) (n : Name) : Nat :=
  OMap.get0 ((OMap.find? m o).getD PInfo.zero).targets n

theorem PosMap.addAll_obs {m : PosMap} (hm : OMap.Sorted m) (ht : m.TargetsOk)
    {xs : PosMap} (hx : OMap.Sorted xs) (hxt : xs.TargetsOk) (o : Nat) :
    (PosMap.addAll m xs).countAt o = m.countAt o + xs.countAt o ∧
    (PosMap.addAll m xs).instAt o = m.instAt o + xs.instAt o ∧
    (∀ n, (PosMap.addAll m xs).targetAt o n = m.targetAt o n + xs.targetAt o n) ∧
    ((OMap.find? (PosMap.addAll m xs) o).isSome =
      ((OMap.find? m o).isSome || (OMap.find? xs o).isSome)) := by
  unfold PosMap.addAll
  induction xs generalizing m with
  | nil => simp [countAt, instAt, targetAt, OMap.find?, PInfo.zero, OMap.get0]
  | cons a t ih =>
    obtain ⟨k, v⟩ := a
    have hxs := (List.pairwise_cons.1 hx)
    have hvt : OMap.Sorted v.targets := hxt (k, v) List.mem_cons_self
    rw [List.foldl_cons]
    obtain ⟨h1, h2, h3, h4⟩ := ih (m := PosMap.modify m k (fun p => p.add v))
      (sorted_modify hm _ _) (targetsOk_modify hm ht _ _ (fun p hp => OMap.Sorted.addAll hp _))
      hxs.2 (fun p hp => hxt p (List.mem_cons_of_mem _ hp))
    by_cases hk : o = k
    · subst hk
      have hn : OMap.find? t o = none := OMap.find?_eq_none_of_lt (fun p hp => hxs.1 p hp)
      refine ⟨?_, ?_, ?_, ?_⟩
      · rw [h1]; simp [countAt, find?_modify hm, hn, OMap.find?, PInfo.add, PInfo.zero]
      · rw [h2]; simp [instAt, find?_modify hm, hn, OMap.find?, PInfo.add, PInfo.zero]
      · intro n
        rw [h3]
        simp only [targetAt, find?_modify hm, hn, OMap.find?, PInfo.add, if_true,
          Option.getD_some, Option.getD_none]
        rw [OMap.get0_addAll (targetsOk_getD ht o), OMap.sumAt_of_sorted hvt]
        simp [PInfo.zero, OMap.get0, OMap.find?]
      · rw [h4]; simp [find?_modify hm, OMap.find?]
    · refine ⟨?_, ?_, ?_, ?_⟩
      · rw [h1]; simp [countAt, find?_modify hm, hk, OMap.find?]
      · rw [h2]; simp [instAt, find?_modify hm, hk, OMap.find?]
      · intro n; rw [h3]; simp [targetAt, find?_modify hm, hk, OMap.find?]
      · rw [h4]; simp [find?_modify hm, OMap.find?, hk]

/-! ## Merge -/

theorem lookup_mergeCalls (acc cs : List (Callsite × Sym)) (hn : (cs.map Prod.fst).Nodup)
    (k : Callsite) :
    lookup (mergeCalls acc cs) k =
      match lookup cs k with
      | none => lookup acc k
      | some s => some (Sym.merge ((lookup acc k).getD Sym.new) s) := by
  induction cs generalizing acc with
  | nil => simp [mergeCalls, lookup]
  | cons a t ih =>
    obtain ⟨k', s⟩ := a
    rw [List.map_cons, List.nodup_cons] at hn
    rw [mergeCalls, ih _ hn.2]
    simp only [lookup, lookup_modifyAt]
    by_cases h : k = k'
    · subst h
      rw [lookup_eq_none_iff.2 hn.1]
      simp
    · simp [h]

theorem WFCalls_iff (cs : List (Callsite × Sym)) : WFCalls cs ↔ ∀ p ∈ cs, p.2.WF := by
  induction cs with
  | nil => simp [WFCalls]
  | cons a t ih => obtain ⟨k, s⟩ := a; simp [WFCalls, ih]

theorem Sym.WF_iff (s : Sym) : s.WF ↔ OMap.Sorted s.data.pos ∧ s.data.pos.TargetsOk ∧
    (s.calls.map Prod.fst).Nodup ∧ ∀ p ∈ s.calls, p.2.WF := by
  cases s with
  | mk d cs => simp only [Sym.WF, WFCalls_iff, Sym.data, Sym.calls, PosMap.TargetsOk]

theorem Sym.WF.new : Sym.new.WF := by
  simp [Sym.new, Sym.WF, Data.zero, OMap.Sorted, WFCalls]

theorem Sym.WF.child {s : Sym} (h : s.WF) {k : Callsite} {c : Sym} (hk : lookup s.calls k = some c) :
    c.WF := ((Sym.WF_iff s).1 h).2.2.2 _ (mem_of_lookup hk)

theorem WFCalls_modifyAt {l : List (Callsite × Sym)} (h : ∀ p ∈ l, p.2.WF) (k : Callsite)
    (f : Option Sym → Sym) (hf : ∀ o, (∀ s, o = some s → s.WF) → (f o).WF) :
    ∀ p ∈ modifyAt l k f, p.2.WF := by
  induction l with
  | nil =>
    intro p hp
    simp only [modifyAt, List.mem_singleton] at hp
    subst hp
    exact hf none (by simp)
  | cons a t ih =>
    obtain ⟨k', s⟩ := a
    intro p hp
    simp only [modifyAt] at hp
    split at hp
    · rcases List.mem_cons.1 hp with hp | hp
      · subst hp; exact hf _ (by rintro s' e; cases e; exact h (k', s) List.mem_cons_self)
      · exact h p (List.mem_cons_of_mem _ hp)
    · rcases List.mem_cons.1 hp with hp | hp
      · subst hp; exact h (k', s) List.mem_cons_self
      · exact ih (fun p hp => h p (List.mem_cons_of_mem _ hp)) p hp

mutual
theorem Sym.WF.merge (this : Sym) (ht : this.WF) : (s : Sym) → s.WF → (Sym.merge this s).WF
  | .mk d cs, hs => by
    have h1 := (Sym.WF_iff this).1 ht
    have h2 := (Sym.WF_iff (.mk d cs)).1 hs
    have h3 := WF.mergeCalls this.calls h1.2.2.1 h1.2.2.2 cs h2.2.2.2
    rw [Sym.merge, Sym.WF_iff]
    exact ⟨PosMap.sorted_addAll h1.1 _, PosMap.targetsOk_addAll h1.1 h1.2.1 _, h3.1, h3.2⟩
theorem WF.mergeCalls (acc : List (Callsite × Sym)) (hn : (acc.map Prod.fst).Nodup)
    (ha : ∀ p ∈ acc, p.2.WF) : (cs : List (Callsite × Sym)) → (∀ p ∈ cs, p.2.WF) →
      ((mergeCalls acc cs).map Prod.fst).Nodup ∧ ∀ p ∈ mergeCalls acc cs, p.2.WF
  | [], _ => by rw [Verif.SymbolMap.mergeCalls]; exact ⟨hn, ha⟩
  | (k, s) :: t, hs => by
    rw [Verif.SymbolMap.mergeCalls]
    refine WF.mergeCalls _ (modifyAt_nodup hn _ _) ?_ t (fun p hp => hs p (List.mem_cons_of_mem _ hp))
    exact WFCalls_modifyAt ha k _ (fun o ho => by
      refine Sym.WF.merge _ ?_ s (hs (k, s) List.mem_cons_self)
      cases o with
      | none => exact Sym.WF.new
      | some x => exact ho x rfl)
end

theorem Sym.merge_data (a b : Sym) : (a.merge b).data = a.data.add b.data := by
  cases b; rfl

theorem Sym.merge_calls (a b : Sym) : (a.merge b).calls = mergeCalls a.calls b.calls := by
  cases b; rfl

theorem Sym.new_node? (p : List Callsite) :
    Sym.new.node? p = if p = [] then some Data.zero else none := by
  cases p <;> simp [Sym.node?, Sym.new, Sym.data, Sym.calls, lookup]

/-- Node-wise effect of merging. -/
theorem node?_merge (p : List Callsite) (a b : Sym) (hb : b.WF) :
    (a.merge b).node? p =
      match a.node? p, b.node? p with
      | o, none => o
      | none, some y => some (Data.zero.add y)
      | some x, some y => some (x.add y) := by
  induction p generalizing a b with
  | nil => simp [Sym.node?, Sym.merge_data]
  | cons k p ih =>
    simp only [Sym.node?, Sym.merge_calls]
    rw [lookup_mergeCalls _ _ ((Sym.WF_iff b).1 hb).2.2.1]
    cases hk : lookup b.calls k with
    | none => cases lookup a.calls k <;> simp
    | some s =>
      have hs := hb.child hk
      simp only
      rw [ih _ s hs]
      cases ha : lookup a.calls k with
      | none =>
        simp only [Option.getD_none, Sym.new_node?]
        cases hsn : s.node? p with
        | none =>
          cases p with
          | nil => simp [Sym.node?] at hsn
          | cons _ _ => simp
        | some y =>
          by_cases hp : p = []
          · subst hp; simp
          · simp [hp]
      | some x => simp

end Verif.SymbolMap

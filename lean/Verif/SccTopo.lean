import Verif.SccProps
import Mathlib.Data.List.Perm.Basic
import Mathlib.Data.List.Induction
import Mathlib.Algebra.BigOperators.Group.List.Basic

namespace Verif.Scc

/-! ### Collapsing -/

theorem mem_ins {l : List Nat} {x y : Nat} : y ∈ ins l x ↔ y ∈ l ∨ y = x := by
  unfold ins
  split
  · exact ⟨Or.inl, fun h => h.elim id fun e => e ▸ ‹x ∈ l›⟩
  · simp [or_comm]

theorem nodup_ins {l : List Nat} (h : l.Nodup) (x : Nat) : (ins l x).Nodup := by
  unfold ins
  split
  · exact h
  · exact List.nodup_cons.2 ⟨‹_›, h⟩

theorem mem_foldl_ins {y : Nat} : ∀ (a l : List Nat), y ∈ a.foldl ins l ↔ y ∈ l ∨ y ∈ a := by
  intro a
  induction a with
  | nil => simp
  | cons x a ih => intro l; rw [List.foldl_cons, ih, mem_ins, List.mem_cons, or_assoc]

theorem nodup_foldl_ins : ∀ (a : List Nat) {l : List Nat}, l.Nodup → (a.foldl ins l).Nodup := by
  intro a
  induction a with
  | nil => exact fun h => h
  | cons x a ih => exact fun h => ih (nodup_ins h x)

theorem mem_foldl_callees {root : Nat → Nat} {r y : Nat} : ∀ (a l : List Nat),
    y ∈ a.foldl (fun l w => if root w ≠ r then ins l (root w) else l) l ↔ y ∈ l ∨ (y ≠ r ∧ ∃ w ∈ a, root w = y) := by
  intro a
  induction a with
  | nil => simp
  | cons x a ih =>
    intro l
    rw [List.foldl_cons, ih]
    by_cases hx : root x ≠ r
    · rw [if_pos hx, mem_ins]
      constructor
      · rintro ((h | rfl) | ⟨h, w, hw, e⟩)
        · exact Or.inl h
        · exact Or.inr ⟨hx, x, by simp, rfl⟩
        · exact Or.inr ⟨h, w, by simp [hw], e⟩
      · rintro (h | ⟨h, w, hw, e⟩)
        · exact Or.inl (Or.inl h)
        · rcases List.mem_cons.1 hw with rfl | hw
          · exact Or.inl (Or.inr e.symm)
          · exact Or.inr ⟨h, w, hw, e⟩
    · rw [if_neg hx]
      constructor
      · rintro (h | ⟨h, w, hw, e⟩)
        · exact Or.inl h
        · exact Or.inr ⟨h, w, by simp [hw], e⟩
      · rintro (h | ⟨h, w, hw, e⟩)
        · exact Or.inl h
        · rcases List.mem_cons.1 hw with rfl | hw
          · exact absurd (e ▸ h) hx
          · exact Or.inr ⟨h, w, hw, e⟩

theorem mem_foldl_erase {root : Nat → Nat} {y : Nat} : ∀ (a l : List Nat), (∀ w ∈ a, w ≠ root w ∧ root (root w) = root w) →
    (y ∈ a.foldl (fun l w => ins (l.filter (· ≠ w)) (root w)) l ↔ (y ∈ l ∧ y ∉ a) ∨ ∃ w ∈ a, root w = y) := by
  intro a
  induction a with
  | nil => simp
  | cons x a ih =>
    intro l ha
    rw [List.foldl_cons, ih _ fun w hw => ha w (by simp [hw]), mem_ins, List.mem_filter]
    have hx := ha x (by simp)
    have hr : ∀ z, root z = z → z ∉ a := fun z hz hm => (ha z (by simp [hm])).1 hz.symm
    simp only [decide_eq_true_eq, ne_eq, List.mem_cons, not_or, exists_eq_or_imp]
    constructor
    · rintro (⟨⟨h1, h2⟩ | rfl, h3⟩ | h)
      · exact Or.inl ⟨h1, h2, h3⟩
      · exact Or.inr (Or.inl rfl)
      · exact Or.inr (Or.inr h)
    · rintro (⟨h1, h2, h3⟩ | rfl | h)
      · exact Or.inl ⟨Or.inl ⟨h1, h2⟩, h3⟩
      · exact Or.inl ⟨Or.inr rfl, hr _ hx.2⟩
      · exact Or.inr h

variable {E : Nat → List Nat} {ns : List Nat} {root : Nat → Nat}

/-- The collapsed graph when the nodes `l` have been handled. -/
structure CInv (E : Nat → List Nat) (root : Nat → Nat) (l : List Nat) (c : Coll) : Prop where
  symsNodup : ∀ r, (c.syms r).Nodup
  symsN : ∀ n, root n ≠ n → c.syms n = [n]
  callN : ∀ n, root n ≠ n → c.callees n = E n
  syms : ∀ r, root r = r → ∀ x, x ∈ c.syms r ↔ x = r ∨ (x ∈ l ∧ root x = r)
  callT : ∀ r, root r = r → r ∉ l → ∀ x, x ∈ c.callees r ↔ x ∈ E r ∨ (x ≠ r ∧ ∃ m ∈ l, root m = r ∧ ∃ w ∈ E m, root w = x)
  callD : ∀ r, root r = r → r ∈ l → ∀ x, x ∈ c.callees r ↔ (x ≠ r ∧ ∃ m ∈ l, root m = r ∧ ∃ w ∈ E m, root w = x)

theorem CInv.step (hi : ∀ n ∈ ns, root (root n) = root n) (hc : Closed E ns) {l : List Nat} {c : Coll} (h : CInv E root l c) {n : Nat} (hn : n ∈ ns) (hl : ∀ m ∈ l, m ∈ ns)
    (hnl : n ∉ l) : CInv E root (l ++ [n]) (collapse1 root c n) := by
  unfold collapse1
  have hexs : ∀ (r x : Nat), (∃ m ∈ l ++ [n], root m = r ∧ ∃ w ∈ E m, root w = x) ↔
      ((∃ m ∈ l, root m = r ∧ ∃ w ∈ E m, root w = x) ∨ (root n = r ∧ ∃ w ∈ E n, root w = x)) := by
    intro r x
    constructor
    · rintro ⟨m, hm, h⟩
      rcases List.mem_append.1 hm with hm | hm
      · exact Or.inl ⟨m, hm, h⟩
      · rw [List.mem_singleton] at hm; subst hm; exact Or.inr h
    · rintro (⟨m, hm, h⟩ | h)
      · exact ⟨m, by simp [hm], h⟩
      · exact ⟨n, by simp, h⟩
  by_cases hr : n ≠ root n
  · rw [if_pos hr]
    have hrn : root (root n) = root n := hi n hn
    have hnr : ∀ r, root r ≠ r → r ≠ root n := fun r hr' e => hr' (by rw [e]; exact hrn)
    have hne : ∀ r, root r = r → r ≠ n := fun r hr' e => hr (by rw [← e]; exact hr'.symm)
    constructor
    · intro r
      by_cases e : r = root n
      · simp only [upd, e, if_true]; exact nodup_foldl_ins _ (h.symsNodup _)
      · simp only [upd, if_neg e]; exact h.symsNodup r
    · intro r hr'; simp only [upd, if_neg (hnr r hr')]; exact h.symsN r hr'
    · intro r hr'; simp only [upd, if_neg (hnr r hr')]; exact h.callN r hr'
    · intro r hr' x
      by_cases e : r = root n
      · subst e
        simp only [upd, if_true]
        rw [mem_foldl_ins, h.syms _ hrn, h.symsN n (Ne.symm hr)]
        simp only [List.mem_singleton, List.mem_append]
        constructor
        · rintro ((h | ⟨h1, h2⟩) | rfl)
          · exact Or.inl h
          · exact Or.inr ⟨Or.inl h1, h2⟩
          · exact Or.inr ⟨Or.inr rfl, rfl⟩
        · rintro (h | ⟨h1 | h1, h2⟩)
          · exact Or.inl (Or.inl h)
          · exact Or.inl (Or.inr ⟨h1, h2⟩)
          · exact Or.inr h1
      · simp only [upd, if_neg e]
        rw [h.syms r hr']
        simp only [List.mem_append, List.mem_singleton]
        constructor
        · rintro (h | ⟨h1, h2⟩)
          · exact Or.inl h
          · exact Or.inr ⟨Or.inl h1, h2⟩
        · rintro (h | ⟨h1 | rfl, h2⟩)
          · exact Or.inl h
          · exact Or.inr ⟨h1, h2⟩
          · exact absurd h2.symm e
    · intro r hr' hrl x
      have hrl' : r ∉ l := fun hm => hrl (by simp [hm])
      rw [hexs]
      by_cases e : r = root n
      · subst e
        simp only [upd, if_true]
        rw [mem_foldl_callees, h.callT _ hrn hrl', h.callN n (Ne.symm hr)]
        simp only [true_and]
        rw [and_or_left, ← or_assoc]
      · simp only [upd, if_neg e]
        rw [h.callT r hr' hrl']
        simp only [Ne.symm e, false_and, or_false]
    · intro r hr' hrl x
      have hrl' : r ∈ l := by
        rcases List.mem_append.1 hrl with h | h
        · exact h
        · exact absurd (List.mem_singleton.1 h) (hne r hr')
      rw [hexs]
      by_cases e : r = root n
      · subst e
        simp only [upd, if_true]
        rw [mem_foldl_callees, h.callD _ hrn hrl', h.callN n (Ne.symm hr)]
        simp only [true_and]
        rw [and_or_left]
      · simp only [upd, if_neg e]
        rw [h.callD r hr' hrl']
        simp only [Ne.symm e, false_and, or_false]
  · rw [if_neg hr]
    have hrn : root n = n := (not_not.1 hr).symm
    have hnr : ∀ r, root r ≠ r → r ≠ n := fun r hr' e => hr' (by rw [e]; exact hrn)
    constructor
    · exact h.symsNodup
    · exact h.symsN
    · intro r hr'; simp only [upd, if_neg (hnr r hr')]; exact h.callN r hr'
    · intro r hr' x
      show x ∈ c.syms r ↔ _
      rw [h.syms r hr']
      simp only [List.mem_append, List.mem_singleton]
      constructor
      · rintro (h | ⟨h1, h2⟩)
        · exact Or.inl h
        · exact Or.inr ⟨Or.inl h1, h2⟩
      · rintro (h | ⟨h1 | rfl, h2⟩)
        · exact Or.inl h
        · exact Or.inr ⟨h1, h2⟩
        · exact Or.inl (by rw [← h2, hrn])
    · intro r hr' hrl x
      rw [List.mem_append, not_or] at hrl
      have e : r ≠ n := fun e => hrl.2 (by simp [e])
      rw [hexs]
      simp only [upd, if_neg e]
      rw [h.callT r hr' hrl.1]
      simp only [hrn, Ne.symm e, false_and, or_false]
    · intro r hr' hrl x
      rw [hexs]
      by_cases e : r = n
      · subst e
        simp only [upd, if_true]
        have hin : ∀ w ∈ c.callees r, root (root w) = root w := by
          intro w hw
          rw [h.callT r hrn hnl] at hw
          rcases hw with hw | ⟨_, m, hm, _, w', hw', e⟩
          · exact hi w (hc r hn w hw)
          · have := hi w' (hc m (hl m hm) w' hw')
            rw [← e, this, this]
        rw [List.mem_filter, mem_foldl_erase _ _ (by
          intro w hw
          rw [List.mem_filter] at hw
          exact ⟨by simpa using hw.2, hin w hw.1⟩)]
        have hall : ((x ∈ c.callees r ∧ x ∉ (c.callees r).filter fun w => decide (w ≠ root w)) ∨
            ∃ w ∈ (c.callees r).filter fun w => decide (w ≠ root w), root w = x) ↔ ∃ w ∈ c.callees r, root w = x := by
          constructor
          · rintro (⟨h1, h2⟩ | ⟨w, hw, e⟩)
            · refine ⟨x, h1, ?_⟩
              by_contra hx
              exact h2 (List.mem_filter.2 ⟨h1, by simpa using Ne.symm hx⟩)
            · exact ⟨w, (List.mem_filter.1 hw).1, e⟩
          · rintro ⟨w, hw, e⟩
            by_cases hx : w = root w
            · left
              rw [← hx] at e
              subst e
              exact ⟨hw, fun hm => by simp [← hx] at hm⟩
            · exact Or.inr ⟨w, List.mem_filter.2 ⟨hw, by simpa using hx⟩, e⟩
        rw [hall]
        simp only [ne_eq, decide_not, Bool.not_eq_true', decide_eq_false_iff_not]
        constructor
        · rintro ⟨⟨w, hw, e⟩, hx⟩
          refine ⟨hx, ?_⟩
          rw [h.callT r hrn hnl] at hw
          rcases hw with hw | ⟨_, m, hm, hmr, w', hw', e'⟩
          · exact Or.inr ⟨hrn, w, hw, e⟩
          · refine Or.inl ⟨m, hm, hmr, w', hw', ?_⟩
            have := hi w' (hc m (hl m hm) w' hw')
            rw [← e, ← e', this]
        · rintro ⟨hx, ⟨m, hm, hmr, w, hw, e⟩ | ⟨_, w, hw, e⟩⟩
          · refine ⟨⟨x, (h.callT r hrn hnl x).2 (Or.inr ⟨hx, m, hm, hmr, w, hw, e⟩), ?_⟩, hx⟩
            rw [← e]; exact hi w (hc m (hl m hm) w hw)
          · exact ⟨⟨w, (h.callT r hrn hnl w).2 (Or.inl hw), e⟩, hx⟩
      · simp only [upd, if_neg e]
        rw [h.callD r hr' (by
          rcases List.mem_append.1 hrl with h | h
          · exact h
          · exact absurd (List.mem_singleton.1 h) e)]
        simp only [hrn, Ne.symm e, false_and, or_false]

/-- The collapsed graph: a group consists of the functions with its root, and calls the other groups that one of them calls. -/
theorem collapse_ok (hi : ∀ n ∈ ns, root (root n) = root n) (hc : Closed E ns) (hn : ns.Nodup) {r : Nat} (hr : r ∈ ns) (hrr : root r = r) :
    ((collapse root E ns).2.syms r).Perm (ns.filter fun x => root x = r) ∧
    ∀ x, x ∈ (collapse root E ns).2.callees r ↔ (x ≠ r ∧ ∃ m ∈ ns, root m = r ∧ ∃ w ∈ E m, root w = x) := by
  have key : ∀ (l : List Nat), l.Nodup → (∀ m ∈ l, m ∈ ns) → CInv E root l (l.foldl (collapse1 root) ⟨fun n => [n], E⟩) := by
    intro l
    induction l using List.reverseRecOn with
    | nil =>
      intro _ _
      constructor <;> simp
    | append_singleton l n ih =>
      intro hnd hl
      rw [List.foldl_append]
      have h' := List.nodup_append.1 hnd
      exact (ih h'.1 fun m hm => hl m (by simp [hm])).step hi hc (hl n (by simp)) (fun m hm => hl m (by simp [hm]))
        (fun hm => h'.2.2 n hm n (by simp) rfl)
  have h := key ns hn fun _ h => h
  unfold collapse
  refine ⟨?_, h.callD r hrr hr⟩
  rw [List.perm_ext_iff_of_nodup (h.symsNodup r) (hn.filter _)]
  intro x
  rw [h.syms r hrr, List.mem_filter, decide_eq_true_eq]
  constructor
  · rintro (rfl | h)
    · exact ⟨hr, hrr⟩
    · exact h
  · exact Or.inr

/-! ### Topological order -/

/-- `a` can call `b` in at least one call. -/
def Path (C : Nat → List Nat) : Nat → Nat → Prop := Relation.TransGen fun a b => b ∈ C a

structure TInv (C : Nat → List Nat) (ns P : List Nat) (s : TSt) : Prop where
  pre : ∀ v, v ∈ s.pre ↔ v ∈ s.post ∨ v ∈ P
  disj : ∀ v ∈ P, v ∉ s.post
  nodup : s.sorted.Nodup
  mem : ∀ v, v ∈ s.sorted ↔ v ∈ s.post
  inNs : ∀ v ∈ s.pre, v ∈ ns
  order : ∀ l v r, s.sorted = l ++ v :: r → ∀ w ∈ C v, w ∈ l

theorem topo_ok {C : Nat → List Nat} (hc : Closed C ns) : ∀ (fuel v : Nat) (s : TSt) (P : List Nat), TInv C ns P s → v ∈ ns → (∀ p ∈ P, Path C p v) →
    (ns.filter fun x => x ∉ s.pre).length < fuel →
    (∃ s', topo C fuel s v = .ok s' ∧ TInv C ns P s' ∧ v ∈ s'.post ∧ (∀ x ∈ s.post, x ∈ s'.post)) ∨
    (topo C fuel s v = .error .loop ∧ ∃ x ∈ ns, Path C x x) := by
  intro fuel
  induction fuel with
  | zero => intro v s P _ _ _ hf; omega
  | succ fuel ih =>
    intro v s P h hv hp hf
    rw [topo]
    by_cases h1 : v ∈ s.post
    · rw [if_pos h1]
      exact Or.inl ⟨s, rfl, h, h1, fun _ h => h⟩
    rw [if_neg h1]
    by_cases h2 : v ∈ s.pre
    · rw [if_pos h2]
      exact Or.inr ⟨rfl, v, hv, hp v (((h.pre v).1 h2).resolve_left h1)⟩
    rw [if_neg h2]
    have hi : TInv C ns (v :: P) { s with pre := v :: s.pre } := by
      refine ⟨fun x => ?_, fun x hx => ?_, h.nodup, h.mem, fun x hx => ?_, h.order⟩
      · simp only [List.mem_cons]; rw [h.pre x]; tauto
      · rcases List.mem_cons.1 hx with rfl | hx
        · exact h1
        · exact h.disj x hx
      · rcases List.mem_cons.1 hx with rfl | hx
        · exact hv
        · exact h.inNs x hx
    have key : ∀ (ws : List Nat), (∀ w ∈ ws, w ∈ C v) → ∀ s1 : TSt, TInv C ns (v :: P) s1 → (∀ x ∈ s.post, x ∈ s1.post) →
        (ns.filter fun x => x ∉ s1.pre).length < fuel →
        (∃ s', ws.foldlM (topo C fuel) s1 = .ok s' ∧ TInv C ns (v :: P) s' ∧ (∀ w ∈ ws, w ∈ s'.post) ∧ (∀ x ∈ s1.post, x ∈ s'.post)) ∨
        (ws.foldlM (topo C fuel) s1 = .error .loop ∧ ∃ x ∈ ns, Path C x x) := by
      intro ws
      induction ws with
      | nil => intro _ s1 i1 _ _; exact Or.inl ⟨s1, rfl, i1, by simp, fun _ h => h⟩
      | cons w ws ihw =>
        intro hws s1 i1 m1 f1
        have hw := hws w (by simp)
        rw [List.foldlM_cons]
        rcases ih w s1 (v :: P) i1 (hc v hv w hw) (by
            intro p hp'
            rcases List.mem_cons.1 hp' with rfl | hp'
            · exact Relation.TransGen.single hw
            · exact Relation.TransGen.tail (hp p hp') hw) f1 with ⟨s2, e2, i2, w2, m2⟩ | ⟨e2, hx⟩
        · rw [e2]
          have f2 : (ns.filter fun x => x ∉ s2.pre).length < fuel := by
            refine Nat.lt_of_le_of_lt (List.Sublist.length_le ?_) f1
            refine List.monotone_filter_right ns fun x hx => ?_
            simp only [decide_not, Bool.not_eq_true', decide_eq_false_iff_not] at hx ⊢
            intro hx'
            refine hx ((i2.pre x).2 ?_)
            rcases (i1.pre x).1 hx' with h | h
            · exact Or.inl (m2 x h)
            · exact Or.inr h
          rcases ihw (fun x hx => hws x (by simp [hx])) s2 i2 (fun x hx => m2 x (m1 x hx)) f2 with ⟨s3, e3, i3, w3, m3⟩ | ⟨e3, hx⟩
          · refine Or.inl ⟨s3, e3, i3, ?_, fun x hx => m3 x (m2 x hx)⟩
            intro x hx
            rcases List.mem_cons.1 hx with rfl | hx
            · exact m3 _ w2
            · exact w3 x hx
          · exact Or.inr ⟨e3, hx⟩
        · rw [e2]; exact Or.inr ⟨rfl, hx⟩
    have hf1 : (ns.filter fun x => x ∉ v :: s.pre).length < fuel := by
      have : (ns.filter fun x => x ∉ v :: s.pre).length < (ns.filter fun x => x ∉ s.pre).length := by
        have hsub : (ns.filter fun x => x ∉ v :: s.pre).Sublist (ns.filter fun x => x ∉ s.pre) := by
          refine List.monotone_filter_right ns fun x hx => ?_
          simp only [List.mem_cons, not_or, decide_eq_true_eq] at hx ⊢
          exact hx.2
        rcases Nat.lt_or_ge (ns.filter fun x => x ∉ v :: s.pre).length (ns.filter fun x => x ∉ s.pre).length with hlt | hge
        · exact hlt
        · exfalso
          have he := hsub.eq_of_length_le hge
          have hm : v ∈ ns.filter fun x => x ∉ s.pre := by simp [hv, h2]
          rw [← he] at hm
          simp at hm
      omega
    rcases key (C v) (fun _ h => h) _ hi (fun _ h => h) hf1 with ⟨s2, e2, i2, w2, m2⟩ | ⟨e2, hx⟩
    · rw [e2]
      left
      have hvp : v ∉ s2.post := i2.disj v (by simp)
      refine ⟨_, rfl, ?_, List.mem_cons_self, fun x hx => List.mem_cons_of_mem _ (m2 x hx)⟩
      refine ⟨fun x => ?_, fun x hx => ?_, ?_, fun x => ?_, i2.inNs, ?_⟩
      · show x ∈ s2.pre ↔ x ∈ v :: s2.post ∨ x ∈ P
        rw [i2.pre x]; simp only [List.mem_cons]; tauto
      · show x ∉ v :: s2.post
        rw [List.mem_cons, not_or]
        refine ⟨fun e => ?_, i2.disj x (by simp [hx])⟩
        exact h2 ((h.pre v).2 (Or.inr (e ▸ hx)))
      · show (s2.sorted ++ [v]).Nodup
        rw [List.nodup_append]
        refine ⟨i2.nodup, by simp, ?_⟩
        intro a ha b hb
        rw [List.mem_singleton] at hb
        rintro rfl
        subst hb
        exact hvp ((i2.mem a).1 ha)
      · show x ∈ s2.sorted ++ [v] ↔ x ∈ v :: s2.post
        rw [List.mem_append, i2.mem, List.mem_singleton, List.mem_cons, or_comm]
      · intro l x r e w hw
        change s2.sorted ++ [v] = l ++ x :: r at e
        rcases List.eq_nil_or_concat r with rfl | ⟨r', y, rfl⟩
        · have := List.append_inj' e rfl
          rw [← this.1, i2.mem]
          have hx : v = x := by simpa using this.2
          exact w2 w (hx ▸ hw)
        · rw [List.concat_eq_append, ← List.cons_append, ← List.append_assoc] at e
          have := List.append_inj' e rfl
          exact i2.order l x r' this.1 w hw
    · rw [e2]; exact Or.inr ⟨rfl, hx⟩

theorem order_path {C : Nat → List Nat} {sorted : List Nat} (h : ∀ l v r, sorted = l ++ v :: r → ∀ w ∈ C v, w ∈ l) {a b : Nat} (p : Path C a b) :
    ∀ l r, sorted = l ++ a :: r → b ∈ l := by
  induction p with
  | single hab => exact fun l r e => h l a r e _ hab
  | tail _ hbc ih =>
    intro l r e
    obtain ⟨l1, l2, rfl⟩ := List.append_of_mem (ih l r e)
    have := h l1 _ (l2 ++ a :: r) (by rw [e]; simp) _ hbc
    simp [this]

/-- **C17: the topological sort succeeds exactly on graphs without cycles; otherwise the tool stops with "Found a Loop".** -/
theorem topoSort_ok {C : Nat → List Nat} (hc : Closed C ns) :
    (∃ sorted, topoSort C ns = .ok sorted ∧ sorted.Nodup ∧ (∀ v, v ∈ sorted ↔ v ∈ ns) ∧
      (∀ l v r, sorted = l ++ v :: r → ∀ w ∈ C v, w ∈ l) ∧ ¬ ∃ x ∈ ns, Path C x x) ∨
    (topoSort C ns = .error .loop ∧ ∃ x ∈ ns, Path C x x) := by
  unfold topoSort
  have key : ∀ (l : List Nat) (s : TSt), (∀ v ∈ l, v ∈ ns) → TInv C ns [] s →
      (∃ s', l.foldlM (fun s v => if v ∈ s.post then .ok s else topo C (ns.length + 1) s v) s = .ok s' ∧ TInv C ns [] s' ∧
        (∀ x ∈ s.post, x ∈ s'.post) ∧ ∀ v ∈ l, v ∈ s'.post) ∨
      (l.foldlM (fun s v => if v ∈ s.post then .ok s else topo C (ns.length + 1) s v) s = .error .loop ∧ ∃ x ∈ ns, Path C x x) := by
    intro l
    induction l with
    | nil => intro s _ h; exact Or.inl ⟨s, rfl, h, fun _ h => h, by simp⟩
    | cons v l ih =>
      intro s hl h
      rw [List.foldlM_cons]
      have : (∃ s1, (if v ∈ s.post then .ok s else topo C (ns.length + 1) s v) = .ok s1 ∧ TInv C ns [] s1 ∧ v ∈ s1.post ∧ ∀ x ∈ s.post, x ∈ s1.post) ∨
          ((if v ∈ s.post then .ok s else topo C (ns.length + 1) s v) = .error .loop ∧ ∃ x ∈ ns, Path C x x) := by
        by_cases hv : v ∈ s.post
        · rw [if_pos hv]; exact Or.inl ⟨s, rfl, h, hv, fun _ h => h⟩
        · rw [if_neg hv]
          exact topo_ok hc (ns.length + 1) v s [] h (hl v (by simp)) (by simp) (by
            have := List.length_filter_le (fun x => decide (x ∉ s.pre)) ns; omega)
      rcases this with ⟨s1, e1, i1, v1, m1⟩ | ⟨e1, hx⟩
      · rw [e1]
        rcases ih s1 (fun x hx => hl x (by simp [hx])) i1 with ⟨s2, e2, i2, m2, v2⟩ | ⟨e2, hx⟩
        · refine Or.inl ⟨s2, e2, i2, fun x hx => m2 x (m1 x hx), ?_⟩
          intro x hx
          rcases List.mem_cons.1 hx with rfl | hx
          · exact m2 _ v1
          · exact v2 x hx
        · exact Or.inr ⟨e2, hx⟩
      · rw [e1]; exact Or.inr ⟨rfl, hx⟩
  rcases key ns {} (fun _ h => h) (by constructor <;> simp) with ⟨s, e, i, _, hv⟩ | ⟨e, hx⟩
  · rw [e]
    refine Or.inl ⟨s.sorted, rfl, i.nodup, fun v => ?_, i.order, ?_⟩
    · rw [i.mem]
      exact ⟨fun h => i.inNs v ((i.pre v).2 (Or.inl h)), hv v⟩
    · rintro ⟨x, hx, p⟩
      obtain ⟨l, r, e⟩ := List.append_of_mem ((i.mem x).2 (hv x hx))
      have hm := order_path i.order p l r e
      have hnd := i.nodup
      rw [e] at hnd
      exact (List.nodup_append.1 hnd).2.2 x hm x (by simp) rfl
  · rw [e]; exact Or.inr ⟨rfl, hx⟩

end Verif.Scc

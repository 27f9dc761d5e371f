import Verif.Nested
import Verif.LlvmRead
import Verif.FlattenProps

/-! Limiting the inline nesting level (C55). -/
namespace Verif.SymbolMap

open Verif.Compute (sum_flatMap sum_zero sum_map_congr)

/-! ### Places -/

/-- The inline instance at a place: a function and a path of call sites. -/
def view (m : SymMap) (x : Name × List Callsite) : Option Data := (OMap.find? m x.1).bind fun s => s.node? x.2

/-- The function an inline instance belongs to. -/
def nameOf : Name → List Callsite → Name
  | n, [] => n
  | _, k :: p => nameOf k.2 p

/-- The inline stack of an instance: the names of the functions from the outermost one on. -/
def stack (x : Name × List Callsite) : List Name := x.1 :: x.2.map Prod.snd

theorem nameOf_last (n : Name) (q : List Callsite) : (stack (n, q)).getLast? = some (nameOf n q) := by
  induction q generalizing n with
  | nil => rfl
  | cons k q ih =>
    have h : stack (n, k :: q) = n :: stack (k.2, q) := rfl
    have h2 : stack (k.2, q) ≠ [] := by unfold stack; simp
    rw [h, List.getLast?_cons, ih k.2]
    rfl

theorem nameOf_suffix {x y : Name × List Callsite} (h : stack x <:+ stack y) : nameOf x.1 x.2 = nameOf y.1 y.2 := by
  have h1 := nameOf_last x.1 x.2
  have h2 := nameOf_last y.1 y.2
  obtain ⟨t, ht⟩ := h
  have : (stack y).getLast? = (stack x).getLast? := by
    rw [← ht, List.getLast?_append, h1]; rfl
  rw [h2, h1] at this
  injection this with this
  exact this.symm

theorem nameOf_append (n : Name) (q : List Callsite) : ∀ p, nameOf n (q ++ p) = nameOf (nameOf n q) p := by
  induction q generalizing n with
  | nil => intro p; rfl
  | cons k q ih => intro p; exact ih k.2 p

theorem node_root (s : Sym) : s.node? [] = some s.data := by cases s; rfl

theorem sub_node : ∀ (q : List Callsite) {s c : Sym}, s.sub? q = some c → ∀ r, c.node? r = s.node? (q ++ r)
  | [], s, c, h, r => by injection h with h; subst h; rfl
  | k :: q, s, c, h, r => by
    simp only [Sym.sub?] at h
    simp only [List.cons_append, Sym.node?]
    cases hl : lookup s.calls k with
    | none => rw [hl] at h; cases h
    | some d => rw [hl] at h; exact sub_node q h r

theorem sub_isSome : ∀ (q : List Callsite) (s : Sym), (s.sub? q).isSome = (s.node? q).isSome
  | [], s => rfl
  | k :: q, s => by
    simp only [Sym.sub?, Sym.node?]
    cases lookup s.calls k with
    | none => rfl
    | some d => exact sub_isSome q d

theorem sub_wf : ∀ (q : List Callsite) {s c : Sym}, s.WF → s.sub? q = some c → c.WF
  | [], s, c, hw, h => by injection h with h; subst h; exact hw
  | k :: q, s, c, hw, h => by
    simp only [Sym.sub?] at h
    cases hl : lookup s.calls k with
    | none => rw [hl] at h; cases h
    | some d => rw [hl] at h; exact sub_wf q (hw.child hl) h

theorem lookup_modifyIf {A : Type} (k : Callsite) (f : A → A) (k' : Callsite) : ∀ l : List (Callsite × A),
    lookup (modifyIf k f l) k' = if k' = k then (lookup l k').map f else lookup l k'
  | [] => by simp [modifyIf, lookup]
  | (k1, s) :: t => by
    rw [modifyIf]
    by_cases h : k = k1
    · rw [if_pos h]
      subst h
      simp only [lookup]
      by_cases h2 : k' = k <;> simp [h2]
    · rw [if_neg h]
      simp only [lookup]
      rw [lookup_modifyIf k f k' t]
      by_cases h2 : k' = k1
      · have : k' ≠ k := fun e => h (by rw [← e, h2])
        simp [h2, this]
        intro e; exact absurd e.symm (by simpa using h)
      · simp [h2]

theorem modifyIf_keys {A : Type} (k : Callsite) (f : A → A) : ∀ l : List (Callsite × A), (modifyIf k f l).map Prod.fst = l.map Prod.fst
  | [] => rfl
  | (k1, s) :: t => by
    rw [modifyIf]
    split
    · rfl
    · rw [List.map_cons, List.map_cons, modifyIf_keys k f t]

theorem modifyIf_wf (k : Callsite) (f : Sym → Sym) (hf : ∀ s, s.WF → (f s).WF) : ∀ l : List (Callsite × Sym), (∀ x ∈ l, x.2.WF) → ∀ x ∈ modifyIf k f l, x.2.WF
  | [], h => h
  | (k1, s) :: t, h => by
    rw [modifyIf]
    split
    · intro x hx
      rcases List.mem_cons.1 hx with rfl | hx
      · exact hf s (h (k1, s) (by simp))
      · exact h x (by simp [hx])
    · intro x hx
      rcases List.mem_cons.1 hx with rfl | hx
      · exact h (k1, s) (by simp)
      · exact modifyIf_wf k f hf t (fun y hy => h y (by simp [hy])) x hx

theorem modSub_wf (f : Sym → Sym) (hf : ∀ s, s.WF → (f s).WF) : ∀ (q : List Callsite) (s : Sym), s.WF → (s.modSub f q).WF
  | [], s, h => hf s h
  | k :: q, .mk d cs, h => by
    have hw := (Sym.WF_iff _).1 h
    refine (Sym.WF_iff _).2 ⟨hw.1, hw.2.1, ?_, ?_⟩
    · show ((modifyIf k (Sym.modSub f q) cs).map Prod.fst).Nodup
      rw [modifyIf_keys]; exact hw.2.2.1
    · exact modifyIf_wf k _ (modSub_wf f hf q) cs hw.2.2.2

theorem modSub_below (f : Sym → Sym) : ∀ (q : List Callsite) (s : Sym) (r : List Callsite),
    (s.modSub f q).node? (q ++ r) = (s.sub? q).bind fun c => (f c).node? r
  | [], s, r => rfl
  | k :: q, .mk d cs, r => by
    rw [Sym.modSub]
    simp only [List.cons_append, Sym.node?, Sym.calls, Sym.sub?]
    rw [lookup_modifyIf, if_pos rfl]
    cases lookup cs k with
    | none => rfl
    | some c => exact modSub_below f q c r

theorem modSub_other (f : Sym → Sym) : ∀ (q : List Callsite) (s : Sym) (p : List Callsite), ¬ q <+: p → (s.modSub f q).node? p = s.node? p
  | [], s, p, h => absurd (List.nil_prefix) h
  | k :: q, .mk d cs, [], h => rfl
  | k :: q, .mk d cs, k' :: p, h => by
    rw [Sym.modSub]
    simp only [Sym.node?, Sym.calls]
    rw [lookup_modifyIf]
    by_cases hk : k' = k
    · rw [if_pos hk]
      subst hk
      cases lookup cs k' with
      | none => rfl
      | some c => exact modSub_other f q c p fun hp => h (by simpa using hp)
    · rw [if_neg hk]

theorem modSub_sub (f : Sym → Sym) : ∀ (q : List Callsite) (s : Sym), (s.modSub f q).sub? q = (s.sub? q).map f
  | [], s => rfl
  | k :: q, .mk d cs => by
    rw [Sym.modSub]
    simp only [Sym.sub?, Sym.calls]
    rw [lookup_modifyIf, if_pos rfl]
    cases lookup cs k with
    | none => rfl
    | some c => exact modSub_sub f q c

theorem modSub_id (f : Sym → Sym) : ∀ (q : List Callsite) (s : Sym), (∀ c, s.sub? q = some c → f c = c) → s.modSub f q = s
  | [], s, h => h s rfl
  | k :: q, .mk d cs, h => by
    rw [Sym.modSub]
    congr 1
    have key : ∀ l : List (Callsite × Sym), (∀ c, lookup l k = some c → Sym.modSub f q c = c) → modifyIf k (Sym.modSub f q) l = l := by
      intro l
      induction l with
      | nil => intro _; rfl
      | cons x t ih =>
        obtain ⟨k1, c⟩ := x
        intro hl
        rw [modifyIf]
        split
        · rename_i e
          rw [hl c (by simp [lookup, e])]
        · rename_i e
          rw [ih fun c hc => hl c (by simp [lookup, e, hc])]
    refine key cs fun c hc => modSub_id f q c fun c' hc' => h c' ?_
    simp only [Sym.sub?, Sym.calls]
    rw [hc]; exact hc'

/-! ### Places of the map -/

theorem view_sub {m : SymMap} {g : Name} {q : List Callsite} {c : Sym} (h : subAt m g q = some c) (r : List Callsite) : c.node? r = view m (g, q ++ r) := by
  unfold subAt at h
  unfold view
  cases hf : OMap.find? m g with
  | none => rw [hf] at h; cases h
  | some s => rw [hf] at h; exact sub_node q h r

theorem subAt_isSome (m : SymMap) (g : Name) (q : List Callsite) : (subAt m g q).isSome = (view m (g, q)).isSome := by
  unfold subAt view
  cases OMap.find? m g with
  | none => rfl
  | some s => exact sub_isSome q s

theorem subAt_wf {m : SymMap} (hm : m.WF) {g : Name} {q : List Callsite} {c : Sym} (h : subAt m g q = some c) : c.WF := by
  unfold subAt at h
  cases hf : OMap.find? m g with
  | none => rw [hf] at h; cases h
  | some s => rw [hf] at h; exact sub_wf q (hm.2 _ (OMap.mem_of_find?_some hf)) h

theorem find_modAt {m : SymMap} (hm : m.WF) (g : Name) (q : List Callsite) (f : Sym → Sym) (g' : Name) :
    OMap.find? (modAt m g q f) g' = if g' = g then (OMap.find? m g').map (Sym.modSub f q) else OMap.find? m g' := by
  unfold modAt
  cases hf : OMap.find? m g with
  | none =>
    simp only
    by_cases e : g' = g
    · rw [if_pos e, e, hf]; rfl
    · rw [if_neg e]
  | some s =>
    simp only
    unfold OMap.set
    rw [OMap.find?_upsert hm.1]
    by_cases e : g' = g
    · subst e; simp [hf]
    · simp [e]

theorem modAt_wf {m : SymMap} (hm : m.WF) (g : Name) (q : List Callsite) {f : Sym → Sym} (hf : ∀ s, s.WF → (f s).WF) : (modAt m g q f).WF := by
  unfold modAt
  cases h : OMap.find? m g with
  | none => exact hm
  | some s => exact hm.set _ _ (modSub_wf f hf q s (hm.2 _ (OMap.mem_of_find?_some h)))

theorem view_modAt_other {m : SymMap} (hm : m.WF) (g : Name) (q : List Callsite) (f : Sym → Sym) {x : Name × List Callsite} (h : ¬ (x.1 = g ∧ q <+: x.2)) :
    view (modAt m g q f) x = view m x := by
  unfold view
  rw [find_modAt hm]
  by_cases e : x.1 = g
  · rw [if_pos e]
    cases OMap.find? m x.1 with
    | none => rfl
    | some s => exact modSub_other f q s x.2 fun hp => h ⟨e, hp⟩
  · rw [if_neg e]

theorem view_modAt_below {m : SymMap} (hm : m.WF) (g : Name) (q : List Callsite) (f : Sym → Sym) (r : List Callsite) :
    view (modAt m g q f) (g, q ++ r) = (subAt m g q).bind fun c => (f c).node? r := by
  unfold view subAt
  rw [find_modAt hm, if_pos rfl]
  cases OMap.find? m g with
  | none => rfl
  | some s => exact modSub_below f q s r

theorem subAt_modAt {m : SymMap} (hm : m.WF) (g : Name) (q : List Callsite) (f : Sym → Sym) : subAt (modAt m g q f) g q = (subAt m g q).map f := by
  unfold subAt
  rw [find_modAt hm, if_pos rfl]
  cases OMap.find? m g with
  | none => rfl
  | some s => exact modSub_sub f q s

theorem modAt_id {m : SymMap} (hm : m.WF) {g : Name} {q : List Callsite} {f : Sym → Sym} (h : ∀ c, subAt m g q = some c → f c = c) : modAt m g q f = m := by
  have hw : OMap.Sorted (modAt m g q f) := by
    unfold modAt
    cases OMap.find? m g with
    | none => exact hm.1
    | some s => exact OMap.Sorted.upsert hm.1 _ _
  refine OMap.ext hw hm.1 fun x => ?_
  rw [find_modAt hm]
  split
  · rename_i e
    subst e
    cases hf : OMap.find? m x with
    | none => rfl
    | some s =>
      rw [Option.map_some, modSub_id]
      intro c hc
      exact h c (by unfold subAt; rw [hf]; exact hc)
  · rfl

theorem node_split (s : Sym) (k : Callsite) (r : List Callsite) : s.node? (k :: r) = (lookup s.calls k).bind fun c => c.node? r := by
  simp only [Sym.node?]
  cases lookup s.calls k <;> rfl

/-- An update of the fields of one symbol. -/
theorem view_onData {m : SymMap} (hm : m.WF) (g : Name) (q : List Callsite) (h : Data → Data) (x : Name × List Callsite) :
    view (modAt m g q (onData h)) x = if x = (g, q) then (view m x).map h else view m x := by
  by_cases hx : x.1 = g ∧ q <+: x.2
  · obtain ⟨g', p⟩ := x
    obtain ⟨rfl, r, rfl⟩ := hx
    rw [view_modAt_below hm]
    cases hs : subAt m g' q with
    | none =>
      have h0 := subAt_isSome m g' q
      rw [hs] at h0
      have hn : view m (g', q ++ r) = none := by
        unfold view subAt at *
        cases hf : OMap.find? m g' with
        | none => rfl
        | some s =>
          rw [hf] at hs
          simp only [Option.bind_some] at hs ⊢
          clear h0 hf
          induction q generalizing s with
          | nil => cases hs
          | cons k q ih =>
            rw [List.cons_append, node_split]
            simp only [Sym.sub?] at hs
            cases hl : lookup s.calls k with
            | none => rfl
            | some c => rw [hl] at hs; exact ih c hs
      simp only at hn ⊢
      rw [hn]; split <;> rfl
    | some c =>
      have hc := view_sub hs
      rw [Option.bind_some]
      obtain ⟨d, cs⟩ := c
      cases r with
      | nil =>
        rw [if_pos (by simp), ← hc []]
        rfl
      | cons k r =>
        rw [if_neg (by simp), ← hc (k :: r)]
        rfl
  · rw [view_modAt_other hm g q _ hx, if_neg]
    rintro rfl
    exact hx ⟨rfl, List.prefix_refl q⟩

/-- Removing all call sites of a symbol. -/
theorem view_clear {m : SymMap} (hm : m.WF) (g : Name) (q : List Callsite) (x : Name × List Callsite) :
    view (modAt m g q fun s => .mk s.data []) x = if x.1 = g ∧ q <+: x.2 ∧ x.2 ≠ q then none else view m x := by
  by_cases hx : x.1 = g ∧ q <+: x.2
  · obtain ⟨g', p⟩ := x
    obtain ⟨rfl, r, rfl⟩ := hx
    rw [view_modAt_below hm]
    cases r with
    | nil =>
      rw [if_neg (by simp)]
      cases hs : subAt m g' q with
      | none =>
        have h0 := subAt_isSome m g' q
        rw [hs] at h0
        simp only [List.append_nil]
        cases hv : view m (g', q) with
        | none => rfl
        | some d => rw [hv] at h0; cases h0
      | some c =>
        have := view_sub hs []
        rw [← this, node_root]
        rfl
    | cons k r =>
      rw [if_pos ⟨rfl, List.prefix_append _ _, by simp⟩]
      cases subAt m g' q <;> rfl
  · rw [view_modAt_other hm g q _ hx, if_neg fun h => hx ⟨h.1, h.2.1⟩]

/-! ### Estimating entry counts -/

/-- Everything but the entry count. -/
def Data.body' (d : Data) : Nat × PosMap := (d.total, d.pos)

mutual
theorem estimate_body : (s : Sym) → ∀ p, (s.estimate.node? p).map Data.body' = (s.node? p).map Data.body'
  | .mk d cs => by
    intro p
    rw [Sym.estimate]
    split
    · rfl
    · split
      · cases p <;> rfl
      · split
        · cases p <;> rfl
        · cases p with
          | nil => rfl
          | cons k' p =>
            rw [node_split, node_split]
            exact estimateAt_body _ cs k' p
theorem estimateAt_body (k : Callsite) : (cs : List (Callsite × Sym)) → ∀ k' p,
    ((lookup (estimateAt k cs) k').bind fun c => c.node? p).map Data.body' = ((lookup cs k').bind fun c => c.node? p).map Data.body'
  | [] => by intro k' p; rfl
  | (k1, c) :: t => by
    intro k' p
    rw [estimateAt]
    by_cases h : k1 = k
    · rw [if_pos h, lookup, lookup]
      by_cases h2 : k' = k1
      · rw [if_pos h2, if_pos h2]; exact estimate_body c p
      · rw [if_neg h2, if_neg h2]; exact estimateAt_body k t k' p
    · rw [if_neg h, lookup, lookup]
      by_cases h2 : k' = k1
      · rw [if_pos h2, if_pos h2]
      · rw [if_neg h2, if_neg h2]; exact estimateAt_body k t k' p
end

mutual
theorem estimate_wf : (s : Sym) → s.WF → s.estimate.WF
  | .mk d cs, h => by
    have hw := (Sym.WF_iff _).1 h
    have hc : ∀ (d' : Data), d'.pos = d.pos → (Sym.mk d' cs).WF := fun d' e => (Sym.WF_iff _).2 ⟨by rw [Sym.data, e]; exact hw.1, by rw [Sym.data, e]; exact hw.2.1, hw.2.2⟩
    rw [Sym.estimate]
    split
    · exact h
    · split
      · exact hc _ rfl
      · split
        · exact hc _ rfl
        · rename_i k _ _
          refine (Sym.WF_iff _).2 ⟨hw.1, hw.2.1, ?_, estimateAt_wf k cs hw.2.2.2⟩
          show ((estimateAt k cs).map Prod.fst).Nodup
          rw [estimateAt_keys]; exact hw.2.2.1
theorem estimateAt_wf (k : Callsite) : (cs : List (Callsite × Sym)) → (∀ x ∈ cs, x.2.WF) → ∀ x ∈ estimateAt k cs, x.2.WF
  | [], h => by intro x hx; rw [estimateAt] at hx; cases hx
  | (k1, c) :: t, h => by
    have ht := estimateAt_wf k t fun x hx => h x (by simp [hx])
    have hc := h (k1, c) (by simp)
    rw [estimateAt]
    split
    · intro x hx
      rcases List.mem_cons.1 hx with rfl | hx
      · exact estimate_wf c hc
      · exact ht x hx
    · intro x hx
      rcases List.mem_cons.1 hx with rfl | hx
      · exact hc
      · exact ht x hx
end

theorem view_none_below {m : SymMap} {g : Name} {q : List Callsite} (hs : subAt m g q = none) (r : List Callsite) : view m (g, q ++ r) = none := by
  unfold view
  unfold subAt at hs
  cases hf : OMap.find? m g with
  | none => rfl
  | some s =>
    rw [hf] at hs
    simp only [Option.bind_some] at hs ⊢
    clear hf
    induction q generalizing s with
    | nil => cases hs
    | cons k q ih =>
      rw [List.cons_append, node_split]
      simp only [Sym.sub?] at hs
      cases hl : lookup s.calls k with
      | none => rfl
      | some c => rw [hl] at hs; exact ih c hs

/-- Estimating the entry count changes entry counts only. -/
theorem view_estimate {m : SymMap} (hm : m.WF) (g : Name) (q : List Callsite) (x : Name × List Callsite) :
    (view (modAt m g q Sym.estimate) x).map Data.body' = (view m x).map Data.body' := by
  by_cases hx : x.1 = g ∧ q <+: x.2
  · obtain ⟨g', p⟩ := x
    obtain ⟨rfl, r, rfl⟩ := hx
    rw [view_modAt_below hm]
    cases hs : subAt m g' q with
    | none => rw [view_none_below hs]; rfl
    | some c =>
      rw [Option.bind_some, estimate_body, view_sub hs]
  · rw [view_modAt_other hm g q _ hx]

/-! ### Merging a function -/

/-- What merging does at one place. -/
def mOpt : Option Data → Option Data → Option Data
  | o, none => o
  | none, some y => some (Data.zero.add y)
  | some x, some y => some (x.add y)

theorem find_atName {m : SymMap} (hm : m.WF) (n : Name) (f : Sym → Sym) (g : Name) :
    OMap.find? (atName m n f) g = if g = n then some (f ((OMap.find? m g).getD Sym.new)) else OMap.find? m g := by
  unfold atName
  rw [OMap.find?_upsert hm.1]
  by_cases h : g = n
  · subst h; simp
  · simp [h]

theorem view_merge {m : SymMap} (hm : m.WF) (n : Name) {c : Sym} (hc : c.WF) (x : Name × List Callsite) :
    view (atName m n fun t => t.merge c) x = if x.1 = n then mOpt (view m x) (c.node? x.2) else view m x := by
  obtain ⟨g, p⟩ := x
  unfold view
  simp only
  rw [find_atName hm]
  by_cases h : g = n
  · subst h
    rw [if_pos rfl, if_pos rfl, Option.bind_some, node?_merge p _ c hc]
    cases hf : OMap.find? m g with
    | some s =>
      simp only [Option.getD_some, Option.bind_some]
      cases s.node? p <;> cases c.node? p <;> rfl
    | none =>
      simp only [Option.getD_none, Option.bind_none, Sym.new_node?]
      by_cases hp : p = []
      · subst hp
        rw [node_root]
        rfl
      · rw [if_neg hp]
        cases c.node? p <;> rfl
  · rw [if_neg h, if_neg h]

theorem atName_wf {m : SymMap} (hm : m.WF) (n : Name) {c : Sym} (hc : c.WF) : SymMap.WF (atName m n fun t => t.merge c) := by
  refine ⟨OMap.Sorted.upsert hm.1 _ _, fun x hx => ?_⟩
  have h1 := OMap.find?_some_of_mem (OMap.Sorted.upsert hm.1 _ _) hx
  have h2 := find_atName hm n (fun t => t.merge c) x.1
  unfold atName at h2
  rw [h1] at h2
  split at h2
  · injection h2 with h2
    rw [h2]
    exact Sym.WF.merge _ (hm.get x.1) c hc
  · exact hm.2 _ (OMap.mem_of_find?_some h2.symm)

/-! ### The effect on the structure -/

/-- Places below `g`, `q`. -/
def Below (g : Name) (q : List Callsite) (x : Name × List Callsite) : Prop := x.1 = g ∧ q <+: x.2

/-- A step which removes only places of `G`, does not change places outside `D` with paths of length `mx` or more, and creates
places with shorter paths only. -/
structure Eff (mx : Nat) (G D : Name × List Callsite → Prop) (m m' : SymMap) : Prop where
  wf : m'.WF
  new : ∀ x, view m x = none → (view m' x).isSome = true → x.2.length + 1 ≤ mx
  gone : ∀ x, (view m x).isSome = true → view m' x = none → G x
  far : ∀ x, mx ≤ x.2.length → ¬ D x → view m' x = view m x
  names : ∀ x, (view m' x).isSome = true → ∃ y, (view m y).isSome = true ∧ stack x <:+ stack y

theorem Eff.refl {mx : Nat} {G D : Name × List Callsite → Prop} {m : SymMap} (h : m.WF) : Eff mx G D m m :=
  ⟨h, fun x h1 h2 => (by rw [h1] at h2; cases h2), fun x h1 h2 => (by rw [h2] at h1; cases h1), fun _ _ _ => rfl, fun x hx => ⟨x, hx, List.suffix_rfl⟩⟩

theorem Eff.trans {mx : Nat} {G D : Name × List Callsite → Prop} {m m1 m2 : SymMap} (h1 : Eff mx G D m m1) (h2 : Eff mx G D m1 m2) : Eff mx G D m m2 := by
  refine ⟨h2.wf, fun x a b => ?_, fun x a b => ?_, fun x a b => ?_, fun x a => ?_⟩
  · cases hv : view m1 x with
    | none => exact h2.new x hv b
    | some d => exact h1.new x a (by rw [hv]; rfl)
  · cases hv : view m1 x with
    | none => exact h1.gone x a hv
    | some d => exact h2.gone x (by rw [hv]; rfl) b
  · rw [h2.far x a b, h1.far x a b]
  · obtain ⟨y, hy, e⟩ := h2.names x a
    obtain ⟨z, hz, e'⟩ := h1.names y hy
    exact ⟨z, hz, e.trans e'⟩

theorem Eff.mono {mx : Nat} {G D G' D' : Name × List Callsite → Prop} {m m' : SymMap} (h : Eff mx G D m m') (hG : ∀ x, G x → G' x) (hD : ∀ x, D x → D' x) : Eff mx G' D' m m' :=
  ⟨h.wf, h.new, fun x a b => hG x (h.gone x a b), fun x a b => h.far x a fun hd => b (hD x hd), h.names⟩

/-- A step which changes fields only. -/
theorem Eff.same {mx : Nat} {G D : Name × List Callsite → Prop} {m m' : SymMap} (hw : m'.WF) (h : ∀ x, (view m' x).isSome = (view m x).isSome)
    (hD : ∀ x, ¬ D x → view m' x = view m x) : Eff mx G D m m' := by
  refine ⟨hw, fun x a b => ?_, fun x a b => ?_, fun x _ b => hD x b, fun x hx => ⟨x, by rw [← h]; exact hx, List.suffix_rfl⟩⟩
  · rw [h, a] at b; cases b
  · rw [← h, b] at a; cases a

theorem onData_wf {h : Data → Data} (hh : ∀ d : Data, OMap.Sorted d.pos → d.pos.TargetsOk → OMap.Sorted (h d).pos ∧ (h d).pos.TargetsOk) (s : Sym) (hs : s.WF) :
    (onData h s).WF := by
  obtain ⟨d, cs⟩ := s
  have hw := (Sym.WF_iff _).1 hs
  exact (Sym.WF_iff _).2 ⟨(hh d hw.1 hw.2.1).1, (hh d hw.1 hw.2.1).2, hw.2.2⟩

theorem eff_onData {mx : Nat} {G D : Name × List Callsite → Prop} {m : SymMap} (hm : m.WF) {g : Name} {q : List Callsite} (hD : D (g, q)) {h : Data → Data}
    (hh : ∀ d : Data, OMap.Sorted d.pos → d.pos.TargetsOk → OMap.Sorted (h d).pos ∧ (h d).pos.TargetsOk) : Eff mx G D m (modAt m g q (onData h)) := by
  refine Eff.same (modAt_wf hm g q (onData_wf hh)) (fun x => ?_) (fun x hx => ?_)
  · rw [view_onData hm]
    split
    · cases view m x <;> rfl
    · rfl
  · rw [view_onData hm, if_neg]
    rintro rfl
    exact hx hD

theorem isSome_of_body {a b : Option Data} (h : a.map Data.body' = b.map Data.body') : a.isSome = b.isSome := by
  cases a <;> cases b <;> first | rfl | cases h

theorem eff_estimate {mx : Nat} {G D : Name × List Callsite → Prop} {m : SymMap} (hm : m.WF) {g : Name} {q : List Callsite} (hD : ∀ x, Below g q x → D x) :
    Eff mx G D m (modAt m g q Sym.estimate) :=
  Eff.same (modAt_wf hm g q estimate_wf) (fun x => isSome_of_body (view_estimate hm g q x)) fun x hx => view_modAt_other hm g q _ fun hb => hx (hD x hb)

theorem eff_merge {mx : Nat} {G D : Name × List Callsite → Prop} {m : SymMap} (hm : m.WF) {g : Name} {q : List Callsite} {k : Callsite} {c : Sym} (hc : c.WF) (hs : ∀ p, c.node? p = view m (g, (q ++ [k]) ++ p))
    (hl : ∀ p, (c.node? p).isSome = true → p.length + 1 ≤ mx) : Eff mx G D m (atName m k.2 fun t => t.merge c) := by
  have hfar : ∀ x : Name × List Callsite, mx ≤ x.2.length → c.node? x.2 = none := fun x hx => by
    cases hn : c.node? x.2 with
    | none => rfl
    | some d => have := hl x.2 (by rw [hn]; rfl); omega
  refine ⟨atName_wf hm _ hc, fun x a b => ?_, fun x a b => ?_, fun x a _ => ?_, fun x a => ?_⟩
  · rw [view_merge hm _ hc] at b
    by_contra hcon
    rw [hfar x (by omega)] at b
    split at b
    · rw [a] at b; cases b
    · rw [a] at b; cases b
  · rw [view_merge hm _ hc] at b
    obtain ⟨d, hd⟩ := Option.isSome_iff_exists.1 a
    rw [hd] at b
    split at b
    · cases hn : c.node? x.2 <;> rw [hn] at b <;> cases b
    · cases b
  · rw [view_merge hm _ hc, hfar x a]
    split
    · cases view m x <;> rfl
    · rfl
  · rw [view_merge hm _ hc] at a
    by_cases hv : (view m x).isSome = true
    · exact ⟨x, hv, List.suffix_rfl⟩
    · have hv : view m x = none := by simpa using hv
      rw [hv] at a
      by_cases hk : x.1 = k.2
      · rw [if_pos hk] at a
        cases hn : c.node? x.2 with
        | none => rw [hn] at a; cases a
        | some d =>
          refine ⟨(g, (q ++ [k]) ++ x.2), ?_, ?_⟩
          · rw [← hs, hn]; rfl
          · refine ⟨g :: q.map Prod.snd, ?_⟩
            unfold stack
            rw [hk]
            simp
      · rw [if_neg hk] at a; cases a

theorem eff_clear {mx : Nat} {m : SymMap} (hm : m.WF) (g : Name) (q : List Callsite) :
    Eff mx (fun x => Below g q x ∧ x.2 ≠ q) (Below g q) m (modAt m g q fun s => .mk s.data []) := by
  refine ⟨modAt_wf hm g q ?_, fun x a b => ?_, fun x a b => ?_, fun x _ b => ?_, fun x a => ?_⟩
  · intro s hs
    have hw := (Sym.WF_iff _).1 hs
    exact (Sym.WF_iff _).2 ⟨hw.1, hw.2.1, List.nodup_nil, fun x hx => by cases hx⟩
  · rw [view_clear hm] at b
    split at b
    · cases b
    · rw [a] at b; cases b
  · rw [view_clear hm] at b
    split at b
    · rename_i h; exact ⟨⟨h.1, h.2.1⟩, h.2.2⟩
    · rw [b] at a; cases a
  · exact view_modAt_other hm g q _ b
  · rw [view_clear hm] at a
    split at a
    · cases a
    · exact ⟨x, a, List.suffix_rfl⟩

/-! ### Sums over all inline instances -/

/-- The sum over all inline instances of a function called `n`. -/
def symTot (w : Name → Data → Nat) (n : Name) (s : Sym) : Nat := (s.nodes.map fun x => w (nameOf n x.1) x.2).sum

/-- The sum over all inline instances of a profile. -/
def tot (w : Name → Data → Nat) (m : SymMap) : Nat := (m.map fun x => symTot w x.1 x.2).sum

/-- A number that is added up by merging and changed according to `rel` when a call site is flattened. -/
structure Wt (rel : Nat → Nat → Prop) (w : Name → Data → Nat) : Prop where
  zero : ∀ n, w n Data.zero = 0
  add : ∀ n a b, OMap.Sorted a.pos → a.pos.TargetsOk → OMap.Sorted b.pos → b.pos.TargetsOk → w n (a.add b) = w n a + w n b
  pos : ∀ n a b, a.pos = b.pos → w n a = w n b
  flat : ∀ n k c d, OMap.Sorted d.pos → d.pos.TargetsOk → rel (w n d) (w n (flattenInto k c d))

/-- Equality and the order are such relations. -/
structure Rel (rel : Nat → Nat → Prop) : Prop where
  refl : ∀ a, rel a a
  trans : ∀ {a b c}, rel a b → rel b c → rel a c
  add : ∀ {a b} c, rel a b → rel (a + c) (b + c)
  cancel : ∀ {a b} c, rel (a + c) (b + c) → rel a b

theorem symTot_mk (w : Name → Data → Nat) (n : Name) (d : Data) (cs : List (Callsite × Sym)) :
    symTot w n (.mk d cs) = w n d + (cs.map fun x => symTot w x.1.2 x.2).sum := by
  unfold symTot
  rw [Sym.nodes, List.map_cons, List.sum_cons]
  congr 1
  induction cs with
  | nil => rw [nodesCalls]; rfl
  | cons x t ih =>
    obtain ⟨k, c⟩ := x
    rw [nodesCalls, List.map_append, List.sum_append, ih, List.map_cons, List.sum_cons, List.map_map]
    rfl

theorem symTot_new {rel : Nat → Nat → Prop} {w : Name → Data → Nat} (hw : Wt rel w) (n : Name) : symTot w n Sym.new = 0 := by
  unfold Sym.new
  rw [symTot_mk, hw.zero]; rfl

theorem symTot_view {rel : Nat → Nat → Prop} {w : Name → Data → Nat} (hw : Wt rel w) (n : Name) {a b : Sym} (ha : a.WF) (hb : b.WF)
    (h : ∀ p, (a.node? p).map Data.pos = (b.node? p).map Data.pos) : symTot w n a = symTot w n b := by
  have conv : ∀ s : Sym, symTot w n s = ((s.nodes.map fun x => (x.1, x.2.pos)).map fun x => w (nameOf n x.1) ⟨0, 0, x.2⟩).sum := by
    intro s
    unfold symTot
    rw [List.map_map]
    exact sum_map_congr _ _ _ fun x _ => hw.pos _ _ _ rfl
  rw [conv, conv]
  have nd : ∀ s : Sym, s.WF → (s.nodes.map fun x => (x.1, x.2.pos)).Nodup := fun s hs => by
    have := nodes_nodup s hs
    exact List.Nodup.of_map Prod.fst (by rw [List.map_map]; exact this)
  have mem : ∀ s : Sym, s.WF → ∀ y, y ∈ (s.nodes.map fun x => (x.1, x.2.pos)) ↔ (s.node? y.1).map Data.pos = some y.2 := by
    intro s hs y
    rw [List.mem_map]
    constructor
    · rintro ⟨x, hx, rfl⟩
      rw [(mem_nodes x.1 x.2 s hs).1 hx]; rfl
    · intro hy
      cases hn : s.node? y.1 with
      | none => rw [hn] at hy; cases hy
      | some d =>
        rw [hn] at hy
        injection hy with hy
        exact ⟨(y.1, d), (mem_nodes _ _ s hs).2 hn, Prod.ext rfl hy⟩
  have hp : (a.nodes.map fun x => (x.1, x.2.pos)).Perm (b.nodes.map fun x => (x.1, x.2.pos)) :=
    (List.perm_ext_iff_of_nodup (nd a ha) (nd b hb)).2 fun y => by rw [mem a ha, mem b hb, h]
  exact (hp.map _).sum_eq

mutual
theorem symTot_merge {rel : Nat → Nat → Prop} {w : Name → Data → Nat} (hw : Wt rel w) (n : Name) (a : Sym) (ha : a.WF) : (b : Sym) → b.WF →
    symTot w n (a.merge b) = symTot w n a + symTot w n b
  | .mk d cs, hb => by
    have hb' := (Sym.WF_iff _).1 hb
    have ha' := (Sym.WF_iff _).1 ha
    have h0 : w n (a.data.add d) = w n a.data + w n d := hw.add n a.data d ha'.1 ha'.2.1 hb'.1 hb'.2.1
    rw [Sym.merge, symTot_mk, symTot_mk, h0, mergeCalls_tot hw a.calls ha'.2.2.1 ha'.2.2.2 cs hb'.2.2.2]
    obtain ⟨d', cs'⟩ := a
    rw [symTot_mk]
    simp only [Sym.data, Sym.calls]
    omega
theorem mergeCalls_tot {rel : Nat → Nat → Prop} {w : Name → Data → Nat} (hw : Wt rel w) (acc : List (Callsite × Sym)) (hn : (acc.map Prod.fst).Nodup) (ha : ∀ x ∈ acc, x.2.WF) :
    (cs : List (Callsite × Sym)) → (∀ x ∈ cs, x.2.WF) →
    ((mergeCalls acc cs).map fun x => symTot w x.1.2 x.2).sum = (acc.map fun x => symTot w x.1.2 x.2).sum + (cs.map fun x => symTot w x.1.2 x.2).sum
  | [], _ => by rw [mergeCalls]; simp
  | (k, s) :: t, hc => by
    have hs := hc (k, s) (by simp)
    have hone : ∀ (o : Option Sym), (∀ c, o = some c → c.WF) → symTot w k.2 (Sym.merge (o.getD Sym.new) s) = symTot w k.2 (o.getD Sym.new) + symTot w k.2 s := by
      intro o ho
      refine symTot_merge hw k.2 _ ?_ s hs
      cases o with
      | none => exact Sym.WF.new
      | some c => exact ho c rfl
    rw [mergeCalls, mergeCalls_tot hw _ (modifyAt_nodup hn k _) ?_ t fun x hx => hc x (by simp [hx])]
    · have : ∀ l : List (Callsite × Sym), (∀ x ∈ l, x.2.WF) → ((modifyAt l k fun o => Sym.merge (o.getD Sym.new) s).map fun x => symTot w x.1.2 x.2).sum =
          (l.map fun x => symTot w x.1.2 x.2).sum + symTot w k.2 s := by
        intro l
        induction l with
        | nil =>
          intro _
          have := hone none (fun c hc => by cases hc)
          simp only [modifyAt, List.map_cons, List.map_nil, List.sum_cons, List.sum_nil]
          rw [this, Option.getD_none, symTot_new hw]
          omega
        | cons y l ih =>
          intro hl
          obtain ⟨k', c⟩ := y
          rw [modifyAt]
          split
          · rename_i e
            subst e
            have := hone (some c) (fun c' h => by injection h with h; rw [← h]; exact hl (k, c) (by simp))
            simp only [List.map_cons, List.sum_cons]
            rw [this, Option.getD_some]
            omega
          · rw [List.map_cons, List.sum_cons, ih fun x hx => hl x (by simp [hx]), List.map_cons, List.sum_cons]
            omega
      rw [this acc ha, List.map_cons, List.sum_cons]
      exact Nat.add_assoc _ _ _
    · exact WFCalls_modifyAt ha k _ fun o ho => Sym.WF.merge _ (by cases o with | none => exact Sym.WF.new | some c => exact ho c rfl) s hs
end

theorem symTot_modSub {w : Name → Data → Nat} (f : Sym → Sym) : ∀ (q : List Callsite) (n : Name) (s c : Sym), s.sub? q = some c →
    symTot w n (s.modSub f q) + symTot w (nameOf n q) c = symTot w n s + symTot w (nameOf n q) (f c)
  | [], n, s, c, h => by
    injection h with h
    subst h
    simp only [Sym.modSub, nameOf]
    omega
  | k :: q, n, .mk d cs, c, h => by
    rw [Sym.modSub, symTot_mk, symTot_mk]
    simp only [nameOf]
    have key : ∀ l : List (Callsite × Sym), ∀ c0, lookup l k = some c0 → c0.sub? q = some c →
        ((modifyIf k (Sym.modSub f q) l).map fun x => symTot w x.1.2 x.2).sum + symTot w (nameOf k.2 q) c =
        (l.map fun x => symTot w x.1.2 x.2).sum + symTot w (nameOf k.2 q) (f c) := by
      intro l
      induction l with
      | nil => intro c0 hl; cases hl
      | cons y l ih =>
        intro c0 hl hc
        obtain ⟨k', c'⟩ := y
        rw [modifyIf]
        rw [lookup] at hl
        split
        · rename_i e
          rw [if_pos e] at hl
          injection hl with hl
          subst hl; subst e
          have := symTot_modSub (w := w) f q k.2 c' c hc
          simp only [List.map_cons, List.sum_cons]
          omega
        · rename_i e
          rw [if_neg e] at hl
          have := ih c0 hl hc
          simp only [List.map_cons, List.sum_cons]
          omega
    simp only [Sym.sub?, Sym.calls] at h
    cases hl : lookup cs k with
    | none => rw [hl] at h; cases h
    | some c0 =>
      rw [hl] at h
      have := key cs c0 hl h
      omega

theorem sum_upsert' {V : Type} (h : Name × V → Nat) (k : Name) (f : Option V → V) : ∀ {m : OMap Name V}, OMap.Sorted m →
    ((OMap.upsert k f m).map h).sum + ((OMap.find? m k).map fun v => h (k, v)).getD 0 = (m.map h).sum + h (k, f (OMap.find? m k))
  | [], _ => by simp [OMap.upsert, OMap.find?]
  | (k', v) :: t, hs => by
    have hs' := List.pairwise_cons.1 hs
    rw [OMap.upsert]
    by_cases h1 : k < k'
    · rw [if_pos h1, OMap.find?_eq_none_of_lt (m := (k', v) :: t)]
      · simp; omega
      · intro p hp
        rcases List.mem_cons.1 hp with rfl | hp
        · exact h1
        · exact lt_trans h1 (hs'.1 p hp)
    · rw [if_neg h1]
      by_cases h2 : k = k'
      · subst h2
        rw [if_pos rfl, OMap.find?, if_pos rfl]
        simp; omega
      · rw [if_neg h2, OMap.find?, if_neg h2]
        have := sum_upsert' h k f hs'.2
        simp only [List.map_cons, List.sum_cons]
        omega

theorem tot_modAt {w : Name → Data → Nat} {m : SymMap} (hm : m.WF) (f : Sym → Sym) {g : Name} {q : List Callsite} {c : Sym} (h : subAt m g q = some c) :
    tot w (modAt m g q f) + symTot w (nameOf g q) c = tot w m + symTot w (nameOf g q) (f c) := by
  unfold subAt at h
  unfold modAt tot
  cases hf : OMap.find? m g with
  | none => rw [hf] at h; cases h
  | some s =>
    rw [hf] at h
    have h1 := sum_upsert' (fun x : Name × Sym => symTot w x.1 x.2) g (fun _ => s.modSub f q) hm.1
    have h2 := symTot_modSub (w := w) f q g s c h
    rw [hf] at h1
    simp only [Option.map_some, Option.getD_some] at h1
    simp only
    unfold OMap.set
    omega

theorem tot_atName {rel : Nat → Nat → Prop} {w : Name → Data → Nat} (hw : Wt rel w) {m : SymMap} (hm : m.WF) (n : Name) {c : Sym} (hc : c.WF) :
    tot w (atName m n fun t => t.merge c) = tot w m + symTot w n c := by
  unfold tot atName
  have h1 := sum_upsert' (fun x : Name × Sym => symTot w x.1 x.2) n (fun o => (o.getD Sym.new).merge c) hm.1
  have h2 := symTot_merge hw n ((OMap.find? m n).getD Sym.new) (hm.get n) c hc
  simp only at h1 ⊢
  rw [h2] at h1
  cases hf : OMap.find? m n with
  | none => rw [hf] at h1; simp only [Option.map_none, Option.getD_none, symTot_new hw] at h1; omega
  | some s => rw [hf] at h1; simp only [Option.map_some, Option.getD_some] at h1; omega

theorem tot_onData {rel : Nat → Nat → Prop} (hr : Rel rel) {w : Name → Data → Nat} {m : SymMap} (hm : m.WF) {g : Name} {q : List Callsite} {h : Data → Data}
    (hh : ∀ n d, OMap.Sorted d.pos → d.pos.TargetsOk → rel (w n d) (w n (h d))) : rel (tot w m) (tot w (modAt m g q (onData h))) := by
  cases hs : subAt m g q with
  | none => rw [modAt_id hm fun c hc => by rw [hs] at hc; cases hc]; exact hr.refl _
  | some c =>
    have h1 := tot_modAt (w := w) hm (onData h) hs
    have hc := (Sym.WF_iff _).1 (subAt_wf hm hs)
    obtain ⟨d, cs⟩ := c
    rw [onData, symTot_mk, symTot_mk] at h1
    have h2 := hr.add (tot w m) (hh (nameOf g q) d hc.1 hc.2.1)
    apply hr.cancel (w (nameOf g q) d)
    have e1 : w (nameOf g q) (h d) + tot w m = tot w (modAt m g q (onData h)) + w (nameOf g q) d := by omega
    rw [e1, Nat.add_comm] at h2
    exact h2

theorem tot_same {rel : Nat → Nat → Prop} {w : Name → Data → Nat} (hw : Wt rel w) {m : SymMap} (hm : m.WF) {g : Name} {q : List Callsite} {f : Sym → Sym}
    (hf : ∀ c, c.WF → (f c).WF ∧ ∀ p, ((f c).node? p).map Data.pos = (c.node? p).map Data.pos) : tot w (modAt m g q f) = tot w m := by
  cases hs : subAt m g q with
  | none => rw [modAt_id hm fun c hc => by rw [hs] at hc; cases hc]
  | some c =>
    have h1 := tot_modAt (w := w) hm f hs
    have hc := subAt_wf hm hs
    rw [symTot_view hw (nameOf g q) (hf c hc).1 hc (hf c hc).2] at h1
    omega

theorem body_pos {a b : Option Data} (h : a.map Data.body' = b.map Data.body') : a.map Data.pos = b.map Data.pos := by
  cases a <;> cases b
  · rfl
  · cases h
  · cases h
  · injection h with h
    exact congrArg some (congrArg Prod.snd h)

theorem flattenInto_pos (k : Callsite) (c : Sym) (d : Data) : (flattenInto k c d).pos =
    PosMap.modify (flattenCallsite d.pos (k, c)) k.1 fun p => { p with count := max p.count (OMap.get0 p.targets k.2) } := rfl

theorem flattenInto_ok (k : Callsite) (c : Sym) (d : Data) (h1 : OMap.Sorted d.pos) (h2 : d.pos.TargetsOk) :
    OMap.Sorted (flattenInto k c d).pos ∧ (flattenInto k c d).pos.TargetsOk := by
  have s1 : OMap.Sorted (flattenCallsite d.pos (k, c)) := PosMap.sorted_modify h1 _ _
  have s2 : PosMap.TargetsOk (flattenCallsite d.pos (k, c)) := PosMap.targetsOk_modify h1 h2 _ _ fun p hp => OMap.Sorted.add hp _
  rw [flattenInto_pos]
  exact ⟨PosMap.sorted_modify s1 _ _, PosMap.targetsOk_modify s1 s2 _ _ fun p hp => hp⟩

/-- What is needed of the recursive call. -/
def RecOk (rel : Nat → Nat → Prop) (w : Name → Data → Nat) (mx depth : Nat) (rec : Name → List Callsite → SymMap → Option (SymMap × Nat)) (g : Name) (q : List Callsite) (m : SymMap) : Prop :=
  ∃ r, rec g q m = some r ∧ Eff mx (fun x => Below g q x ∧ x.2 ≠ q) (Below g q) m r.1 ∧
    (∀ p, (view r.1 (g, q ++ p)).isSome = true → p.length + depth ≤ mx) ∧ rel (tot w m) (tot w r.1)

theorem flattenOne_merge {rel : Nat → Nat → Prop} {w : Name → Data → Nat} (hw : Wt rel w) {mx : Nat} {g : Name} {q : List Callsite} {k : Callsite} {m : SymMap} (hm : m.WF)
    {G D : Name × List Callsite → Prop} (hq : mx ≤ q.length + 1) {c : Sym} (hc : c.WF) (hs : ∀ p, c.node? p = view m (g, (q ++ [k]) ++ p)) (hl : ∀ p, (c.node? p).isSome = true → p.length + 1 ≤ mx) :
    Eff mx G D m (atName m k.2 fun t => t.merge c) ∧ (∃ c', subAt (atName m k.2 fun t => t.merge c) g (q ++ [k]) = some c' ∧
      tot w (atName m k.2 fun t => t.merge c) = tot w m + symTot w k.2 c') ∧
      ∀ p, (view (atName m k.2 fun t => t.merge c) (g, (q ++ [k]) ++ p)).isSome = true → p.length + 1 ≤ mx := by
  have e : Eff mx G (fun _ => False) m (atName m k.2 fun t => t.merge c) := eff_merge hm hc hs hl
  have hv : ∀ p, view (atName m k.2 fun t => t.merge c) (g, (q ++ [k]) ++ p) = c.node? p := fun p => by
    rw [e.far (g, (q ++ [k]) ++ p) (by simp only [List.length_append, List.length_cons, List.length_nil]; omega) (fun h => h), hs]
  have hsm : (subAt (atName m k.2 fun t => t.merge c) g (q ++ [k])).isSome = true := by
    rw [subAt_isSome]
    have := hv []
    rw [List.append_nil] at this
    rw [this, node_root]; rfl
  obtain ⟨c', hc'⟩ := Option.isSome_iff_exists.1 hsm
  refine ⟨e.mono (fun _ h => h) (fun _ h => h.elim), ⟨c', hc', ?_⟩, fun p hp => hl p (by rw [← hv]; exact hp)⟩
  rw [tot_atName hw hm _ hc, symTot_view hw k.2 (subAt_wf e.wf hc') hc fun p => by rw [view_sub hc', hv]]

theorem supp_onData {m : SymMap} (hm : m.WF) (g : Name) (q : List Callsite) (h : Data → Data) (x : Name × List Callsite) :
    (view (modAt m g q (onData h)) x).isSome = (view m x).isSome := by
  rw [view_onData hm]
  split
  · cases view m x <;> rfl
  · rfl

theorem flattenOne_step {rel : Nat → Nat → Prop} (hr : Rel rel) {w : Name → Data → Nat} (hw : Wt rel w) {mx : Nat}
    {rec : Name → List Callsite → SymMap → Option (SymMap × Nat)} {g : Name} {q : List Callsite} {m : SymMap} {k : Callsite} (hm : m.WF) (hq : mx ≤ q.length + 1)
    (hk : (view m (g, q ++ [k])).isSome = true)
    (hrec : ∀ m1 : SymMap, m1.WF → (∀ x, (view m1 x).isSome = (view m x).isSome) → RecOk rel w mx 1 rec g (q ++ [k]) m1) :
    ∃ m' c', flattenOne rec g q m k = some m' ∧ subAt m' g (q ++ [k]) = some c' ∧
      Eff mx (fun x => Below g (q ++ [k]) x ∧ x.2 ≠ q ++ [k]) (fun x => x = (g, q) ∨ Below g (q ++ [k]) x) m m' ∧
      (∀ p, (view m' (g, (q ++ [k]) ++ p)).isSome = true → p.length + 1 ≤ mx) ∧ rel (tot w m + symTot w k.2 c') (tot w m') := by
  generalize hG : (fun x : Name × List Callsite => Below g (q ++ [k]) x ∧ x.2 ≠ q ++ [k]) = G
  generalize hD : (fun x : Name × List Callsite => x = (g, q) ∨ Below g (q ++ [k]) x) = D
  have hD1 : D (g, q) := by rw [← hD]; exact Or.inl rfl
  have hD2 : ∀ x, Below g (q ++ [k]) x → D x := by rw [← hD]; exact fun x h => Or.inr h
  have hG1 : ∀ x, Below g (q ++ [k]) x ∧ x.2 ≠ q ++ [k] → G x := by rw [← hG]; exact fun x h => h
  have hks : (subAt m g (q ++ [k])).isSome = true := by rw [subAt_isSome]; exact hk
  obtain ⟨c0, hc0⟩ := Option.isSome_iff_exists.1 hks
  unfold flattenOne
  rw [hc0, Option.bind_some]
  generalize hh1 : (fun d : Data => { d with total := wsub d.total c0.data.total }) = h1
  have hp1 : ∀ d, (h1 d).pos = d.pos := by rw [← hh1]; exact fun d => rfl
  have e1 : Eff mx G D m (modAt m g q (onData h1)) := eff_onData hm hD1 fun d a b => by rw [hp1]; exact ⟨a, b⟩
  have sup1 : ∀ x, (view (modAt m g q (onData h1)) x).isSome = (view m x).isSome := supp_onData hm g q h1
  have t1 : rel (tot w m) (tot w (modAt m g q (onData h1))) := tot_onData hr hm fun n d _ _ => by
    rw [hw.pos n d (h1 d) (hp1 d).symm]; exact hr.refl _
  obtain ⟨r, hrr, e2, len2, t2⟩ := hrec _ e1.wf sup1
  rw [hrr, Option.bind_some]
  have e2' := e1.trans (e2.mono (G' := G) (D' := D) hG1 hD2)
  have e3 : Eff mx G D r.1 (modAt r.1 g (q ++ [k]) Sym.estimate) := eff_estimate e2.wf hD2
  have t3 : tot w (modAt r.1 g (q ++ [k]) Sym.estimate) = tot w r.1 := tot_same hw e2.wf fun c hc => ⟨estimate_wf c hc, fun p => body_pos (estimate_body c p)⟩
  have sup3 := fun x => isSome_of_body (view_estimate e2.wf g (q ++ [k]) x)
  generalize modAt r.1 g (q ++ [k]) Sym.estimate = m3 at e3 t3 sup3 ⊢
  have e3' := e2'.trans e3
  have hks3 : (view m3 (g, q ++ [k])).isSome = true := by
    cases hv : view m3 (g, q ++ [k]) with
    | some d => rfl
    | none =>
      have := e3'.gone _ hk hv
      rw [← hG] at this
      exact absurd rfl this.2
  obtain ⟨c, hc⟩ := Option.isSome_iff_exists.1 ((subAt_isSome _ g (q ++ [k])).trans hks3)
  have hcw := subAt_wf e3.wf hc
  rw [hc, Option.map_some]
  have e4 : Eff mx G D m3 (modAt m3 g q (onData (flattenInto k c))) := eff_onData e3.wf hD1 (flattenInto_ok k c)
  have t4 : rel (tot w m3) (tot w (modAt m3 g q (onData (flattenInto k c)))) := tot_onData hr e3.wf fun n d hd ht => hw.flat n k c d hd ht
  have hne : ∀ p, (g, (q ++ [k]) ++ p) ≠ (g, q) := fun p h => by
    have := congrArg (fun x : Name × List Callsite => x.2.length) h
    simp at this
  have v4 : ∀ p, view (modAt m3 g q (onData (flattenInto k c))) (g, (q ++ [k]) ++ p) = c.node? p := fun p => by
    rw [view_onData e3.wf, if_neg (hne p), view_sub hc]
  generalize modAt m3 g q (onData (flattenInto k c)) = m4 at e4 t4 v4 ⊢
  have hlc : ∀ p, (c.node? p).isSome = true → p.length + 1 ≤ mx := fun p hp => by
    apply len2 p
    rw [view_sub hc, sup3] at hp
    exact hp
  obtain ⟨e5, ⟨c', hc', t5⟩, l5⟩ := flattenOne_merge (G := G) (D := D) hw e4.wf hq hcw (fun p => (v4 p).symm) hlc
  refine ⟨_, c', rfl, hc', (e3'.trans e4).trans e5, l5, ?_⟩
  rw [t5]
  refine hr.add _ (hr.trans t1 (hr.trans t2 ?_))
  rw [← t3]
  exact t4

/-! ### The loops of `FlattenNestedInlineCallsitesImpl` -/

/-- Places below one of the call sites `ks`. -/
def BelowOne (g : Name) (q : List Callsite) (ks : List Callsite) (x : Name × List Callsite) : Prop := ∃ k ∈ ks, Below g (q ++ [k]) x

/-- Places strictly below one of the call sites `ks`. -/
def StrictOne (g : Name) (q : List Callsite) (ks : List Callsite) (x : Name × List Callsite) : Prop := ∃ k ∈ ks, Below g (q ++ [k]) x ∧ x.2 ≠ q ++ [k]

theorem not_strict {g g' : Name} {q : List Callsite} {ks : List Callsite} {k : Callsite} : ¬ StrictOne g q ks (g', q ++ [k]) := by
  rintro ⟨k', _, ⟨_, h2⟩, h3⟩
  have := h2.eq_of_length (by simp)
  exact h3 this.symm

theorem below_key {g g' : Name} {q p : List Callsite} {k k' : Callsite} (h : Below g (q ++ [k]) (g', (q ++ [k']) ++ p)) : k = k' := by
  obtain ⟨_, r, hr⟩ := h
  simp only [List.append_assoc, List.cons_append, List.nil_append, List.append_cancel_left_eq, List.cons.injEq] at hr
  exact hr.1

theorem Eff.bound {mx H : Nat} {G D : Name × List Callsite → Prop} {m m' : SymMap} (h : Eff mx G D m m') (hH : mx ≤ H + 1)
    (hb : ∀ x, (view m x).isSome = true → x.2.length ≤ H) (x : Name × List Callsite) (hx : (view m' x).isSome = true) : x.2.length ≤ H := by
  cases hv : view m x with
  | none => have := h.new x hv hx; omega
  | some d => exact hb x (by rw [hv]; rfl)

theorem Eff.stays {mx : Nat} {G D : Name × List Callsite → Prop} {m m' : SymMap} (h : Eff mx G D m m') {x : Name × List Callsite} (hx : (view m x).isSome = true) (hG : ¬ G x) :
    (view m' x).isSome = true := by
  cases hv : view m' x with
  | none => exact absurd (h.gone x hx hv) hG
  | some d => rfl

/-- The callee at a place, with a default. -/
def calleeAt (m : SymMap) (g : Name) (q : List Callsite) (k : Callsite) : Sym := (subAt m g (q ++ [k])).getD Sym.new

theorem flatten_loop {rel : Nat → Nat → Prop} (hr : Rel rel) {w : Name → Data → Nat} (hw : Wt rel w) {mx H : Nat} (hH : mx ≤ H + 1)
    {rec : Name → List Callsite → SymMap → Option (SymMap × Nat)} {g : Name} {q : List Callsite} (hq : mx ≤ q.length + 1)
    (hrec : ∀ (k : Callsite) (m1 : SymMap), m1.WF → (view m1 (g, q ++ [k])).isSome = true → (∀ x, (view m1 x).isSome = true → x.2.length ≤ H) → RecOk rel w mx 1 rec g (q ++ [k]) m1) :
    ∀ (ks : List Callsite) (m : SymMap), ks.Nodup → m.WF → (∀ k ∈ ks, (view m (g, q ++ [k])).isSome = true) → (∀ x, (view m x).isSome = true → x.2.length ≤ H) →
    ∃ m', ks.foldlM (flattenOne rec g q) m = some m' ∧ Eff mx (StrictOne g q ks) (fun x => x = (g, q) ∨ BelowOne g q ks x) m m' ∧
      rel (tot w m + (ks.map fun k => symTot w k.2 (calleeAt m' g q k)).sum) (tot w m')
  | [], m, _, hm, _, _ => ⟨m, rfl, Eff.refl hm, by simpa using hr.refl _⟩
  | k :: ks, m, hn, hm, hk, hb => by
    have hn' := List.nodup_cons.1 hn
    obtain ⟨m1, c1, h1, hc1, e1, _, t1⟩ := flattenOne_step hr hw hm hq (hk k (by simp)) fun m1 hm1 hsup =>
      hrec k m1 hm1 (by rw [hsup]; exact hk k (by simp)) fun x hx => hb x (by rw [← hsup]; exact hx)
    have hone : ∀ x : Name × List Callsite, Below g (q ++ [k]) x ∧ x.2 ≠ q ++ [k] → StrictOne g q [k] x := fun x h => ⟨k, by simp, h⟩
    obtain ⟨m2, h2, e2, t2⟩ := flatten_loop hr hw hH hq hrec ks m1 hn'.2 e1.wf
      (fun k' hk' => e1.stays (hk k' (by simp [hk'])) fun h => not_strict (hone _ h)) (e1.bound hH hb)
    refine ⟨m2, ?_, ?_, ?_⟩
    · rw [List.foldlM_cons, h1]; exact h2
    · refine (e1.mono ?_ ?_).trans (e2.mono ?_ ?_)
      · exact fun x h => ⟨k, by simp, h⟩
      · exact fun x h => h.imp id fun h => ⟨k, by simp, h⟩
      · rintro x ⟨k', hk', h⟩; exact ⟨k', by simp [hk'], h⟩
      · exact fun x h => h.imp id fun ⟨k', hk', h⟩ => ⟨k', by simp [hk'], h⟩
    · have hfix : ∀ p, view m2 (g, (q ++ [k]) ++ p) = view m1 (g, (q ++ [k]) ++ p) := fun p => by
        refine e2.far _ (by simp only [List.length_append, List.length_cons, List.length_nil]; omega) ?_
        rintro (h | ⟨k', hk', h⟩)
        · have := congrArg (fun x : Name × List Callsite => x.2.length) h
          simp at this
        · rw [below_key h] at hk'
          exact hn'.1 hk'
      have hs2 : (subAt m2 g (q ++ [k])).isSome = true := by
        have := hfix []
        rw [List.append_nil] at this
        rw [subAt_isSome, this, ← subAt_isSome, hc1]; rfl
      obtain ⟨c2, hc2⟩ := Option.isSome_iff_exists.1 hs2
      have heq : symTot w k.2 c1 = symTot w k.2 (calleeAt m2 g q k) := by
        unfold calleeAt
        rw [hc2, Option.getD_some]
        exact symTot_view hw k.2 (subAt_wf e1.wf hc1) (subAt_wf e2.wf hc2) fun p => by rw [view_sub hc1, view_sub hc2, hfix]
      rw [List.map_cons, List.sum_cons, ← heq, ← Nat.add_assoc]
      exact hr.trans (hr.add _ t1) t2

theorem lookup_self {A : Type} : ∀ {l : List (Callsite × A)}, (l.map Prod.fst).Nodup → ∀ x ∈ l, lookup l x.1 = some x.2
  | [], _, x, hx => by cases hx
  | (k, a) :: t, hn, x, hx => by
    rw [List.map_cons] at hn
    have hn' := List.nodup_cons.1 hn
    rw [lookup]
    rcases List.mem_cons.1 hx with rfl | hx
    · rw [if_pos rfl]
    · have hxm : x.1 ∈ t.map Prod.fst := List.mem_map_of_mem hx
      rw [if_neg, lookup_self hn'.2 x hx]
      intro e
      rw [e] at hxm
      exact hn'.1 hxm

theorem lookup_isSome {A : Type} (k : Callsite) : ∀ l : List (Callsite × A), (lookup l k).isSome = true ↔ k ∈ l.map Prod.fst
  | [] => by simp [lookup]
  | (k', a) :: t => by
    rw [lookup, List.map_cons, List.mem_cons]
    by_cases h : k = k'
    · rw [if_pos h]; simp [h]
    · rw [if_neg h, lookup_isSome k t]; simp [h]

theorem subAt_snoc (m : SymMap) (g : Name) (q : List Callsite) (k : Callsite) : subAt m g (q ++ [k]) = (subAt m g q).bind fun s => lookup s.calls k := by
  have key : ∀ (q : List Callsite) (s : Sym), s.sub? (q ++ [k]) = (s.sub? q).bind fun s => lookup s.calls k := by
    intro q
    induction q with
    | nil =>
      intro s
      simp only [List.nil_append, Sym.sub?, Option.bind_some]
      cases lookup s.calls k <;> rfl
    | cons a q ih =>
      intro s
      simp only [List.cons_append, Sym.sub?]
      cases lookup s.calls a with
      | none => rfl
      | some c => exact ih c
  unfold subAt
  cases OMap.find? m g with
  | none => rfl
  | some s => exact key q s

theorem calls_isSome {m : SymMap} {g : Name} {q : List Callsite} {s : Sym} (h : subAt m g q = some s) (k : Callsite) :
    (view m (g, q ++ [k])).isSome = true ↔ k ∈ s.calls.map Prod.fst := by
  rw [← subAt_isSome, subAt_snoc, h, Option.bind_some, lookup_isSome]

/-- The symbol after the loop at the maximal level, whose call sites are dropped. -/
theorem flatten_clear {rel : Nat → Nat → Prop} (hr : Rel rel) {w : Name → Data → Nat} {mx : Nat} {g : Name} {q : List Callsite} (hq : mx ≤ q.length + 1)
    {m m' : SymMap} (hm : m.WF) {s : Sym} (hs : subAt m g q = some s) (e : Eff mx (StrictOne g q (s.calls.map Prod.fst)) (fun x => x = (g, q) ∨ BelowOne g q (s.calls.map Prod.fst) x) m m')
    (t : rel (tot w m + ((s.calls.map Prod.fst).map fun k => symTot w k.2 (calleeAt m' g q k)).sum) (tot w m')) :
    rel (tot w m) (tot w (modAt m' g q fun s => .mk s.data [])) := by
  have hsv : (view m (g, q)).isSome = true := by rw [← subAt_isSome, hs]; rfl
  have hs' : (subAt m' g q).isSome = true := by
    rw [subAt_isSome]
    refine e.stays hsv ?_
    rintro ⟨k, _, ⟨_, h⟩, _⟩
    have := h.length_le
    simp only [List.length_append, List.length_cons, List.length_nil] at this
    omega
  obtain ⟨s', hs'⟩ := Option.isSome_iff_exists.1 hs'
  have hw' := (Sym.WF_iff _).1 (subAt_wf e.wf hs')
  have hperm : (s.calls.map Prod.fst).Perm (s'.calls.map Prod.fst) := by
    refine (List.perm_ext_iff_of_nodup ((Sym.WF_iff _).1 (subAt_wf hm hs)).2.2.1 hw'.2.2.1).2 fun k => ?_
    rw [← calls_isSome hs, ← calls_isSome hs']
    constructor
    · exact fun h => e.stays h not_strict
    · intro h
      by_contra hc
      have := e.new (g, q ++ [k]) (by simpa using hc) h
      simp only [List.length_append, List.length_cons, List.length_nil] at this
      omega
  have hsum : ((s.calls.map Prod.fst).map fun k => symTot w k.2 (calleeAt m' g q k)).sum = (s'.calls.map fun x => symTot w x.1.2 x.2).sum := by
    rw [(hperm.map _).sum_eq, List.map_map]
    refine sum_map_congr _ _ _ fun x hx => ?_
    simp only [Function.comp_apply]
    unfold calleeAt
    rw [subAt_snoc, hs', Option.bind_some, lookup_self hw'.2.2.1 x hx]; rfl
  obtain ⟨d, cs⟩ := s'
  have h1 : tot w (modAt m' g q fun s => .mk s.data []) + symTot w (nameOf g q) (.mk d cs) = tot w m' + symTot w (nameOf g q) (.mk d []) := tot_modAt (w := w) e.wf (fun s => .mk s.data []) hs'
  rw [hsum] at t
  simp only [Sym.calls] at t
  rw [symTot_mk, symTot_mk, List.map_nil, List.sum_nil] at h1
  apply hr.cancel (cs.map fun x => symTot w x.1.2 x.2).sum
  have : tot w m' = tot w (modAt m' g q fun s => .mk s.data []) + (cs.map fun x => symTot w x.1.2 x.2).sum := by omega
  rw [← this]
  exact t

theorem descend_loop {rel : Nat → Nat → Prop} (hr : Rel rel) {w : Name → Data → Nat} (hw : Wt rel w) {mx H depth : Nat} (hH : mx ≤ H + 1)
    {rec : Name → List Callsite → SymMap → Option (SymMap × Nat)} {g : Name} {q : List Callsite} (hd : depth ≤ q.length + 1)
    (hrec : ∀ (k : Callsite) (m1 : SymMap), m1.WF → (view m1 (g, q ++ [k])).isSome = true → (∀ x, (view m1 x).isSome = true → x.2.length ≤ H) → RecOk rel w mx (depth + 1) rec g (q ++ [k]) m1)
    (h : Nat → Data → Data) (hh : ∀ n d, (h n d).pos = d.pos) :
    ∀ (ks : List Callsite) (m : SymMap), m.WF → (∀ k ∈ ks, (view m (g, q ++ [k])).isSome = true) → (∀ x, (view m x).isSome = true → x.2.length ≤ H) →
    ∃ m', ks.foldlM (fun m k => (rec g (q ++ [k]) m).map fun r => modAt r.1 g q (onData (h r.2))) m = some m' ∧
      Eff mx (StrictOne g q ks) (fun x => x = (g, q) ∨ BelowOne g q ks x) m m' ∧
      (∀ k ∈ ks, ∀ p, (view m' (g, (q ++ [k]) ++ p)).isSome = true → p.length + (depth + 1) ≤ mx) ∧ rel (tot w m) (tot w m')
  | [], m, hm, _, _ => ⟨m, rfl, Eff.refl hm, fun k hk => absurd hk (by simp), hr.refl _⟩
  | k :: ks, m, hm, hk, hb => by
    obtain ⟨r, h1, e1, l1, t1⟩ := hrec k m hm (hk k (by simp)) hb
    have e2 : Eff mx (StrictOne g q [k]) (fun x => x = (g, q) ∨ BelowOne g q [k] x) m (modAt r.1 g q (onData (h r.2))) :=
      (e1.mono (fun x h => ⟨k, by simp, h⟩) (fun x h => Or.inr ⟨k, by simp, h⟩)).trans (eff_onData e1.wf (Or.inl rfl) fun d a b => by rw [hh]; exact ⟨a, b⟩)
    have t2 : rel (tot w m) (tot w (modAt r.1 g q (onData (h r.2)))) := hr.trans t1 (tot_onData hr e1.wf fun n d _ _ => by
      rw [hw.pos n d (h r.2 d) (hh _ d).symm]; exact hr.refl _)
    have l2 : ∀ p, (view (modAt r.1 g q (onData (h r.2))) (g, (q ++ [k]) ++ p)).isSome = true → p.length + (depth + 1) ≤ mx := fun p hp =>
      l1 p (by rw [← supp_onData e1.wf g q (h r.2)]; exact hp)
    obtain ⟨m2, h3, e3, l3, t3⟩ := descend_loop hr hw hH hd hrec h hh ks _ e2.wf (fun k' hk' => e2.stays (hk k' (by simp [hk'])) not_strict) (e2.bound hH hb)
    refine ⟨m2, ?_, ?_, ?_, hr.trans t2 t3⟩
    · rw [List.foldlM_cons, h1]; exact h3
    · refine (e2.mono ?_ ?_).trans (e3.mono ?_ ?_)
      · rintro x ⟨k', hk', h⟩; exact ⟨k', by simp at hk'; simp [hk'], h⟩
      · exact fun x h => h.imp id fun ⟨k', hk', h⟩ => ⟨k', by simp at hk'; simp [hk'], h⟩
      · rintro x ⟨k', hk', h⟩; exact ⟨k', by simp [hk'], h⟩
      · exact fun x h => h.imp id fun ⟨k', hk', h⟩ => ⟨k', by simp [hk'], h⟩
    · intro k' hk' p hp
      rcases List.mem_cons.1 hk' with rfl | hk'
      · cases hv : view (modAt r.1 g q (onData (h r.2))) (g, (q ++ [k']) ++ p) with
        | none =>
          have := e3.new _ hv hp
          simp only [List.length_append, List.length_cons, List.length_nil] at this
          omega
        | some d => exact l2 p (by rw [hv]; rfl)
      · exact l3 k' hk' p hp

theorem nested_ok {rel : Nat → Nat → Prop} (hr : Rel rel) {w : Name → Data → Nat} (hw : Wt rel w) {mx H : Nat} (hH : mx ≤ H + 1) :
    ∀ (fuel depth : Nat) (g : Name) (q : List Callsite) (m : SymMap), m.WF → 1 ≤ depth → depth ≤ mx → depth ≤ q.length + 1 → (view m (g, q)).isSome = true →
    (∀ x, (view m x).isSome = true → x.2.length ≤ H) → H + 1 ≤ fuel + q.length → RecOk rel w mx depth (nested mx fuel depth) g q m
  | 0, depth, g, q, m, _, _, _, _, hv, hb, hf => by
    have := hb _ hv
    simp only at this
    omega
  | fuel + 1, depth, g, q, m, hm, hd1, hd2, hd3, hv, hb, hf => by
    have ih := nested_ok hr hw hH fuel
    obtain ⟨s, hs⟩ := Option.isSome_iff_exists.1 ((subAt_isSome m g q).trans hv)
    have hks : ∀ k ∈ s.calls.map Prod.fst, (view m (g, q ++ [k])).isSome = true := fun k hk => (calls_isSome hs k).2 hk
    have hlen : ∀ k : Callsite, (q ++ [k]).length = q.length + 1 := fun k => by simp
    have hmono : ∀ x, StrictOne g q (s.calls.map Prod.fst) x → Below g q x ∧ x.2 ≠ q := by
      rintro x ⟨k, _, ⟨h1, h2⟩, _⟩
      refine ⟨⟨h1, (List.prefix_append q [k]).trans h2⟩, fun e => ?_⟩
      have := h2.length_le
      rw [hlen, e] at this
      omega
    have hmonoD : ∀ x, (x = (g, q) ∨ BelowOne g q (s.calls.map Prod.fst) x) → Below g q x := by
      rintro x (rfl | ⟨k, _, h1, h2⟩)
      · exact ⟨rfl, List.prefix_rfl⟩
      · exact ⟨h1, (List.prefix_append q [k]).trans h2⟩
    have fin : ∀ m', Eff mx (fun x => Below g q x ∧ x.2 ≠ q) (Below g q) m m' → (∀ p, (view m' (g, q ++ p)).isSome = true → p.length + depth ≤ mx) → rel (tot w m) (tot w m') →
        (if depth = mx then
          ((s.calls.map Prod.fst).foldlM (flattenOne (nested mx fuel 1) g q) m).map fun m => modAt m g q fun s => .mk s.data []
        else
          (s.calls.map Prod.fst).foldlM (fun m k => (nested mx fuel (depth + 1) g (q ++ [k]) m).map fun r =>
            modAt r.1 g q (onData fun d => { d with total := (d.total + r.2) % 2 ^ 64 })) m) = some m' → RecOk rel w mx depth (nested mx (fuel + 1) depth) g q m := by
      intro m' e l t hres
      have h2 : (subAt m' g q).isSome = true := by
        rw [subAt_isSome]
        exact e.stays hv fun h => h.2 rfl
      obtain ⟨s2, hs2⟩ := Option.isSome_iff_exists.1 h2
      refine ⟨(m', wsub s2.data.total s.data.total), ?_, e, l, t⟩
      rw [nested, hs, Option.bind_some, hres, Option.bind_some, hs2, Option.map_some]
    by_cases hdm : depth = mx
    · obtain ⟨m', h1, e1, t1⟩ := flatten_loop hr hw hH (rec := nested mx fuel 1) (g := g) (q := q) (by omega)
        (fun k m1 hm1 hv1 hb1 => ih 1 g (q ++ [k]) m1 hm1 le_rfl (by omega) (by rw [hlen]; omega) hv1 hb1 (by rw [hlen]; omega))
        (s.calls.map Prod.fst) m ((Sym.WF_iff _).1 (subAt_wf hm hs)).2.2.1 hm hks hb
      refine fin (modAt m' g q fun s => .mk s.data []) ?_ ?_ ?_ ?_
      · exact (e1.mono hmono hmonoD).trans (eff_clear e1.wf g q)
      · intro p hp
        rw [view_clear e1.wf] at hp
        by_cases hpn : p = []
        · subst hpn; simp; omega
        · rw [if_pos ⟨rfl, List.prefix_append _ _, by simpa using hpn⟩] at hp; cases hp
      · exact flatten_clear hr (by omega) hm hs e1 t1
      · rw [if_pos hdm, h1, Option.map_some]
    · obtain ⟨m', h1, e1, l1, t1⟩ := descend_loop hr hw hH (rec := nested mx fuel (depth + 1)) (g := g) (q := q) hd3
        (fun k m1 hm1 hv1 hb1 => ih (depth + 1) g (q ++ [k]) m1 hm1 (by omega) (by omega) (by rw [hlen]; omega) hv1 hb1 (by rw [hlen]; omega))
        (fun n d => { d with total := (d.total + n) % 2 ^ 64 }) (fun n d => rfl) (s.calls.map Prod.fst) m hm hks hb
      refine fin m' (e1.mono hmono hmonoD) ?_ t1 ?_
      · intro p hp
        cases p with
        | nil => simpa using hd2
        | cons k p =>
          rw [show q ++ k :: p = (q ++ [k]) ++ p by simp] at hp
          by_cases hk : k ∈ s.calls.map Prod.fst
          · have := l1 k hk p hp
            simp only [List.length_cons]
            omega
          · have hnone : view m (g, (q ++ [k]) ++ p) = none := by
              refine view_none_below ?_ p
              have := mt (calls_isSome hs k).1 hk
              rw [← subAt_isSome] at this
              simpa using this
            have := e1.new _ hnone hp
            simp only [List.length_append, List.length_cons, List.length_nil] at this ⊢
            omega
      · rw [if_neg hdm]; exact h1

/-! ### More fuel does not change the result -/

theorem foldlM_mono {A B : Type} {f g : A → B → Option A} (h : ∀ a b r, f a b = some r → g a b = some r) : ∀ (l : List B) (a r : A), l.foldlM f a = some r → l.foldlM g a = some r
  | [], a, r, hr => hr
  | b :: l, a, r, hr => by
    rw [List.foldlM_cons] at hr ⊢
    cases hf : f a b with
    | none => rw [hf] at hr; cases hr
    | some a' =>
      rw [hf] at hr
      rw [h a b a' hf]
      exact foldlM_mono h l a' r hr

theorem flattenOne_mono {rec rec' : Name → List Callsite → SymMap → Option (SymMap × Nat)} (h : ∀ g q m r, rec g q m = some r → rec' g q m = some r) {g : Name} {q : List Callsite}
    (m : SymMap) (k : Callsite) (r : SymMap) (hr : flattenOne rec g q m k = some r) : flattenOne rec' g q m k = some r := by
  unfold flattenOne at hr ⊢
  obtain ⟨c, hc, hr⟩ := Option.bind_eq_some_iff.1 hr
  obtain ⟨x, hx, hr⟩ := Option.bind_eq_some_iff.1 hr
  rw [hc, Option.bind_some, h _ _ _ _ hx, Option.bind_some]
  exact hr

theorem nested_mono (mx : Nat) : ∀ (fuel depth : Nat) (g : Name) (q : List Callsite) (m : SymMap) (r : SymMap × Nat), nested mx fuel depth g q m = some r →
    nested mx (fuel + 1) depth g q m = some r
  | 0, _, _, _, _, _, h => by rw [nested] at h; cases h
  | fuel + 1, depth, g, q, m, r, h => by
    rw [nested] at h
    rw [nested]
    obtain ⟨s, hs, h⟩ := Option.bind_eq_some_iff.1 h
    obtain ⟨m', hm', h⟩ := Option.bind_eq_some_iff.1 h
    rw [hs, Option.bind_some]
    refine Option.bind_eq_some_iff.2 ⟨m', ?_, h⟩
    split at hm'
    · rename_i hd
      rw [if_pos hd]
      obtain ⟨m1, h1, h2⟩ := Option.map_eq_some_iff.1 hm'
      rw [foldlM_mono (flattenOne_mono fun g q m r => nested_mono mx fuel 1 g q m r) _ _ _ h1, Option.map_some, h2]
    · rename_i hd
      rw [if_neg hd]
      refine foldlM_mono (fun a b r hr => ?_) _ _ _ hm'
      obtain ⟨x, hx, hr⟩ := Option.map_eq_some_iff.1 hr
      rw [nested_mono mx fuel _ _ _ _ _ hx, Option.map_some, hr]

theorem nested_mono' {mx fuel fuel' depth : Nat} (hf : fuel ≤ fuel') {g : Name} {q : List Callsite} {m : SymMap} {r : SymMap × Nat} (h : nested mx fuel depth g q m = some r) :
    nested mx fuel' depth g q m = some r := by
  induction hf with
  | refl => exact h
  | step _ ih => exact nested_mono _ _ _ _ _ _ _ ih

theorem nestedFrom_mono {mx rf rf' : Nat} (hr : rf ≤ rf') : ∀ {fuel fuel' : Nat}, fuel ≤ fuel' → ∀ {x : Option (Name × Sym)} {m : SymMap} {n : Nat} {r : SymMap × Nat},
    nestedFrom mx rf fuel x m n = some r → nestedFrom mx rf' fuel' x m n = some r
  | fuel, fuel', _, none, m, n, r, h => by
    cases fuel <;> cases fuel' <;> exact h
  | 0, _, _, some x, m, n, r, h => by rw [nestedFrom] at h; cases h
  | fuel + 1, 0, hf, some x, m, n, r, h => by omega
  | fuel + 1, fuel' + 1, hf, some x, m, n, r, h => by
    rw [nestedFrom] at h ⊢
    obtain ⟨y, hy, h⟩ := Option.bind_eq_some_iff.1 h
    rw [nested_mono' hr hy, Option.bind_some]
    exact nestedFrom_mono hr (by omega) h

/-! ### The loop over the functions -/

theorem view_root {m : SymMap} (g : Name) : (view m (g, [])).isSome = (OMap.find? m g).isSome := by
  unfold view
  cases OMap.find? m g with
  | none => rfl
  | some s => simp [node_root]

theorem view_fun {m : SymMap} {x : Name × List Callsite} (h : (view m x).isSome = true) : (OMap.find? m x.1).isSome = true := by
  unfold view at h
  cases hf : OMap.find? m x.1 with
  | none => rw [hf] at h; cases h
  | some s => rfl

theorem nestedFrom_ok {rel : Nat → Nat → Prop} (hr : Rel rel) {w : Name → Data → Nat} (hw : Wt rel w) {mx H rf : Nat} (h1 : 1 ≤ mx) (hH : mx ≤ H + 1) (hrf : H + 1 ≤ rf) (N : List Name) :
    ∀ (fuel : Nat) (next : Option (Name × Sym)) (m : SymMap) (n : Nat), m.WF → (∀ x, (view m x).isSome = true → x.2.length ≤ H) →
    (∀ x, (view m x).isSome = true → nameOf x.1 x.2 ∈ N) →
    (∀ x, next = some x → (OMap.find? m x.1).isSome = true ∧ (N.filter fun y => decide (x.1 ≤ y)).length ≤ fuel) →
    (∀ y, (view m y).isSome = true → (∀ x, next = some x → y.1 < x.1) → y.2.length + 1 ≤ mx) →
    ∃ r, nestedFrom mx rf fuel next m n = some r ∧ r.1.WF ∧ (∀ y, (view r.1 y).isSome = true → y.2.length + 1 ≤ mx) ∧ rel (tot w m) (tot w r.1) ∧
      (∀ g, (OMap.find? m g).isSome = true → (OMap.find? r.1 g).isSome = true) ∧
      ∀ x, (view r.1 x).isSome = true → ∃ y, (view m y).isSome = true ∧ stack x <:+ stack y
  | fuel, none, m, n, hm, hb, hN, _, hl => by
    refine ⟨(m, n), ?_, hm, fun y hy => hl y hy fun x hx => absurd hx (by simp), hr.refl _, fun g hg => hg, fun x hx => ⟨x, hx, List.suffix_rfl⟩⟩
    cases fuel <;> rfl
  | 0, some x, m, n, hm, hb, hN, hx, hl => by
    obtain ⟨hx1, hx2⟩ := hx x rfl
    have : x.1 ∈ N.filter fun y => decide (x.1 ≤ y) := by
      rw [List.mem_filter]
      exact ⟨hN (x.1, []) (by rw [view_root]; exact hx1), by simp⟩
    have := List.length_pos_of_mem this
    omega
  | fuel + 1, some x, m, n, hm, hb, hN, hx, hl => by
    obtain ⟨hx1, hx2⟩ := hx x rfl
    have hxN : x.1 ∈ N := hN (x.1, []) (by rw [view_root]; exact hx1)
    obtain ⟨r, hr1, e, l, t⟩ := nested_ok hr hw hH rf 1 x.1 [] m hm le_rfl h1 (by simp) (by rw [view_root]; exact hx1) hb (by simpa using hrf)
    rw [nestedFrom, hr1, Option.bind_some]
    have hnames : ∀ y, (view r.1 y).isSome = true → nameOf y.1 y.2 ∈ N := fun y hy => by
      obtain ⟨z, hz, hzy⟩ := e.names y hy
      rw [nameOf_suffix hzy]; exact hN z hz
    have hstay : ∀ g, (OMap.find? m g).isSome = true → (OMap.find? r.1 g).isSome = true := fun g hg => by
      rw [← view_root] at hg ⊢
      refine e.stays hg fun h => ?_
      exact h.2 rfl
    obtain ⟨r', h', w', l', t', s', n'⟩ := nestedFrom_ok hr hw h1 hH hrf N fuel (OMap.upper? r.1 x.1) r.1 (if r.2 ≠ 0 then n + 1 else n) e.wf (e.bound hH hb) hnames
      (fun y hy => by
        obtain ⟨hy1, hy2⟩ := OMap.upper?_mem hy
        refine ⟨by rw [OMap.find?_some_of_mem e.wf.1 hy1]; rfl, ?_⟩
        have hlt : (N.filter fun z => decide (y.1 ≤ z)).length < (N.filter fun z => decide (x.1 ≤ z)).length := by
          have hsub : (N.filter fun z => decide (y.1 ≤ z)) = (N.filter fun z => decide (x.1 ≤ z)).filter fun z => decide (y.1 ≤ z) := by
            rw [List.filter_filter]
            refine List.filter_congr fun z _ => ?_
            by_cases hz : y.1 ≤ z
            · simp [hz, le_of_lt (lt_of_lt_of_le hy2 hz)]
            · simp [hz]
          rw [hsub]
          refine List.length_filter_lt_length_iff_exists.2 ⟨x.1, List.mem_filter.2 ⟨hxN, by simp⟩, by simpa using hy2⟩
        omega)
      (fun y hy hyn => by
        cases hv : view m y with
        | none => exact e.new y hv hy
        | some d =>
          rcases lt_trichotomy y.1 x.1 with h | h | h
          · exact hl y (by rw [hv]; rfl) fun z hz => by injection hz with hz; rw [← hz]; exact h
          · exact l y.2 (by rw [List.nil_append, ← h]; exact hy)
          · exfalso
            obtain ⟨sy, hsy⟩ := Option.isSome_iff_exists.1 (view_fun hy)
            have hmem := OMap.mem_of_find?_some hsy
            cases hu : OMap.upper? r.1 x.1 with
            | none => exact absurd (OMap.upper?_eq_none.1 hu _ hmem) (not_le.2 h)
            | some z => exact absurd (OMap.upper?_least e.wf.1 hu hmem h) (not_le.2 (hyn z hu)))
    refine ⟨r', h', w', l', hr.trans t t', fun g hg => s' g (hstay g hg), fun y hy => ?_⟩
    obtain ⟨z, hz, hzy⟩ := n' y hy
    obtain ⟨u, hu, huz⟩ := e.names z hz
    exact ⟨u, hu, hzy.trans huz⟩

/-- The places of a profile. -/
def allPlaces (m : SymMap) : List (Name × List Callsite) := m.flatMap fun x => x.2.nodes.map fun y => (x.1, y.1)

theorem mem_allPlaces {m : SymMap} (hm : m.WF) (x : Name × List Callsite) : x ∈ allPlaces m ↔ (view m x).isSome = true := by
  unfold allPlaces
  rw [List.mem_flatMap]
  constructor
  · rintro ⟨s, hs, hx⟩
    obtain ⟨y, hy, rfl⟩ := List.mem_map.1 hx
    unfold view
    simp only
    rw [OMap.find?_some_of_mem hm.1 hs, Option.bind_some, (mem_nodes y.1 y.2 s.2 (hm.2 _ hs)).1 hy]; rfl
  · intro h
    unfold view at h
    cases hf : OMap.find? m x.1 with
    | none => rw [hf] at h; cases h
    | some s =>
      rw [hf, Option.bind_some] at h
      have hmem := OMap.mem_of_find?_some hf
      obtain ⟨d, hd⟩ := Option.isSome_iff_exists.1 h
      exact ⟨_, hmem, List.mem_map.2 ⟨(x.2, d), (mem_nodes _ _ _ (hm.2 _ hmem)).2 hd, rfl⟩⟩

theorem exists_bound (l : List (Name × List Callsite)) (n : Nat) : ∃ H, n ≤ H + 1 ∧ ∀ x ∈ l, x.2.length ≤ H := by
  induction l with
  | nil => exact ⟨n, by omega, fun x hx => by cases hx⟩
  | cons y l ih =>
    obtain ⟨H, h1, h2⟩ := ih
    refine ⟨H + y.2.length, by omega, fun x hx => ?_⟩
    rcases List.mem_cons.1 hx with rfl | hx
    · omega
    · have := h2 x hx; omega

end Verif.SymbolMap

import Verif.Scc

namespace Verif.Scc

variable {E : Nat → List Nat} {ns : List Nat}

/-! ### Specification -/

/-- `a` can call `b`, directly or not. -/
def Reach (E : Nat → List Nat) : Nat → Nat → Prop := Relation.ReflTransGen fun a b => b ∈ E a

/-- Two functions that can call each other. -/
def Mutual (E : Nat → List Nat) (a b : Nat) : Prop := Reach E a b ∧ Reach E b a

/-- The callees of the functions of the graph are in the graph. -/
def Closed (E : Nat → List Nat) (ns : List Nat) : Prop := ∀ v ∈ ns, ∀ w ∈ E v, w ∈ ns

/-! ### Grouping -/

/-- The state while the functions `P` are being visited, innermost first. -/
structure Inv (E : Nat → List Nat) (ns P : List Nat) (s : St) : Prop where
  nodup : s.stack.Nodup
  path : ∀ p ∈ P, p ∈ s.stack
  sorted : P.Pairwise fun a b => s.idx b < s.idx a
  chain : P.Pairwise fun a b => Reach E b a
  visited : ∀ v, s.idx v ≠ 0 ↔ (v ∈ s.stack ∨ (s.scc v).isSome)
  disj : ∀ v ∈ s.stack, s.scc v = none
  inNs : ∀ v, s.idx v ≠ 0 → v ∈ ns
  lowle : ∀ v ∈ s.stack, s.low v ≤ s.idx v
  fin : ∀ v ∈ s.stack, v ∉ P → s.low v < s.idx v
  wit : ∀ pre v rest, s.stack = pre ++ v :: rest → ∃ u ∈ v :: rest, s.idx u = s.low v ∧ Reach E v u
  above : ∀ pre p rest, s.stack = pre ++ p :: rest → p ∈ P → ∀ x ∈ pre, s.idx p < s.idx x ∧ Reach E p x
  sound : ∀ v r, s.scc v = some r → Mutual E v r
  root : ∀ v r, s.scc v = some r → s.scc r = some r

theorem Inv.toPath {P : List Nat} {s : St} (h : Inv E ns P s) : ∀ v ∈ s.stack, ∃ p ∈ P, Reach E v p := by
  have : ∀ n v, s.idx v = n → v ∈ s.stack → ∃ p ∈ P, Reach E v p := by
    intro n
    induction n using Nat.strongRecOn with
    | _ n ih =>
      intro v hv hm
      by_cases hp : v ∈ P
      · exact ⟨v, hp, Relation.ReflTransGen.refl⟩
      · have hf := h.fin v hm hp
        obtain ⟨pre, rest, e⟩ := List.append_of_mem hm
        obtain ⟨u, hu, e1, r1⟩ := h.wit pre v rest e
        obtain ⟨p, hp, r2⟩ := ih (s.idx u) (by omega) u rfl (by rw [e]; simp only [List.mem_append]; right; exact hu)
        exact ⟨p, hp, Relation.ReflTransGen.trans r1 r2⟩
  exact fun v hm => this _ v rfl hm

theorem popTo_ok (v : Nat) : ∀ (pre rest : List Nat) (scc : Nat → Option Nat), v ∉ pre → ∃ scc',
    popTo v (pre ++ v :: rest) scc = some (rest, scc') ∧
    ∀ x, scc' x = if x ∈ pre ++ [v] then (scc x).or (some v) else scc x := by
  intro pre
  induction pre with
  | nil =>
    intro rest scc _
    refine ⟨emplace scc v v, by simp [popTo], fun x => ?_⟩
    by_cases hx : x = v <;> simp [emplace, hx]
  | cons m pre ih =>
    intro rest scc hv
    rw [List.mem_cons, not_or] at hv
    obtain ⟨scc', e, h⟩ := ih rest (emplace scc m v) hv.2
    refine ⟨scc', ?_, fun x => ?_⟩
    · rw [List.cons_append, popTo, if_neg (Ne.symm hv.1), e]
    · rw [h x]
      by_cases hx : x = m
      · subst hx
        by_cases hx' : x ∈ pre ++ [v] <;> simp [emplace, hx']
      · simp [emplace, hx]

/-- What a visit of a new function leaves as it was. -/
structure Step (s s' : St) : Prop where
  idx : ∀ x, s.idx x ≠ 0 → s'.idx x = s.idx x
  low : ∀ x, s.idx x ≠ 0 → s'.low x = s.low x

theorem Step.refl (s : St) : Step s s := ⟨fun _ _ => rfl, fun _ _ => rfl⟩

theorem Step.trans {s t u : St} (h : Step s t) (h' : Step t u) : Step s u where
  idx := fun x hx => (h'.idx x (by rw [h.idx x hx]; exact hx)).trans (h.idx x hx)
  low := fun x hx => (h'.low x (by rw [h.idx x hx]; exact hx)).trans (h.low x hx)

/-- Entering a new function. -/
theorem Inv.push {P : List Nat} {s : St} (h : Inv E ns P s) {v i : Nat} (hv : s.idx v = 0) (hns : v ∈ ns) (hi : ∀ p ∈ P, s.idx p < i) (hi0 : 0 < i)
    (hr : ∀ p ∈ P, Reach E p v) :
    Inv E ns (v :: P) { s with idx := upd s.idx v i, low := upd s.low v i, stack := v :: s.stack } := by
  have hvs : v ∉ s.stack := fun hm => (h.visited v).2 (Or.inl hm) hv
  have hvc : s.scc v = none := by
    cases e : s.scc v with
    | none => rfl
    | some r => exact absurd hv ((h.visited v).2 (Or.inr (by simp [e])))
  have hne : ∀ x ∈ s.stack, x ≠ v := fun x hx e => hvs (e ▸ hx)
  have hpne : ∀ x ∈ P, x ≠ v := fun x hx => hne x (h.path x hx)
  constructor
  · exact List.nodup_cons.2 ⟨hvs, h.nodup⟩
  · intro p hp
    rcases List.mem_cons.1 hp with rfl | hp
    · simp
    · exact List.mem_cons_of_mem _ (h.path p hp)
  · refine List.pairwise_cons.2 ⟨fun p hp => ?_, ?_⟩
    · simp only [upd, if_neg (hpne p hp), if_true]; exact hi p hp
    · refine h.sorted.imp_of_mem fun {a b} ha hb hab => ?_
      simpa only [upd, if_neg (hpne a ha), if_neg (hpne b hb)] using hab
  · exact List.pairwise_cons.2 ⟨fun p hp => hr p hp, h.chain⟩
  · intro x
    by_cases hx : x = v
    · subst hx; simp [upd]; omega
    · simp only [upd, List.mem_cons, hx, false_or]; exact h.visited x
  · intro x hx
    rcases List.mem_cons.1 hx with rfl | hx
    · exact hvc
    · exact h.disj x hx
  · intro x hx
    by_cases e : x = v
    · exact e ▸ hns
    · simp only [upd, if_neg e] at hx; exact h.inNs x hx
  · intro x hx
    by_cases e : x = v
    · simp [upd, e]
    · simp only [upd, if_neg e]
      exact h.lowle x ((List.mem_cons.1 hx).resolve_left e)
  · intro x hx hxp
    rw [List.mem_cons, not_or] at hxp
    simp only [upd, if_neg hxp.1]
    exact h.fin x ((List.mem_cons.1 hx).resolve_left hxp.1) hxp.2
  · intro pre x rest e
    cases pre with
    | nil =>
      simp only [List.nil_append, List.cons.injEq] at e
      obtain ⟨rfl, rfl⟩ := e
      exact ⟨v, by simp, by simp [upd], Relation.ReflTransGen.refl⟩
    | cons a pre =>
      simp only [List.cons_append, List.cons.injEq] at e
      obtain ⟨u, hu, e1, r⟩ := h.wit pre x rest e.2
      refine ⟨u, hu, ?_, r⟩
      have hxs : ∀ y ∈ x :: rest, y ≠ v := fun y hy => hne y (by rw [e.2]; simp only [List.mem_append]; right; exact hy)
      simp only [upd, if_neg (hxs u hu), if_neg (hxs x (by simp))]
      exact e1
  · intro pre p rest e hp x hx
    cases pre with
    | nil => cases hx
    | cons a pre =>
      simp only [List.cons_append, List.cons.injEq] at e
      have hps : p ∈ s.stack := by rw [e.2]; simp
      have hp' := (List.mem_cons.1 hp).resolve_left (hne p hps)
      rcases List.mem_cons.1 hx with rfl | hx
      · rw [← e.1]
        simp only [upd, if_neg (hne p hps), if_true]
        exact ⟨hi p hp', hr p hp'⟩
      · have := h.above pre p rest e.2 hp' x hx
        have hxs : x ∈ s.stack := by rw [e.2]; simp [hx]
        simp only [upd, if_neg (hne p hps), if_neg (hne x hxs)]
        exact this
  · exact h.sound
  · exact h.root

/-- Lowering the link of the function being visited. -/
theorem Inv.lowmin {P : List Nat} {s : St} {v w : Nat} (h : Inv E ns (v :: P) s) (hw : w ∈ s.stack ∨ s.idx v ≤ s.low w) (hvw : w ∈ E v) :
    Inv E ns (v :: P) (lowmin v w s) := by
  have hvs := h.path v (by simp)
  by_cases hlt : s.low w < s.low v
  swap
  · have : Scc.lowmin v w s = s := by
      unfold Scc.lowmin
      have : upd s.low v (min (s.low v) (s.low w)) = s.low := by
        funext x
        unfold upd
        split
        · rename_i e; rw [e, Nat.min_eq_left (by omega)]
        · rfl
      rw [this]
    rw [this]; exact h
  have hle := h.lowle v hvs
  have hws := hw.resolve_right (by omega)
  have hmin : min (s.low v) (s.low w) = s.low w := Nat.min_eq_right (by omega)
  unfold Scc.lowmin
  rw [hmin]
  constructor <;> try first | exact h.nodup | exact h.path | exact h.sorted | exact h.chain | exact h.visited | exact h.disj | exact h.inNs | exact h.above | exact h.sound | exact h.root
  · intro x hx
    by_cases e : x = v
    · subst e; simp only [upd, if_true]; omega
    · simp only [upd, if_neg e]; exact h.lowle x hx
  · intro x hx hxp
    rw [List.mem_cons, not_or] at hxp
    simp only [upd, if_neg hxp.1]
    exact h.fin x hx (by simp [hxp])
  · intro pre x rest e
    by_cases ex : x = v
    · subst ex
      simp only [upd, if_true]
      obtain ⟨prew, restw, ew⟩ := List.append_of_mem hws
      obtain ⟨u, hu, e1, r⟩ := h.wit prew w restw ew
      refine ⟨u, ?_, e1, Relation.ReflTransGen.head hvw r⟩
      have hus : u ∈ s.stack := by rw [ew]; simp only [List.mem_append]; right; exact hu
      rw [e] at hus
      rcases List.mem_append.1 hus with hup | hup
      · have := (h.above pre x rest e (by simp) u hup).1
        omega
      · exact hup
    · simp only [upd, if_neg ex]
      exact h.wit pre x rest e

/-- Leaving a function. -/
theorem Inv.finish {P : List Nat} {s : St} {v : Nat} (h : Inv E ns (v :: P) s) :
    ∃ s', finish v s = some s' ∧ Inv E ns P s' ∧ s'.idx = s.idx ∧ s'.low = s.low := by
  have hvs := h.path v (by simp)
  unfold Scc.finish
  by_cases hl : s.idx v = s.low v
  swap
  · rw [if_neg hl]
    refine ⟨s, rfl, ?_, rfl, rfl⟩
    refine ⟨h.nodup, fun p hp => h.path p (by simp [hp]), (List.pairwise_cons.1 h.sorted).2, (List.pairwise_cons.1 h.chain).2,
      h.visited, h.disj, h.inNs, h.lowle, fun x hx hxp => ?_, h.wit, fun pre p rest e hp => h.above pre p rest e (by simp [hp]), h.sound, h.root⟩
    by_cases e : x = v
    · have := h.lowle v hvs; subst e; omega
    · exact h.fin x hx (by simp [e, hxp])
  · rw [if_pos hl]
    obtain ⟨pre, rest, e⟩ := List.append_of_mem hvs
    have hnd := h.nodup
    rw [e] at hnd
    have hvp : v ∉ pre := fun hm => (List.nodup_append.1 hnd).2.2 v hm v (by simp) rfl
    obtain ⟨scc', ep, hs⟩ := popTo_ok v pre rest s.scc hvp
    rw [e, ep]
    refine ⟨_, rfl, ?_, rfl, rfl⟩
    have hgrp : ∀ x ∈ pre ++ [v], x ∈ s.stack := by
      intro x hx; rw [e]
      rcases List.mem_append.1 hx with hx | hx
      · simp [hx]
      · simp at hx; simp [hx]
    have hnone : ∀ x ∈ pre ++ [v], scc' x = some v := by
      intro x hx
      rw [hs x, if_pos hx, h.disj x (hgrp x hx)]; rfl
    have hkeep : ∀ x, x ∉ pre ++ [v] → scc' x = s.scc x := fun x hx => by rw [hs x, if_neg hx]
    have hrest : ∀ x ∈ rest, x ∉ pre ++ [v] := by
      intro x hx hm
      rcases List.mem_append.1 hm with hm | hm
      · exact (List.nodup_append.1 hnd).2.2 x hm x (by simp [hx]) rfl
      · simp at hm; subst hm
        exact (List.nodup_cons.1 (List.nodup_append.1 hnd).2.1).1 hx
    have hmut : ∀ x ∈ pre ++ [v], Mutual E x v := by
      intro x hx
      have hxv : Reach E v x := by
        rcases List.mem_append.1 hx with hx | hx
        · exact (h.above pre v rest e (by simp) x hx).2
        · simp at hx; subst hx; exact Relation.ReflTransGen.refl
      obtain ⟨p, hp, r⟩ := h.toPath x (hgrp x hx)
      refine ⟨?_, hxv⟩
      rcases List.mem_cons.1 hp with rfl | hp
      · exact r
      · exact Relation.ReflTransGen.trans r ((List.pairwise_cons.1 h.chain).1 p hp)
    have hstack : ∀ x, x ∈ s.stack ↔ (x ∈ pre ++ [v] ∨ x ∈ rest) := by
      intro x; rw [e]; simp [or_assoc]
    constructor
    · exact (List.nodup_cons.1 (List.nodup_append.1 hnd).2.1).2
    · intro p hp
      rcases (hstack p).1 (h.path p (by simp [hp])) with hm | hm
      · exfalso
        have hlt := (List.pairwise_cons.1 h.sorted).1 p hp
        rcases List.mem_append.1 hm with hm | hm
        · have := (h.above pre v rest e (by simp) p hm).1; omega
        · simp at hm; subst hm; omega
      · exact hm
    · exact (List.pairwise_cons.1 h.sorted).2
    · exact (List.pairwise_cons.1 h.chain).2
    · intro x
      show s.idx x ≠ 0 ↔ (x ∈ rest ∨ (scc' x).isSome = true)
      rw [h.visited x, hstack x]
      by_cases hx : x ∈ pre ++ [v]
      · rw [hnone x hx]; simp [hx]
      · rw [hkeep x hx]; simp only [hx, false_or]
    · intro x hx
      show scc' x = none
      rw [hkeep x (hrest x hx)]
      exact h.disj x ((hstack x).2 (Or.inr hx))
    · exact h.inNs
    · intro x hx; exact h.lowle x ((hstack x).2 (Or.inr hx))
    · intro x hx hxp
      refine h.fin x ((hstack x).2 (Or.inr hx)) ?_
      rw [List.mem_cons, not_or]
      exact ⟨fun ee => hrest x hx (by simp [ee]), hxp⟩
    · intro pre' x rest' e'
      refine h.wit (pre ++ v :: pre') x rest' ?_
      rw [e, show rest = pre' ++ x :: rest' from e']; simp
    · intro pre' p rest' e' hp x hx
      refine h.above (pre ++ v :: pre') p rest' ?_ (by simp [hp]) x (by simp [hx])
      rw [e, show rest = pre' ++ p :: rest' from e']; simp
    · intro x r hr
      change scc' x = some r at hr
      by_cases hx : x ∈ pre ++ [v]
      · rw [hnone x hx] at hr; cases hr; exact hmut x hx
      · exact h.sound x r (by rw [← hkeep x hx]; exact hr)
    · intro x r hr
      change scc' x = some r at hr
      show scc' r = some r
      by_cases hx : x ∈ pre ++ [v]
      · rw [hnone x hx] at hr; cases hr; exact hnone v (by simp)
      · have h1 := h.root x r (by rw [← hkeep x hx]; exact hr)
        rw [hkeep r, h1]
        intro hm
        have := h.disj r (hgrp r hm)
        rw [h1] at this; cases this

/-- How many functions have not been visited. -/
def todo (ns : List Nat) (s : St) : Nat := (ns.filter fun x => s.idx x = 0).length

theorem todo_le {s s' : St} (h : ∀ x, s.idx x ≠ 0 → s'.idx x ≠ 0) : todo ns s' ≤ todo ns s := by
  refine List.Sublist.length_le ?_
  refine List.monotone_filter_right ns fun x hx => ?_
  simp only [decide_eq_true_eq] at hx ⊢
  by_contra hc
  exact h x hc hx

theorem todo_lt {s s' : St} {v : Nat} (hv : v ∈ ns) (h0 : s.idx v = 0) (h1 : s'.idx v ≠ 0) (h : ∀ x, s.idx x ≠ 0 → s'.idx x ≠ 0) :
    todo ns s' < todo ns s := by
  unfold todo
  have hsub : (ns.filter fun x => s'.idx x = 0).Sublist (ns.filter fun x => s.idx x = 0) := by
    refine List.monotone_filter_right ns fun x hx => ?_
    simp only [decide_eq_true_eq] at hx ⊢
    by_contra hc
    exact h x hc hx
  rcases Nat.lt_or_ge (ns.filter fun x => s'.idx x = 0).length (ns.filter fun x => s.idx x = 0).length with hlt | hge
  · exact hlt
  · exfalso
    have := hsub.eq_of_length_le hge
    have hm : v ∈ ns.filter fun x => s.idx x = 0 := by simp [hv, h0]
    rw [← this] at hm
    simp at hm
    exact h1 hm.2

theorem connect_ok (hc : Closed E ns) : ∀ (fuel i v : Nat) (s : St) (P : List Nat), Inv E ns P s → s.idx v = 0 → v ∈ ns →
    (∀ p ∈ P, s.idx p < i) → 0 < i → (∀ p ∈ P, Reach E p v) → todo ns s ≤ fuel →
    ∃ s', connect E fuel i v s = some s' ∧ Inv E ns P s' ∧ Step s s' ∧ s'.idx v = i ∧ (v ∈ s'.stack ∨ s'.low v = i) := by
  intro fuel
  induction fuel with
  | zero =>
    intro i v s P _ hv hns _ _ _ hf
    exfalso
    have : v ∈ ns.filter fun x => s.idx x = 0 := by simp [hns, hv]
    unfold todo at hf
    rw [List.eq_nil_of_length_eq_zero (Nat.le_zero.1 hf)] at this
    cases this
  | succ fuel ih =>
    intro i v s P h hv hns hi hi0 hr hf
    have h1 := h.push hv hns hi hi0 hr
    rw [connect]
    generalize hs1 : ({ s with idx := upd s.idx v i, low := upd s.low v i, stack := v :: s.stack } : St) = s1 at h1
    have hidx : s1.idx v = i := by rw [← hs1]; simp [upd]
    have hst : Step s s1 := by
      rw [← hs1]
      constructor <;> intro x hx <;> (have : x ≠ v := fun e => hx (e ▸ hv)) <;> simp [upd, this]
    have htodo : todo ns s1 ≤ fuel := by
      have := todo_lt (s := s) (s' := s1) hns hv (by omega) (fun x hx => by rw [hst.idx x hx]; exact hx)
      omega
    have key : ∀ (ws : List Nat), (∀ w ∈ ws, w ∈ E v) → ∀ s1, Inv E ns (v :: P) s1 → s1.idx v = i → Step s s1 → todo ns s1 ≤ fuel →
        ∃ s2, ws.foldlM (visit (connect E fuel (i + 1)) v) s1 = some s2 ∧ Inv E ns (v :: P) s2 ∧ s2.idx v = i ∧ Step s s2 := by
      intro ws
      induction ws with
      | nil => intro _ s1 h1 h2 h3 _; exact ⟨s1, rfl, h1, h2, h3⟩
      | cons w ws ihw =>
        intro hws s1 h1 h2 h3 h4
        have hwE := hws w (by simp)
        have hlm : ∀ s1 : St, Inv E ns (v :: P) s1 → Step s s1 → Step s (lowmin v w s1) := by
          intro s1 _ h3
          refine ⟨h3.idx, fun x hx => ?_⟩
          have hxv : x ≠ v := fun e => hx (e ▸ hv)
          simp only [lowmin, upd, if_neg hxv]
          exact h3.low x hx
        have hgo : ∃ s2, visit (connect E fuel (i + 1)) v s1 w = some s2 ∧ Inv E ns (v :: P) s2 ∧ s2.idx v = i ∧ Step s s2 ∧ todo ns s2 ≤ fuel := by
          unfold visit
          by_cases hw0 : s1.idx w = 0
          · rw [if_pos hw0]
            obtain ⟨s2, e2, i2, st2, w2, l2⟩ := ih (i + 1) w s1 (v :: P) h1 hw0 (hc v hns w hwE) (by
                intro p hp
                rcases List.mem_cons.1 hp with rfl | hp
                · omega
                · have := (List.pairwise_cons.1 h1.sorted).1 p hp; omega) (by omega) (by
                intro p hp
                rcases List.mem_cons.1 hp with rfl | hp
                · exact Relation.ReflTransGen.single hwE
                · exact Relation.ReflTransGen.tail ((List.pairwise_cons.1 h1.chain).1 p hp) hwE) h4
            rw [e2, Option.map_some]
            have hv2 : s2.idx v = i := by rw [st2.idx v (by omega)]; exact h2
            have i3 := i2.lowmin (w := w) (by rcases l2 with l2 | l2; exact Or.inl l2; right; omega) hwE
            refine ⟨_, rfl, i3, hv2, hlm s2 i2 (h3.trans st2), ?_⟩
            have := todo_le (ns := ns) (s := s1) (s' := lowmin v w s2) (fun x hx => by
              show s2.idx x ≠ 0
              rw [st2.idx x hx]; exact hx)
            omega
          · rw [if_neg hw0]
            by_cases hws' : w ∈ s1.stack
            · rw [if_pos hws']
              exact ⟨_, rfl, h1.lowmin (Or.inl hws') hwE, h2, hlm s1 h1 h3, h4⟩
            · rw [if_neg hws']
              exact ⟨_, rfl, h1, h2, h3, h4⟩
        obtain ⟨s2, e2, i2, v2, st2, t2⟩ := hgo
        obtain ⟨s3, e3, i3⟩ := ihw (fun x hx => hws x (by simp [hx])) s2 i2 v2 st2 t2
        refine ⟨s3, ?_, i3⟩
        rw [List.foldlM_cons, e2]
        exact e3
    obtain ⟨s2, e2, i2, v2, st2⟩ := key (E v) (fun _ h => h) s1 h1 hidx hst htodo
    rw [e2, Option.bind_some]
    obtain ⟨s3, e3, i3, ei, el⟩ := i2.finish
    refine ⟨s3, e3, i3, ⟨fun x hx => by rw [ei]; exact st2.idx x hx, fun x hx => by rw [el]; exact st2.low x hx⟩, by rw [ei]; exact v2, ?_⟩
    by_cases hl : s2.idx v = s2.low v
    · right; rw [el]; omega
    · left
      unfold finish at e3
      rw [if_neg hl] at e3
      cases e3
      exact i2.path v (by simp)

theorem Inv.start : Inv E ns [] {} := by
  constructor <;> simp

/-- **C17: the grouping terminates, and puts every function in exactly one group, together only with functions it can call and
be called by.** -/
theorem findScc_ok (hc : Closed E ns) : ∃ st, findScc E ns = some st ∧
    (∀ v ∈ ns, ∃ r ∈ ns, st.scc v = some r ∧ st.scc r = some r ∧ Mutual E v r) ∧ st.stack = [] := by
  unfold findScc
  have key : ∀ (l : List Nat) (s : St), (∀ v ∈ l, v ∈ ns) → Inv E ns [] s → todo ns s ≤ ns.length →
      ∃ s', l.foldlM (fun s v => if s.idx v = 0 then connect E ns.length 1 v s else some s) s = some s' ∧ Inv E ns [] s' ∧
        (∀ x, s.idx x ≠ 0 → s'.idx x ≠ 0) ∧ ∀ v ∈ l, s'.idx v ≠ 0 := by
    intro l
    induction l with
    | nil => intro s _ h _; exact ⟨s, rfl, h, fun _ h => h, by simp⟩
    | cons v l ih =>
      intro s hl h ht
      have : ∃ s1, (if s.idx v = 0 then connect E ns.length 1 v s else some s) = some s1 ∧ Inv E ns [] s1 ∧
          (∀ x, s.idx x ≠ 0 → s1.idx x ≠ 0) ∧ s1.idx v ≠ 0 := by
        by_cases hv : s.idx v = 0
        · rw [if_pos hv]
          obtain ⟨s1, e1, i1, st1, v1, _⟩ := connect_ok hc ns.length 1 v s [] h hv (hl v (by simp)) (by simp) (by omega) (by simp) ht
          exact ⟨s1, e1, i1, fun x hx => by rw [st1.idx x hx]; exact hx, by omega⟩
        · rw [if_neg hv]; exact ⟨s, rfl, h, fun _ h => h, hv⟩
      obtain ⟨s1, e1, i1, m1, v1⟩ := this
      obtain ⟨s2, e2, i2, m2, v2⟩ := ih s1 (fun x hx => hl x (by simp [hx])) i1 (by unfold todo; exact List.length_filter_le _ _)
      refine ⟨s2, ?_, i2, fun x hx => m2 x (m1 x hx), ?_⟩
      · rw [List.foldlM_cons]
        rw [e1]; exact e2
      · intro x hx
        rcases List.mem_cons.1 hx with rfl | hx
        · exact m2 _ v1
        · exact v2 x hx
  obtain ⟨st, e, i, _, hv⟩ := key ns {} (fun _ h => h) Inv.start (by unfold todo; exact List.length_filter_le _ _)
  have hempty : st.stack = [] := by
    refine List.eq_nil_iff_forall_not_mem.2 fun x hx => ?_
    obtain ⟨p, hp, _⟩ := i.toPath x hx
    cases hp
  refine ⟨st, e, ?_, hempty⟩
  intro v hvn
  have hvis := (i.visited v).1 (hv v hvn)
  rw [hempty] at hvis
  have hsome := hvis.resolve_left (by simp)
  obtain ⟨r, hr⟩ := Option.isSome_iff_exists.1 hsome
  have hrr := i.root v r hr
  exact ⟨r, i.inNs r ((i.visited r).2 (Or.inr (by simp [hrr]))), hr, hrr, i.sound v r hr⟩

end Verif.Scc

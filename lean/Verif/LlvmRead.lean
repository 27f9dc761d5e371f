import Verif.LlvmProf
import Verif.Attribution
import Verif.ComputeMain
import Verif.SourceOffsetProps

/-! Reading LLVM profiles (C56). -/
namespace Verif.SymbolMap

open Verif.Compute (sum_flatMap sum_zero sum_map_congr)

/-! ### Specification -/

mutual
/-- All inline instances of a function with their inline paths (the function itself has the empty path). -/
def Sym.nodes : Sym → List (List Callsite × Data)
  | .mk d cs => ([], d) :: nodesCalls cs
def nodesCalls : List (Callsite × Sym) → List (List Callsite × Data)
  | [] => []
  | (k, c) :: t => c.nodes.map (fun x => (k :: x.1, x.2)) ++ nodesCalls t
end

/-- The counts of all locations of an instance. -/
def Data.body (d : Data) : Nat := (d.pos.map fun x => x.2.count).sum

/-- The counts of all locations of the instance `p` and of everything inlined into it. -/
def Sym.bodyBelow (s : Sym) (p : List Callsite) : Nat := ((s.nodes.filter fun x => p.isPrefixOf x.1).map fun x => x.2.body).sum

/-- The count of a call target, if there is one. -/
def Sym.target? (s : Sym) (p : List Callsite) (loc : Nat) (t : Name) : Option Nat :=
  (s.node? p).bind fun d => (OMap.find? d.pos loc).bind fun i => OMap.find? i.targets t

/-- Whether there is a count for a location. -/
def Sym.hasLoc (s : Sym) (p : List Callsite) (loc : Nat) : Bool := ((s.node? p).bind fun d => OMap.find? d.pos loc).isSome

/-- Locations are 64-bit numbers (line and discriminator). -/
def Sym.LocsOk (s : Sym) : Prop := ∀ x ∈ s.nodes, (∀ k ∈ x.1, k.1 < 2 ^ 64) ∧ ∀ y ∈ x.2.pos, y.1 < 2 ^ 64

/-- The suffixes of call targets have been elided. -/
def Sym.TargetsElided (pol : Policy) (s : Sym) : Prop := ∀ x ∈ s.nodes, ∀ y ∈ x.2.pos, ∀ t ∈ y.2.targets, originalName pol t.1 = t.1

/-- The effect of reading the profile `s` of the function `f`. -/
structure ReadEffect (f : Name) (s : Sym) (m m' : SymMap) : Prop where
  wf : m'.WF
  others : ∀ g, g ≠ f → OMap.find? m' g = OMap.find? m g
  exists_ : (OMap.find? m' f).isSome = true
  /-- the instances that existed, and those with a location in them or in something inlined into them -/
  node : ∀ p, ((m'.get f).node? p).isSome = true ↔ ((m.get f).node? p).isSome = true ∨ ∃ q d, s.node? q = some d ∧ p <+: q ∧ d.pos ≠ []
  total : ∀ p, p ≠ [] → (m'.get f).totalAt p = (m.get f).totalAt p + s.bodyBelow p
  /-- the recorded total is used only if nothing else is known -/
  total0 : (m'.get f).totalAt [] = if (m.get f).totalAt [] + s.bodyBelow [] = 0 then s.data.total else (m.get f).totalAt [] + s.bodyBelow []
  head : ∀ p, (m'.get f).headAt p = (m.get f).headAt p + if p = [] then s.data.head else 0
  count : ∀ p loc, (m'.get f).countAt p loc = (m.get f).countAt p loc + s.countAt p loc
  inst : ∀ p loc, (m'.get f).instAt p loc = (m.get f).instAt p loc + if s.hasLoc p loc then 1 else 0
  target : ∀ p loc t, (m'.get f).targetAt p loc t = (s.target? p loc t).getD ((m.get f).targetAt p loc t)

/-! ### Nodes -/

mutual
theorem mem_nodes (p : List Callsite) (d : Data) : (s : Sym) → s.WF → ((p, d) ∈ s.nodes ↔ s.node? p = some d)
  | .mk d0 cs, h => by
    have hw := (Sym.WF_iff _).1 h
    rw [Sym.nodes]
    cases p with
    | nil =>
      have : ([], d) ∉ nodesCalls cs := fun hm => by
        obtain ⟨k, c, q, _, e, _⟩ := (mem_nodesCalls [] d cs hw.2.2.1 hw.2.2.2).1 hm
        cases e
      simp [Sym.node?, Sym.data, this, eq_comm]
    | cons k q =>
      rw [List.mem_cons, mem_nodesCalls _ _ cs hw.2.2.1 hw.2.2.2]
      simp only [Prod.mk.injEq, reduceCtorEq, false_and, false_or, Sym.node?, Sym.calls]
      constructor
      · rintro ⟨k', c, q', h1, h2, h3⟩
        injection h2 with h2 h2'
        subst h2; subst h2'
        rw [h1]; exact h3
      · intro h
        cases hl : lookup cs k with
        | none => rw [hl] at h; cases h
        | some c => rw [hl] at h; exact ⟨k, c, q, hl, rfl, h⟩
theorem mem_nodesCalls (p : List Callsite) (d : Data) : (cs : List (Callsite × Sym)) → (cs.map Prod.fst).Nodup → (∀ x ∈ cs, x.2.WF) →
    ((p, d) ∈ nodesCalls cs ↔ ∃ k c q, lookup cs k = some c ∧ p = k :: q ∧ c.node? q = some d)
  | [], _, _ => by simp [nodesCalls, lookup]
  | (k, c) :: t, hn, hw => by
    have hn' := List.nodup_cons.1 (by rw [List.map_cons] at hn; exact hn)
    have hne : ∀ {k'} {c'}, lookup t k' = some c' → k' ≠ k := fun {k'} {c'} hl e => hn'.1 (by
      have := List.mem_map_of_mem (f := Prod.fst) (mem_of_lookup hl)
      rw [e] at this
      exact this)
    rw [nodesCalls, List.mem_append, List.mem_map, mem_nodesCalls p d t hn'.2 fun x hx => hw x (by simp [hx])]
    constructor
    · rintro (⟨x, hx, e⟩ | ⟨k', c', q, h1, h2, h3⟩)
      · injection e with e1 e2
        refine ⟨k, c, x.1, by simp [lookup], e1.symm, ?_⟩
        rw [← e2]
        exact (mem_nodes x.1 x.2 c (hw (k, c) (by simp))).1 hx
      · exact ⟨k', c', q, by rw [lookup, if_neg (hne h1)]; exact h1, h2, h3⟩
    · rintro ⟨k', c', q, h1, h2, h3⟩
      rw [lookup] at h1
      by_cases hk : k' = k
      · rw [if_pos hk] at h1
        injection h1 with h1
        subst h1
        refine Or.inl ⟨(q, d), (mem_nodes q d c (hw (k, c) (by simp))).2 h3, ?_⟩
        rw [h2, hk]
      · rw [if_neg hk] at h1
        exact Or.inr ⟨k', c', q, h1, h2, h3⟩
end

mutual
theorem nodes_nodup : (s : Sym) → s.WF → (s.nodes.map Prod.fst).Nodup
  | .mk d cs, h => by
    have hw := (Sym.WF_iff _).1 h
    rw [Sym.nodes, List.map_cons, List.nodup_cons]
    refine ⟨?_, nodesCalls_nodup cs hw.2.2.1 hw.2.2.2⟩
    intro hm
    obtain ⟨⟨q, d'⟩, hx, e⟩ := List.mem_map.1 hm
    obtain ⟨_, _, _, _, e2, _⟩ := (mem_nodesCalls q d' cs hw.2.2.1 hw.2.2.2).1 hx
    simp only at e
    rw [e] at e2
    cases e2
theorem nodesCalls_nodup : (cs : List (Callsite × Sym)) → (cs.map Prod.fst).Nodup → (∀ x ∈ cs, x.2.WF) → ((nodesCalls cs).map Prod.fst).Nodup
  | [], _, _ => by simp [nodesCalls]
  | (k, c) :: t, hn, hw => by
    have hn' := List.nodup_cons.1 (by rw [List.map_cons] at hn; exact hn)
    rw [nodesCalls, List.map_append, List.nodup_append]
    refine ⟨?_, nodesCalls_nodup t hn'.2 fun x hx => hw x (by simp [hx]), ?_⟩
    · have := nodes_nodup c (hw (k, c) (by simp))
      rw [List.map_map, show (Prod.fst ∘ fun x : List Callsite × Data => (k :: x.1, x.2)) = (fun p => k :: p) ∘ Prod.fst from rfl, ← List.map_map]
      exact List.Nodup.map (fun a b e => by injection e) this
    · intro a ha b hb e
      subst e
      obtain ⟨x, hx, e⟩ := List.mem_map.1 ha
      obtain ⟨y, hy, e1⟩ := List.mem_map.1 hx
      obtain ⟨⟨q, d⟩, hz, e2⟩ := List.mem_map.1 hb
      obtain ⟨k', c', q', h1, h2, _⟩ := (mem_nodesCalls q d t hn'.2 fun x hx => hw x (by simp [hx])).1 hz
      simp only at e2
      rw [← e1] at e
      simp only at e
      rw [← e2, h2] at e
      injection e with e _
      exact hn'.1 (by
        rw [e]
        exact List.mem_map.2 ⟨_, mem_of_lookup h1, rfl⟩)
end

/-! ### The updates made -/

/-- One more call site on the stack. -/
def ctxStep (a : List Frame × Name) (k : Callsite) : List Frame × Name := (locFrame a.2 k.1 :: a.1, k.2)

/-- The updates for the locations of one instance. -/
def nodeOps (top : Name) (a : List Frame × Name) (d : Data) : List Op :=
  d.pos.flatMap fun x => Op.src top (locFrame a.2 x.1 :: a.1) x.2.count 1 :: x.2.targets.map fun t => Op.target top (locFrame a.2 x.1 :: a.1) t.1 t.2

/-- The updates for all instances. -/
def allOps (top : Name) (a : List Frame × Name) (l : List (List Callsite × Data)) : List Op :=
  l.flatMap fun x => nodeOps top (x.1.foldl ctxStep a) x.2

theorem runOps_append (pol : Policy) (ds : DataSource) (m : SymMap) (a b : List Op) :
    runOps pol ds m (a ++ b) = (runOps pol ds m a).bind fun m => runOps pol ds m b := by
  unfold runOps
  rw [List.foldlM_append]
  rfl

theorem runOps_cons (pol : Policy) (ds : DataSource) (m : SymMap) (o : Op) (b : List Op) :
    runOps pol ds m (o :: b) = (o.run pol ds m).bind fun m => runOps pol ds m b := by
  unfold runOps
  rw [List.foldlM_cons]
  rfl

theorem readTargets_eq (pol : Policy) (top : Name) (st : List Frame) : ∀ (xs : List (Name × Nat)) (m : SymMap),
    readTargets pol top st m xs = runOps pol .afdoProfile m (xs.map fun t => Op.target top st t.1 t.2) := by
  intro xs
  induction xs with
  | nil => intro m; rfl
  | cons x t ih =>
    intro m
    rw [List.map_cons, runOps_cons]
    unfold readTargets at ih ⊢
    rw [List.foldlM_cons]
    show Option.bind _ _ = _
    congr 1
    funext m
    exact ih m

theorem readBody_eq (pol : Policy) (top : Name) (st : List Frame) (name : Name) : ∀ (d : Data) (m : SymMap),
    readBody pol top st name m d.pos = runOps pol .afdoProfile m (nodeOps top (st, name) d) := by
  intro d
  unfold nodeOps
  generalize d.pos = xs
  induction xs with
  | nil => intro m; rfl
  | cons x t ih =>
    intro m
    rw [List.flatMap_cons, runOps_append, runOps_cons]
    unfold readBody at ih ⊢
    rw [List.foldlM_cons]
    show Option.bind _ _ = _
    congr 1
    · simp only [Op.run]
      congr 1
      funext m
      exact readTargets_eq pol top _ _ m
    · funext m
      exact ih m

mutual
theorem readFS_eq (pol : Policy) (top : Name) (st : List Frame) (name : Name) (m : SymMap) : (s : FSamples) →
    readFS pol top st name m s = runOps pol .afdoProfile m (allOps top (st, name) s.nodes)
  | .mk d cs => by
    rw [readFS, Sym.nodes]
    unfold allOps
    rw [List.flatMap_cons, runOps_append, readBody_eq]
    congr 1
    funext m
    exact readCalls_eq pol top st name m cs
theorem readCalls_eq (pol : Policy) (top : Name) (st : List Frame) (name : Name) (m : SymMap) : (cs : List (Callsite × FSamples)) →
    readCalls pol top st name m cs = runOps pol .afdoProfile m (allOps top (st, name) (nodesCalls cs))
  | [] => by rw [readCalls, nodesCalls]; rfl
  | (k, c) :: t => by
    rw [readCalls, nodesCalls]
    unfold allOps
    rw [List.flatMap_append, runOps_append, readFS_eq pol top _ _ m c]
    congr 1
    · unfold allOps
      congr 1
      rw [List.flatMap_map]
      rfl
    · funext m
      exact readCalls_eq pol top st name m t
end

/-! ### Paths -/

theorem locFrame_off {loc : Nat} (h : loc < 2 ^ 64) (n : Name) : (locFrame n loc).off = loc := by
  unfold Frame.off locFrame SourceOffset.offset
  rw [show ∀ x : BitVec 32, x - 0 = x from fun x => BitVec.sub_zero x, SourceOffset.generateOffset_toNat, BitVec.toNat_ofNat, BitVec.toNat_ofNat]
  omega

theorem callPath_cons (a b : Frame) (t : List Frame) : callPath (a :: b :: t) = callPath (b :: t) ++ [(b.off, a.func)] := by
  unfold callPath
  simp only [List.reverse_cons]
  generalize ht : t.reverse = r
  clear ht
  induction r with
  | nil => simp
  | cons c r ih =>
    cases r with
    | nil => simp
    | cons d r =>
      simp only [List.cons_append, List.tail_cons, List.zip_cons_cons, List.map_cons] at ih ⊢
      rw [ih]

theorem ctx_func (f : Name) (q : List Callsite) (loc loc' : Nat) :
    callPath (locFrame (q.foldl ctxStep ([], f)).2 loc :: (q.foldl ctxStep ([], f)).1) =
    callPath (locFrame (q.foldl ctxStep ([], f)).2 loc' :: (q.foldl ctxStep ([], f)).1) := by
  generalize q.foldl ctxStep ([], f) = a
  obtain ⟨l, n⟩ := a
  cases l with
  | nil => rfl
  | cons b t => rw [callPath_cons, callPath_cons]; rfl

theorem callPath_ctx (f : Name) (q : List Callsite) (hq : ∀ k ∈ q, k.1 < 2 ^ 64) (loc : Nat) :
    callPath (locFrame (q.foldl ctxStep ([], f)).2 loc :: (q.foldl ctxStep ([], f)).1) = q := by
  induction q using List.reverseRecOn generalizing loc with
  | nil => rfl
  | append_singleton q k ih =>
    rw [List.foldl_append]
    simp only [List.foldl_cons, List.foldl_nil]
    have hi := ih (fun x hx => hq x (by simp [hx])) k.1
    generalize q.foldl ctxStep ([], f) = a at hi ⊢
    show callPath (locFrame k.2 loc :: locFrame a.2 k.1 :: a.1) = _
    rw [callPath_cons, hi, locFrame_off (hq k (by simp))]
    rfl

theorem through_ctx (f : Name) {q : List Callsite} (hq : ∀ k ∈ q, k.1 < 2 ^ 64) (loc : Nat) (p : List Callsite) :
    through false (locFrame (q.foldl ctxStep ([], f)).2 loc :: (q.foldl ctxStep ([], f)).1) p = p.isPrefixOf q := by
  unfold through usedPath
  rw [callPath_ctx f q hq]
  simp

theorem lands_ctx (f : Name) {q : List Callsite} (hq : ∀ k ∈ q, k.1 < 2 ^ 64) {loc : Nat} (hl : loc < 2 ^ 64) (p : List Callsite) (l : Nat) :
    lands false (locFrame (q.foldl ctxStep ([], f)).2 loc :: (q.foldl ctxStep ([], f)).1) p l = (decide (p = q) && decide (loc = l)) := by
  unfold lands usedPath
  simp only [Bool.false_eq_true, if_false, callPath_ctx f q hq, locFrame_off hl]
  simp

/-! ### Sums over the updates -/

theorem nodeOps_sum (top : Name) (a : List Frame × Name) (d : Data) (g : Op → Nat)
    (ht : ∀ st t c, g (.target top st t c) = 0) :
    ((nodeOps top a d).map g).sum = (d.pos.map fun x => g (.src top (locFrame a.2 x.1 :: a.1) x.2.count 1)).sum := by
  unfold nodeOps
  rw [sum_flatMap]
  refine sum_map_congr _ _ _ fun x _ => ?_
  rw [List.map_cons, List.sum_cons, List.map_map, sum_zero _ _ fun y _ => by simp only [Function.comp, ht]]
  rfl

theorem allOps_sum (top : Name) (a : List Frame × Name) (l : List (List Callsite × Data)) (g : Op → Nat)
    (ht : ∀ st t c, g (.target top st t c) = 0) :
    ((allOps top a l).map g).sum = (l.map fun x => (x.2.pos.map fun y =>
      g (.src top (locFrame (x.1.foldl ctxStep a).2 y.1 :: (x.1.foldl ctxStep a).1) y.2.count 1)).sum).sum := by
  unfold allOps
  rw [sum_flatMap]
  exact sum_map_congr _ _ _ fun x _ => nodeOps_sum _ _ _ _ ht

theorem sum_if_key {K V : Type} [DecidableEq K] : ∀ (l : List (K × V)) (g : V → Nat) (k : K), (l.map Prod.fst).Nodup →
    (l.map fun x => if k = x.1 then g x.2 else 0).sum = match l.find? (fun x => k = x.1) with | none => 0 | some x => g x.2 := by
  intro l g k hn
  induction l with
  | nil => rfl
  | cons x t ih =>
    rw [List.map_cons] at hn
    have hn' := List.nodup_cons.1 hn
    rw [List.map_cons, List.sum_cons]
    by_cases hx : k = x.1
    · rw [List.find?_cons_of_pos (by simpa using hx), if_pos hx, sum_zero]
      · rfl
      · intro y hy
        rw [if_neg]
        intro e
        exact hn'.1 (by rw [← hx, e]; exact List.mem_map.2 ⟨y, hy, rfl⟩)
    · rw [List.find?_cons_of_neg (by simpa using hx), if_neg hx, ih hn'.2, Nat.zero_add]

theorem find_nodes {s : Sym} (h : s.WF) (p : List Callsite) : s.nodes.find? (fun x => p = x.1) = (s.node? p).map fun d => (p, d) := by
  cases hn : s.node? p with
  | none =>
    rw [Option.map_none, List.find?_eq_none]
    intro x hx hp
    have hp : p = x.1 := by simpa using hp
    have := (mem_nodes x.1 x.2 s h).1 hx
    rw [← hp, hn] at this
    cases this
  | some d =>
    have hm := (mem_nodes p d s h).2 hn
    cases hf : s.nodes.find? (fun x => p = x.1) with
    | none => exact absurd (List.find?_eq_none.1 hf _ hm) (by simp)
    | some x =>
      have h1 := List.find?_some hf
      have h2 := List.mem_of_find?_eq_some hf
      have h1 : p = x.1 := by simpa using h1
      have := (mem_nodes x.1 x.2 s h).1 h2
      rw [← h1, hn] at this
      injection this with this
      rw [Option.map_some]
      congr 1
      exact Prod.ext h1.symm this.symm

theorem sorted_nodup {V : Type} {m : OMap Nat V} (h : OMap.Sorted m) : (m.map Prod.fst).Nodup :=
  List.pairwise_map.2 (List.Pairwise.imp (fun h => ne_of_lt h) h)

theorem find_omap {V : Type} : ∀ (m : OMap Nat V) (k : Nat), List.find? (fun x => k = x.1) m = (OMap.find? m k).map fun v => (k, v)
  | [], k => rfl
  | (k', v) :: t, k => by
    rw [OMap.find?]
    by_cases h : k = k'
    · rw [List.find?_cons_of_pos (by simpa using h), if_pos h, h]; rfl
    · rw [List.find?_cons_of_neg (by simpa using h), if_neg h, find_omap t k]

theorem sum_loc {pos : PosMap} (h : OMap.Sorted pos) (loc : Nat) (g : PInfo → Nat) :
    (pos.map fun y => if loc = y.1 then g y.2 else 0).sum = ((OMap.find? pos loc).map g).getD 0 := by
  rw [sum_if_key pos g loc (sorted_nodup h), find_omap]
  cases OMap.find? pos loc <;> rfl

theorem ops_total {f : Name} {s : Sym} (hl : s.LocsOk) (p : List Callsite) (g : Name) :
    ((allOps f ([], f) s.nodes).map (Op.total false g p)).sum = if f = g then s.bodyBelow p else 0 := by
  rw [allOps_sum _ _ _ _ fun _ _ _ => rfl]
  by_cases hfg : f = g
  swap
  · rw [if_neg hfg]
    exact sum_zero _ _ fun x _ => sum_zero _ _ fun y _ => by simp [Op.total, hfg]
  rw [if_pos hfg]
  unfold Sym.bodyBelow
  have : (s.nodes.map fun x => (x.2.pos.map fun y => Op.total false g p (Op.src f (locFrame (x.1.foldl ctxStep ([], f)).2 y.1 :: (x.1.foldl ctxStep ([], f)).1) y.2.count 1)).sum) =
      s.nodes.map fun x => if p.isPrefixOf x.1 = true then x.2.body else 0 := by
    refine List.map_congr_left fun x hx => ?_
    unfold Data.body Op.total
    simp only [through_ctx f (hl x hx).1]
    by_cases hp : p.isPrefixOf x.1 = true
    · simp [hp, hfg]
    · rw [if_neg hp]
      exact sum_zero _ _ fun y _ => by rw [if_neg (fun h => hp h.2)]
  rw [this]
  generalize s.nodes = l
  induction l with
  | nil => rfl
  | cons x t ih =>
    rw [List.map_cons, List.sum_cons, ih]
    by_cases hp : p.isPrefixOf x.1 = true
    · rw [List.filter_cons_of_pos (p := fun x : List Callsite × Data => p.isPrefixOf x.1) hp, if_pos hp]; rfl
    · rw [List.filter_cons_of_neg (p := fun x : List Callsite × Data => p.isPrefixOf x.1) hp, if_neg hp, Nat.zero_add]

theorem ops_at {f : Name} {s : Sym} (hs : s.WF) (g : List Callsite → Data → Nat) (p : List Callsite) (v : Data → Nat)
    (h : ∀ x ∈ s.nodes, g x.1 x.2 = if p = x.1 then v x.2 else 0) : (s.nodes.map fun x => g x.1 x.2).sum = ((s.node? p).map v).getD 0 := by
  rw [sum_map_congr _ _ _ h, sum_if_key s.nodes v p (nodes_nodup s hs), find_nodes hs]
  cases s.node? p <;> rfl

theorem node_pos_ok {s : Sym} (hs : s.WF) {x : List Callsite × Data} (hx : x ∈ s.nodes) : OMap.Sorted x.2.pos ∧ x.2.pos.TargetsOk := by
  have h := (mem_nodes x.1 x.2 s hs).1 hx
  have := hs.node x.1
  rw [h] at this
  exact this

theorem ops_count {f : Name} {s : Sym} (hs : s.WF) (hl : s.LocsOk) (p : List Callsite) (loc : Nat) :
    ((allOps f ([], f) s.nodes).map (Op.count false f p loc)).sum = s.countAt p loc := by
  rw [allOps_sum _ _ _ _ fun _ _ _ => rfl]
  rw [ops_at (f := f) hs (fun q d => (d.pos.map fun y => Op.count false f p loc (Op.src f (locFrame (q.foldl ctxStep ([], f)).2 y.1 :: (q.foldl ctxStep ([], f)).1) y.2.count 1)).sum)
    p (fun d => d.pos.countAt loc)]
  · unfold Sym.countAt
    cases s.node? p <;> simp [Data.zero, PosMap.countAt, OMap.find?, PInfo.zero]
  · intro x hx
    have : ∀ y ∈ x.2.pos, Op.count false f p loc (Op.src f (locFrame (x.1.foldl ctxStep ([], f)).2 y.1 :: (x.1.foldl ctxStep ([], f)).1) y.2.count 1) =
        if p = x.1 then (if loc = y.1 then y.2.count else 0) else 0 := by
      intro y hy
      simp only [Op.count, lands_ctx f (hl x hx).1 ((hl x hx).2 y hy)]
      by_cases h1 : p = x.1 <;> by_cases h2 : loc = y.1 <;> simp [h1, h2, eq_comm]
    rw [sum_map_congr _ _ _ this]
    by_cases h1 : p = x.1
    · simp only [h1, if_true]
      rw [sum_loc (node_pos_ok hs hx).1]
      unfold PosMap.countAt
      cases OMap.find? x.2.pos loc <;> rfl
    · simp [h1]

theorem ops_inst {f : Name} {s : Sym} (hs : s.WF) (hl : s.LocsOk) (p : List Callsite) (loc : Nat) :
    ((allOps f ([], f) s.nodes).map (Op.inst false f p loc)).sum = if s.hasLoc p loc then 1 else 0 := by
  rw [allOps_sum _ _ _ _ fun _ _ _ => rfl]
  rw [ops_at (f := f) hs (fun q d => (d.pos.map fun y => Op.inst false f p loc (Op.src f (locFrame (q.foldl ctxStep ([], f)).2 y.1 :: (q.foldl ctxStep ([], f)).1) y.2.count 1)).sum)
    p (fun d => if (OMap.find? d.pos loc).isSome then 1 else 0)]
  · unfold Sym.hasLoc
    cases s.node? p <;> simp
  · intro x hx
    have : ∀ y ∈ x.2.pos, Op.inst false f p loc (Op.src f (locFrame (x.1.foldl ctxStep ([], f)).2 y.1 :: (x.1.foldl ctxStep ([], f)).1) y.2.count 1) =
        if p = x.1 then (if loc = y.1 then (fun _ : PInfo => 1) y.2 else 0) else 0 := by
      intro y hy
      simp only [Op.inst, lands_ctx f (hl x hx).1 ((hl x hx).2 y hy)]
      by_cases h1 : p = x.1 <;> by_cases h2 : loc = y.1 <;> simp [h1, h2, eq_comm]
    rw [sum_map_congr _ _ _ this]
    by_cases h1 : p = x.1
    · simp only [h1, if_true]
      rw [sum_loc (g := fun _ => 1) (node_pos_ok hs hx).1]
      cases OMap.find? x.2.pos loc <;> rfl
    · simp [h1]

theorem ops_creates {f : Name} {s : Sym} (hs : s.WF) (hl : s.LocsOk) (p : List Callsite) :
    (allOps f ([], f) s.nodes).any (fun o => o.creates false f p) = true ↔ ∃ q d, s.node? q = some d ∧ p <+: q ∧ d.pos ≠ [] := by
  rw [List.any_eq_true]
  constructor
  · rintro ⟨o, ho, hc⟩
    obtain ⟨x, hx, ho⟩ := List.mem_flatMap.1 ho
    obtain ⟨y, hy, ho⟩ := List.mem_flatMap.1 ho
    have hp : p <+: x.1 := by
      rcases List.mem_cons.1 ho with rfl | ho
      · simpa [Op.creates, through_ctx f (hl x hx).1] using hc
      · obtain ⟨t, _, rfl⟩ := List.mem_map.1 ho
        simpa [Op.creates, through_ctx f (hl x hx).1] using hc
    exact ⟨x.1, x.2, (mem_nodes _ _ s hs).1 hx, hp, List.ne_nil_of_mem hy⟩
  · rintro ⟨q, d, hn, hp, hne⟩
    obtain ⟨y, hy⟩ := List.exists_mem_of_ne_nil _ hne
    have hx := (mem_nodes _ _ s hs).2 hn
    refine ⟨_, List.mem_flatMap.2 ⟨_, hx, List.mem_flatMap.2 ⟨y, hy, List.mem_cons_self⟩⟩, ?_⟩
    simpa [Op.creates, through_ctx f (hl _ hx).1] using hp

theorem foldl_if_key {K V B : Type} [DecidableEq K] : ∀ (l : List (K × V)) (h : V → B → B) (k : K) (a : B), (l.map Prod.fst).Nodup →
    l.foldl (fun acc x => if k = x.1 then h x.2 acc else acc) a = match l.find? (fun x => k = x.1) with | none => a | some x => h x.2 a := by
  intro l h k
  induction l with
  | nil => intro a _; rfl
  | cons x t ih =>
    intro a hn
    rw [List.map_cons] at hn
    have hn' := List.nodup_cons.1 hn
    rw [List.foldl_cons, ih _ hn'.2]
    by_cases hx : k = x.1
    · rw [List.find?_cons_of_pos (by simpa using hx), if_pos hx]
      have : t.find? (fun x => k = x.1) = none := by
        rw [List.find?_eq_none]
        intro y hy e
        have e : k = y.1 := by simpa using e
        exact hn'.1 (by rw [← hx, e]; exact List.mem_map.2 ⟨y, hy, rfl⟩)
      rw [this]
    · rw [List.find?_cons_of_neg (by simpa using hx), if_neg hx]

theorem foldl_congr' {A B : Type} : ∀ (l : List A) (g h : B → A → B) (a : B), (∀ x ∈ l, ∀ b, g b x = h b x) → l.foldl g a = l.foldl h a := by
  intro l g h
  induction l with
  | nil => intro a _; rfl
  | cons x t ih => intro a hx; rw [List.foldl_cons, List.foldl_cons, hx x (by simp), ih _ fun y hy => hx y (by simp [hy])]

theorem foldl_same {A B : Type} : ∀ (l : List A) (g : B → A → B) (a : B), (∀ x ∈ l, ∀ b, g b x = b) → l.foldl g a = a := by
  intro l g
  induction l with
  | nil => intro a _; rfl
  | cons x t ih => intro a hx; rw [List.foldl_cons, hx x (by simp), ih _ fun y hy => hx y (by simp [hy])]

theorem foldl_targets : ∀ {ts : OMap Name Nat}, OMap.Sorted ts → ∀ (n : Name) (a : Nat),
    ts.foldl (fun old t => if n = t.1 then t.2 else old) a = (OMap.find? ts n).getD a := by
  intro ts
  induction ts with
  | nil => intro _ n a; rfl
  | cons x t ih =>
    intro h n a
    have h' := List.pairwise_cons.1 h
    rw [List.foldl_cons, ih h'.2, OMap.find?]
    by_cases hx : n = x.1
    · rw [if_pos hx, if_pos hx]
      rw [OMap.find?_eq_none_of_lt (fun y hy => by rw [hx]; exact h'.1 y hy)]
      rfl
    · rw [if_neg hx, if_neg hx]

theorem foldl_flatMap' {A B C : Type} (g : A → List B) (h : C → B → C) : ∀ (l : List A) (a : C),
    (l.flatMap g).foldl h a = l.foldl (fun acc x => (g x).foldl h acc) a := by
  intro l
  induction l with
  | nil => intro a; rfl
  | cons x t ih => intro a; rw [List.flatMap_cons, List.foldl_append, ih, List.foldl_cons]

theorem ops_target (pol : Policy) {f : Name} {s : Sym} (hs : s.WF) (hl : s.LocsOk) (he : s.TargetsElided pol) (p : List Callsite) (loc : Nat) (n : Name)
    (a : Nat) : (allOps f ([], f) s.nodes).foldl (fun old o => o.target' pol false f p loc n old) a = (s.target? p loc n).getD a := by
  unfold allOps
  rw [foldl_flatMap']
  have hnode : ∀ x ∈ s.nodes, ∀ b, (nodeOps f (x.1.foldl ctxStep ([], f)) x.2).foldl (fun old o => o.target' pol false f p loc n old) b =
      if p = x.1 then (fun (d : Data) (b : Nat) => ((OMap.find? d.pos loc).bind fun i => OMap.find? i.targets n).getD b) x.2 b else b := by
    intro x hx b
    unfold nodeOps
    rw [foldl_flatMap']
    have hpos : ∀ y ∈ x.2.pos, ∀ b, (Op.src f (locFrame (x.1.foldl ctxStep ([], f)).2 y.1 :: (x.1.foldl ctxStep ([], f)).1) y.2.count 1 ::
        y.2.targets.map fun t => Op.target f (locFrame (x.1.foldl ctxStep ([], f)).2 y.1 :: (x.1.foldl ctxStep ([], f)).1) t.1 t.2).foldl
          (fun old o => o.target' pol false f p loc n old) b =
        if loc = y.1 then (fun (i : PInfo) (b : Nat) => if p = x.1 then (OMap.find? i.targets n).getD b else b) y.2 b else b := by
      intro y hy b
      rw [List.foldl_cons, List.foldl_map]
      simp only [Op.target', lands_ctx f (hl x hx).1 ((hl x hx).2 y hy)]
      by_cases h1 : p = x.1
      · by_cases h2 : loc = y.1
        · rw [if_pos h2, if_pos h1, ← foldl_targets ((node_pos_ok hs hx).2 y hy)]
          refine foldl_congr' _ _ _ _ fun t ht b => ?_
          rw [he x hx y hy t ht]
          simp [h1, h2]
        · rw [if_neg h2]
          refine foldl_same _ _ _ fun t ht b => ?_
          simp [Ne.symm h2]
      · have : (if loc = y.1 then (if p = x.1 then (OMap.find? y.2.targets n).getD b else b) else b) = b := by simp [h1]
        rw [this]
        refine foldl_same _ _ _ fun t ht b => ?_
        simp [h1]
    rw [foldl_congr' _ _ _ _ hpos, foldl_if_key x.2.pos (fun (i : PInfo) (b : Nat) => if p = x.1 then (OMap.find? i.targets n).getD b else b) loc b (sorted_nodup (node_pos_ok hs hx).1), find_omap]
    beta_reduce
    cases OMap.find? x.2.pos loc with
    | none => simp
    | some i => simp
  rw [foldl_congr' _ _ _ _ hnode, foldl_if_key s.nodes (fun (d : Data) (b : Nat) => ((OMap.find? d.pos loc).bind fun i => OMap.find? i.targets n).getD b) p a (nodes_nodup s hs), find_nodes hs]
  unfold Sym.target?
  cases s.node? p <;> rfl

/-! ### One function -/

theorem op_names {top : Name} {a : List Frame × Name} {l : List (List Callsite × Data)} : ∀ o ∈ allOps top a l, o.name = top := by
  intro o ho
  obtain ⟨x, hx, ho⟩ := List.mem_flatMap.1 ho
  obtain ⟨y, hy, ho⟩ := List.mem_flatMap.1 ho
  rcases List.mem_cons.1 ho with rfl | ho
  · rfl
  · obtain ⟨t, _, rfl⟩ := List.mem_map.1 ho
    rfl

theorem find_set_ne {m : SymMap} (hm : OMap.Sorted m) {f g : Name} (h : g ≠ f) (s : Sym) : OMap.find? (OMap.set f s m) g = OMap.find? m g := by
  unfold OMap.set
  rw [OMap.find?_upsert hm]
  simp [h]

theorem op_find_other (pol : Policy) (ds : DataSource) {m m' : SymMap} (hm : OMap.Sorted m) (o : Op) {g : Name} (hg : g ≠ o.name) (h : o.run pol ds m = some m') :
    OMap.find? m' g = OMap.find? m g := by
  cases o with
  | src n st c i =>
    simp only [Op.name] at hg
    simp only [Op.run, addSourceCount] at h
    cases st with
    | nil => injection h with h; rw [h]
    | cons a t =>
      simp only at h
      split at h
      · cases h
      · injection h with h; rw [← h, find_set_ne hm hg]
  | head n c =>
    simp only [Op.name] at hg
    simp only [Op.run, addSymbolEntryCount] at h
    split at h
    · cases h
    · injection h with h; rw [← h, find_set_ne hm hg]
  | target n st t c =>
    simp only [Op.name] at hg
    simp only [Op.run, addIndirectCallTarget] at h
    cases st with
    | nil => simp only [Option.map_some] at h; injection h with h; rw [h]
    | cons a t =>
      simp only at h
      split at h
      · cases h
      · simp only [Option.map_some] at h; injection h with h; rw [← h, find_set_ne hm hg]

theorem runOps_find_other (pol : Policy) (ds : DataSource) (f : Name) : ∀ (ops : List Op) {m m' : SymMap}, m.WF → (OMap.find? m f).isSome = true → (∀ o ∈ ops, o.name = f) →
    runOps pol ds m ops = some m' → ∀ g, g ≠ f → OMap.find? m' g = OMap.find? m g := by
  intro ops
  induction ops with
  | nil => intro m m' _ _ _ h g _; injection h with h; rw [h]
  | cons o t ih =>
    intro m m' hm hf hn h g hg
    have hon := hn o (by simp)
    obtain ⟨m1, e1, w1, k1, _⟩ := op_effect pol ds m hm o (by rw [hon]; exact hf)
    rw [runOps_cons, e1] at h
    rw [ih w1 (by rw [k1]; exact hf) (fun o ho => hn o (by simp [ho])) h g hg]
    exact op_find_other pol ds hm.1 o (by rw [hon]; exact hg) e1

theorem addSymbol_WF {m : SymMap} (hm : m.WF) (f : Name) : (addSymbol m f).WF := by
  refine ⟨OMap.Sorted.upsert hm.1 _ _, ?_⟩
  intro q hq
  have h1 := OMap.find?_some_of_mem (OMap.Sorted.upsert hm.1 _ _) hq
  rw [OMap.find?_upsert hm.1] at h1
  have hw : ((OMap.find? m f).getD Sym.new).WF := hm.get f
  split at h1
  · injection h1 with h1
    rw [← h1]
    exact hw
  · exact hm.2 _ (OMap.mem_of_find?_some h1)

theorem find_addSymbol {m : SymMap} (hm : m.WF) (f g : Name) : OMap.find? (addSymbol m f) g = if g = f then some (m.get f) else OMap.find? m g := by
  unfold addSymbol OMap.emplace
  rw [OMap.find?_upsert hm.1]
  split <;> simp_all [SymMap.get]

theorem get_addSymbol {m : SymMap} (hm : m.WF) (f g : Name) : (addSymbol m f).get g = m.get g := by
  unfold SymMap.get
  rw [find_addSymbol hm]
  split
  · rename_i h; rw [h]; rfl
  · rfl

/-- C56: reading one function adds its locations, entry count and call targets, whatever was read before; totals are recomputed. -/
theorem readTop_effect (pol : Policy) {m : SymMap} (hm : m.WF) (f : Name) {s : FSamples} (hs : s.WF) (hl : s.LocsOk) (he : s.TargetsElided pol) :
    ∃ m', readTop pol m f s = some m' ∧ ReadEffect f s m m' := by
  have hw1 := addSymbol_WF hm f
  have hf1 : (OMap.find? (addSymbol m f) f).isSome = true := by rw [find_addSymbol hm, if_pos rfl]; rfl
  obtain ⟨m2, e2, w2, k2, a2⟩ := head_effect pol false (addSymbol m f) hw1 f s.data.head hf1
  obtain ⟨m3, e3, w3, k3, a3⟩ := runOps_history pol .afdoProfile m2 w2 (allOps f ([], f) s.nodes) (fun o ho => by
    rw [op_names o ho, k2]; exact hf1)
  have hf3 : (OMap.find? m3 f).isSome = true := by rw [k3, k2]; exact hf1
  have hrun : readTop pol m f s = if (m3.get f).data.total = 0 then addSymbolEntryCount m3 f 0 s.data.total else some m3 := by
    unfold readTop
    rw [e2]
    simp only [Option.bind_some]
    rw [readFS_eq, e3]
    rfl
  have ho3 : ∀ g, g ≠ f → OMap.find? m3 g = OMap.find? m g := by
    intro g hg
    rw [runOps_find_other pol .afdoProfile f _ w2 (by rw [k2]; exact hf1) op_names e3 g hg]
    have := op_find_other pol .afdoProfile hw1.1 (.head f s.data.head) (g := g) hg e2
    rw [this, find_addSymbol hm, if_neg hg]
  have hc : DataSource.needConversion .afdoProfile = false := rfl
  rw [hc] at a3
  -- effect up to the recorded total
  have base : ∀ p, (((m3.get f).node? p).isSome = true ↔ ((m.get f).node? p).isSome = true ∨ ∃ q d, s.node? q = some d ∧ p <+: q ∧ d.pos ≠ []) ∧
      (m3.get f).totalAt p = (m.get f).totalAt p + s.bodyBelow p ∧
      (m3.get f).headAt p = (m.get f).headAt p + (if p = [] then s.data.head else 0) ∧
      ∀ loc, (m3.get f).countAt p loc = (m.get f).countAt p loc + s.countAt p loc ∧
        (m3.get f).instAt p loc = (m.get f).instAt p loc + (if s.hasLoc p loc then 1 else 0) ∧
        ∀ t, (m3.get f).targetAt p loc t = (s.target? p loc t).getD ((m.get f).targetAt p loc t) := by
    intro p
    obtain ⟨b1, b2, b3, b4⟩ := a2 f p
    obtain ⟨c1, c2, c3, c4⟩ := a3 f p
    rw [get_addSymbol hm] at b1 b2 b3 b4
    refine ⟨?_, ?_, ?_, fun loc => ⟨?_, ?_, fun t => ?_⟩⟩
    · rw [c1, b1, Bool.or_eq_true, ops_creates hs hl]
      simp [Op.creates]
    · rw [c2, b2, ops_total hl, if_pos rfl]
      simp [Op.total]
    · rw [c3, b3]
      rw [sum_zero (allOps f ([], f) s.nodes)]
      · simp [Op.entry]
      · intro o ho
        obtain ⟨x, hx, ho⟩ := List.mem_flatMap.1 ho
        obtain ⟨y, hy, ho⟩ := List.mem_flatMap.1 ho
        rcases List.mem_cons.1 ho with rfl | ho
        · rfl
        · obtain ⟨t, _, rfl⟩ := List.mem_map.1 ho
          rfl
    · rw [(c4 loc).1, (b4 loc).1]
      have : ∀ (l : List Nat) (a : Nat), l.foldl (combine false) a = a + l.sum := by
        intro l
        induction l with
        | nil => intro a; rfl
        | cons x t ih => intro a; rw [List.foldl_cons, ih, List.sum_cons]; simp only [combine, Bool.false_eq_true, if_false]; omega
      rw [this, ops_count hs hl]
      simp [Op.count, combine]
    · rw [(c4 loc).2.1, (b4 loc).2.1, ops_inst hs hl]
      simp [Op.inst]
    · rw [(c4 loc).2.2, ops_target pol hs hl he, (b4 loc).2.2]
      rfl
  have hdata : (m3.get f).data.total = (m3.get f).totalAt [] := rfl
  rw [hrun]
  by_cases h0 : (m3.get f).data.total = 0
  · rw [if_pos h0]
    obtain ⟨s3, hs3⟩ := Option.isSome_iff_exists.1 hf3
    have hg3 : m3.get f = s3 := by unfold SymMap.get; rw [hs3]; rfl
    obtain ⟨d, cs⟩ := s3
    refine ⟨OMap.set f (.mk { d with head := d.head + 0, total := d.total + s.data.total } cs) m3, by simp only [addSymbolEntryCount, hs3], ?_⟩
    have hws := (Sym.WF_iff _).1 (hg3 ▸ w3.get f)
    have hw4 : (Sym.mk { d with head := d.head + 0, total := d.total + s.data.total } cs).WF := (Sym.WF_iff _).2 hws
    have hget : SymMap.get (OMap.set f (.mk { d with head := d.head + 0, total := d.total + s.data.total } cs) m3) f =
        .mk { d with head := d.head + 0, total := d.total + s.data.total } cs := by
      rw [SymMap.get_set w3, if_pos rfl]
    have hnode : ∀ k p, (Sym.mk { d with head := d.head + 0, total := d.total + s.data.total } cs).node? (k :: p) = (m3.get f).node? (k :: p) := by
      intro k p; rw [hg3]; rfl
    have hd0 : d.total = 0 := by rw [hg3] at h0; exact h0
    refine ⟨w3.set _ _ hw4, fun g hg => by rw [find_set_ne w3.1 hg]; exact ho3 g hg, ?_, ?_, ?_, ?_, ?_, ?_, ?_, ?_⟩
    · unfold OMap.set; rw [OMap.find?_upsert w3.1]; simp
    · intro p
      rw [hget, ← (base p).1]
      cases p with
      | nil => simp [Sym.node?]
      | cons k p => rw [hnode]
    · intro p hp
      rw [hget, ← (base p).2.1]
      cases p with
      | nil => exact absurd rfl hp
      | cons k p => unfold Sym.totalAt; rw [hnode]
    · rw [hget, ← (base []).2.1, ← hdata, if_pos h0]
      simp [Sym.totalAt, Sym.node?, Sym.data, hd0]
    · intro p
      rw [hget, ← (base p).2.2.1]
      cases p with
      | nil => rw [hg3]; simp [Sym.headAt, Sym.node?, Sym.data]
      | cons k p => unfold Sym.headAt; rw [hnode]
    · intro p loc
      rw [hget, ← ((base p).2.2.2 loc).1]
      cases p with
      | nil => rw [hg3]; simp [Sym.countAt, Sym.node?, Sym.data]
      | cons k p => unfold Sym.countAt; rw [hnode]
    · intro p loc
      rw [hget, ← ((base p).2.2.2 loc).2.1]
      cases p with
      | nil => rw [hg3]; simp [Sym.instAt, Sym.node?, Sym.data]
      | cons k p => unfold Sym.instAt; rw [hnode]
    · intro p loc t
      rw [hget, ← ((base p).2.2.2 loc).2.2 t]
      cases p with
      | nil => rw [hg3]; simp [Sym.targetAt, Sym.node?, Sym.data]
      | cons k p => unfold Sym.targetAt; rw [hnode]
  · rw [if_neg h0]
    refine ⟨m3, rfl, w3, ho3, hf3, fun p => (base p).1, fun p _ => (base p).2.1, ?_, fun p => (base p).2.2.1, fun p loc => ((base p).2.2.2 loc).1,
      fun p loc => ((base p).2.2.2 loc).2.1, fun p loc t => ((base p).2.2.2 loc).2.2 t⟩
    rw [← (base []).2.1, ← hdata, if_neg h0]

end Verif.SymbolMap

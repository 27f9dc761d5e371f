import Verif.CfgStats

/-! # C101: proofs -/
namespace Verif.CfgStats
open Verif Verif.Mapper Verif.InferFT Verif.CfgBuild

/-! ## Edges -/

theorem sum_bump {es : List Edge} {i w d : Nat} {e : Edge} (hi : es[i]? = some e) (f : Edge → Nat)
    (hf : f { e with weight := e.weight + w } = f e + d) : ((bump es i w).map f).sum = (es.map f).sum + d := by
  unfold bump
  rw [hi]
  simp only
  induction es generalizing i with
  | nil => simp at hi
  | cons x t ih =>
    cases i with
    | zero =>
      simp only [List.getElem?_cons_zero, Option.some.injEq] at hi
      subst hi
      simp only [List.set_cons_zero, List.map_cons, List.sum_cons, hf]
      omega
    | succ i =>
      simp only [List.getElem?_cons_succ] at hi
      simp only [List.set_cons_succ, List.map_cons, List.sum_cons, ih hi]
      omega

/-- The total weight of the edges of a kind. -/
def wsum (es : List Edge) (k : Kind) : Nat := (es.map fun e => if e.kind = k then e.weight else 0).sum

/-- The number of edges of a kind. -/
def ksum (es : List Edge) (k : Kind) : Nat := (es.map fun e => if e.kind = k then 1 else 0).sum

theorem sum_kinds (es : List Edge) (f : Edge → Nat) :
    (es.map fun e => if e.kind = .branch then f e else 0).sum + (es.map fun e => if e.kind = .call then f e else 0).sum +
      (es.map fun e => if e.kind = .ret then f e else 0).sum = (es.map f).sum := by
  induction es with
  | nil => rfl
  | cons e t ih =>
    simp only [List.map_cons, List.sum_cons]
    cases h : e.kind <;> simp <;> omega

theorem sum_filter_kind (es : List Edge) (k : Kind) (f : Edge → Nat) :
    (es.map fun e => if e.kind = k then f e else 0).sum = ((es.filter fun e => decide (e.kind = k)).map f).sum := by
  induction es with
  | nil => rfl
  | cons e t ih =>
    simp only [List.map_cons, List.sum_cons, ih, List.filter_cons]
    by_cases h : e.kind = k <;> simp [h]

/-- The kind of the edge that serves a request. -/
def firstKind (m : Mapper) (rs : List Req) (r : Req) : Option Kind := (rs.find? fun q => decide (SamePair m q r)).map (·.kind)

theorem firstKind_append {m : Mapper} {rs : List Req} {r q : Req} (h : q ∈ rs) : firstKind m (rs ++ [r]) q = firstKind m rs q := by
  unfold firstKind
  rw [List.find?_append]
  cases hf : rs.find? fun p => decide (SamePair m p q) with
  | some x => rfl
  | none =>
    rw [List.find?_eq_none] at hf
    exact absurd (hf q h) (by simp [SamePair])

/-- The number of requests of another kind. -/
def mixedCount (m : Mapper) (rs : List Req) : Nat := (rs.filter fun r => decide (firstKind m rs r ≠ some r.kind)).length

theorem mixedCount_append (m : Mapper) (rs : List Req) (r : Req) :
    mixedCount m (rs ++ [r]) = mixedCount m rs + if firstKind m (rs ++ [r]) r ≠ some r.kind then 1 else 0 := by
  unfold mixedCount
  rw [List.filter_append, List.length_append]
  congr 1
  · congr 1
    apply List.filter_congr
    intro q hq
    rw [firstKind_append hq]
  · by_cases h : firstKind m (rs ++ [r]) r = some r.kind <;> simp [h]

/-- The statistics while adding edges. -/
structure SInv (m : Mapper) (rs : List Req) (g : Graph) (s : Stats) : Prop where
  created : ∀ k, s.created k = ksum g.edges k
  total : s.weight = (g.edges.map (·.weight)).sum
  mixed : s.mixed = mixedCount m rs
  weights : s.mixed = 0 → ∀ k, s.weights k = wsum g.edges k

/-- The other counters are left alone. -/
def Rest (s t : Stats) : Prop := t.cfgs = s.cfgs ∧ t.pads = s.pads ∧ t.nodes = s.nodes ∧ t.hot = s.hot ∧ t.hotEmpty = s.hotEmpty

theorem upd_apply {α β : Type} [DecidableEq α] (f : α → β) (a : α) (g : β → β) (x : α) : upd f a g x = if x = a then g (f x) else f x := rfl

theorem upd_weight (w : Kind → Nat) (k : Kind) (x : Nat) :
    upd w k (· + x) .branch + upd w k (· + x) .call + upd w k (· + x) .ret = w .branch + w .call + w .ret + x := by
  cases k <;> simp [upd] <;> omega

theorem createEdge_edges {g : Graph} {a b : Handle} {w : Nat} {k : Kind} {sec : Bool} {q : Graph × Nat} (h : createEdge g a b w k sec = some q) :
    q.1.edges = g.edges ++ [⟨a, b, w, k, sec⟩] := by
  unfold createEdge at h
  split_ifs at h <;> cases h <;> rfl

theorem step (m : Mapper) {S : Type} [DecidableEq S] (sec : Nat → S) (rs : List Req) (st : St) (s : Stats) (hI : Inv m rs st) (hS : SInv m rs st.g s)
    (r : Req) (h1 : r.src < m.handles.length) (h2 : r.sink < m.handles.length) :
    ∃ st' s', createEdgeS m sec (st, s) r = some (st', s') ∧ internalCreateEdge m sec st r = some st' ∧ Inv m (rs ++ [r]) st' ∧
      SInv m (rs ++ [r]) st'.g s' ∧ Rest s s' := by
  obtain ⟨st', hst, hI'⟩ := step_inv sec hI r h1 h2
  obtain ⟨a, ha⟩ : ∃ a, m.handles[r.src]? = some a := ⟨_, List.getElem?_eq_getElem h1⟩
  obtain ⟨b, hb⟩ : ∃ b, m.handles[r.sink]? = some b := ⟨_, List.getElem?_eq_getElem h2⟩
  have hpair : (fun q : Req => decide (SamePair m q r)) = fun q => decide (m.handles[q.src]? = some a ∧ m.handles[q.sink]? = some b) := by
    funext q
    simp [SamePair, ha, hb]
  have hst2 := hst
  unfold internalCreateEdge at hst
  unfold createEdgeS
  rw [ha, hb] at hst ⊢
  simp only at hst ⊢
  cases hl : st.emap.lookup (a, b) with
  | some i =>
    rw [hl] at hst
    simp only [Option.some.injEq] at hst
    obtain ⟨e, he, hea, heb⟩ := (hI.emap a b i).1 hl
    have hk : firstKind m rs r = some e.kind := by
      have := hI.spec.kind e (List.mem_of_getElem? he)
      rw [hea, heb] at this
      unfold firstKind
      rw [hpair]
      exact this
    have hk2 : firstKind m (rs ++ [r]) r = some e.kind := by
      unfold firstKind at hk ⊢
      rw [List.find?_append]
      cases hf : rs.find? fun q => decide (SamePair m q r) with
      | none => rw [hf] at hk; cases hk
      | some x => rw [hf] at hk; exact hk
    have hm := mixedCount_append m rs r
    rw [hk2] at hm
    refine ⟨_, _, rfl, hst2.trans (by rw [← hst]), hst ▸ hI', ?_, ⟨rfl, rfl, rfl, rfl, rfl⟩⟩
    rw [he]
    simp only [Option.map_some]
    refine ⟨?_, ?_, ?_, ?_⟩
    · intro k
      simp only
      rw [hS.created k]
      unfold ksum
      rw [sum_bump he _ (d := 0) rfl]
      rfl
    · have h := hS.total
      simp only [Stats.weight] at h ⊢
      rw [upd_weight, h, sum_bump he _ (d := r.weight) rfl]
    · simp only
      rw [hm, hS.mixed]
      split_ifs <;> rfl
    · simp only
      intro h0 k
      by_cases hek : some e.kind = some r.kind
      · simp only [hek, ne_eq, not_true_eq_false, if_false] at h0
        simp only [Option.some.injEq] at hek
        rw [upd_apply, hS.weights h0 k]
        unfold wsum
        rw [sum_bump he _ (d := if r.kind = k then r.weight else 0) (by simp only [hek]; split_ifs <;> rfl)]
        by_cases hkk : r.kind = k
        · simp [hkk]
        · simp [hkk, Ne.symm hkk]
      · simp only [ne_eq, hek, not_false_eq_true, if_true] at h0
        omega
  | none =>
    rw [hl] at hst
    simp only [Option.map_eq_some_iff] at hst
    obtain ⟨q, hq, rfl⟩ := hst
    have hnone : rs.find? (fun q => decide (SamePair m q r)) = none := by
      rw [List.find?_eq_none]
      intro q hq' hc
      simp only [decide_eq_true_eq, SamePair, ha, hb] at hc
      obtain ⟨e, he, hea, heb⟩ := (hI.spec.made a b).2 ⟨q, hq', hc⟩
      obtain ⟨i, hi, hie⟩ := List.getElem_of_mem he
      have := (hI.emap a b i).2 ⟨e, by rw [List.getElem?_eq_getElem hi, hie], hea, heb⟩
      rw [hl] at this
      cases this
    have hk2 : firstKind m (rs ++ [r]) r = some r.kind := by
      unfold firstKind
      rw [List.find?_append, hnone]
      simp [SamePair]
    have hm := mixedCount_append m rs r
    rw [hk2] at hm
    simp only [ne_eq, not_true_eq_false, if_false, Nat.add_zero] at hm
    have hes := createEdge_edges hq
    rw [hq]
    refine ⟨_, _, rfl, hst2, hI', ?_, ⟨rfl, rfl, rfl, rfl, rfl⟩⟩
    refine ⟨?_, ?_, ?_, ?_⟩
    · intro k
      simp only [hes, ksum, List.map_append, List.map_cons, List.map_nil, List.sum_append, List.sum_cons, List.sum_nil]
      rw [upd_apply, hS.created k]
      unfold ksum
      by_cases hkk : r.kind = k
      · simp [hkk]
      · simp [hkk, Ne.symm hkk]
    · have h := hS.total
      simp only [Stats.weight] at h ⊢
      rw [upd_weight, h, hes]
      simp
    · simp only
      rw [hm, hS.mixed]
    · simp only [hes, wsum, List.map_append, List.map_cons, List.map_nil, List.sum_append, List.sum_cons, List.sum_nil]
      intro h0 k
      rw [upd_apply, hS.weights h0 k]
      unfold wsum
      by_cases hkk : r.kind = k
      · simp [hkk]
      · simp [hkk, Ne.symm hkk]

theorem foldS (m : Mapper) {S : Type} [DecidableEq S] (sec : Nat → S) : ∀ (rs rs0 : List Req) (st : St) (s : Stats), Inv m rs0 st → SInv m rs0 st.g s →
    (∀ r ∈ rs, r.src < m.handles.length ∧ r.sink < m.handles.length) →
    ∃ st' s', rs.foldlM (createEdgeS m sec) (st, s) = some (st', s') ∧ rs.foldlM (internalCreateEdge m sec) st = some st' ∧
      Inv m (rs0 ++ rs) st' ∧ SInv m (rs0 ++ rs) st'.g s' ∧ Rest s s'
  | [], rs0, st, s, hI, hS, _ => ⟨st, s, rfl, rfl, by simpa using hI, by simpa using hS, rfl, rfl, rfl, rfl, rfl⟩
  | r :: rs, rs0, st, s, hI, hS, h => by
    obtain ⟨st1, s1, h1, h2, h3, h4, h5⟩ := step m sec rs0 st s hI hS r (h r (by simp)).1 (h r (by simp)).2
    obtain ⟨st2, s2, g1, g2, g3, g4, g5⟩ := foldS m sec rs (rs0 ++ [r]) st1 s1 h3 h4 fun q hq => h q (by simp [hq])
    refine ⟨st2, s2, ?_, ?_, by simpa using g3, by simpa using g4, ?_⟩
    · rw [List.foldlM_cons, h1]; exact g1
    · rw [List.foldlM_cons, h2]; exact g2
    · exact ⟨g5.1.trans h5.1, g5.2.1.trans h5.2.1, g5.2.2.1.trans h5.2.2.1, g5.2.2.2.1.trans h5.2.2.2.1, g5.2.2.2.2.trans h5.2.2.2.2⟩

/-! ## CFGs -/

theorem makeCfgs_eq (m : Mapper) : ∀ (sel : List Nat) (p : List Nat × Stats), sel.Nodup → (∀ f ∈ sel, f ∉ p.1) →
    makeCfgs m sel p = (p.1 ++ sel, { p.2 with nodes := p.2.nodes + (sel.flatMap (nodesOf m)).length, cfgs := p.2.cfgs + sel.length })
  | [], p, _, _ => by simp [makeCfgs]
  | f :: sel, p, hn, hd => by
    rw [List.nodup_cons] at hn
    rw [makeCfgs, if_neg (hd f (by simp)), makeCfgs_eq m sel _ hn.2 ?_]
    · simp [nodesOf, Nat.add_assoc, Nat.add_comm 1]
    · intro x hx
      simp only [List.mem_append, List.mem_singleton, not_or]
      exact ⟨hd x (by simp [hx]), fun e => hn.1 (e ▸ hx)⟩

theorem foldl_freq (m : Mapper) (g : Graph) (pad : Handle → Bool) : ∀ (ns : List Handle) (s : Nat × Nat × Nat),
    ns.foldl (fun s n => if nodeFreq g n = 0 then s
      else (s.1 + 1, (if m.size n = 0 then s.2.1 + 1 else s.2.1), (if pad n then s.2.2 + 1 else s.2.2))) s =
    (s.1 + (ns.filter fun h => decide (0 < nodeFreq g h)).length, s.2.1 + (ns.filter fun h => decide (0 < nodeFreq g h ∧ m.size h = 0)).length,
      s.2.2 + (ns.filter fun h => decide (0 < nodeFreq g h ∧ pad h = true)).length)
  | [], s => by simp
  | n :: ns, s => by
    rw [List.foldl_cons, foldl_freq m g pad ns]
    by_cases h : nodeFreq g n = 0
    · simp [h]
    · have h' : 0 < nodeFreq g n := by omega
      by_cases h2 : m.size n = 0 <;> by_cases h3 : pad n = true <;> simp [h, h', h2, h3] <;> omega

theorem freqStats_eq (m : Mapper) (g : Graph) (pad : Handle → Bool) (f : Nat) : freqStats m g pad f =
    (((nodesOf m f).filter fun h => decide (0 < nodeFreq g h)).length, ((nodesOf m f).filter fun h => decide (0 < nodeFreq g h ∧ m.size h = 0)).length,
      ((nodesOf m f).filter fun h => decide (0 < nodeFreq g h ∧ pad h = true)).length) := by
  rw [freqStats, foldl_freq]
  simp

theorem keepHot_eq (m : Mapper) (g : Graph) (pad : Handle → Bool) : ∀ (cfgs : List Nat) (p : List Nat × Stats), keepHot m g pad cfgs p =
    (p.1 ++ cfgs.filter (fun f => (nodesOf m f).any fun h => decide (0 < nodeFreq g h)),
     { p.2 with hot := p.2.hot + ((cfgs.flatMap (nodesOf m)).filter fun h => decide (0 < nodeFreq g h)).length,
                hotEmpty := p.2.hotEmpty + ((cfgs.flatMap (nodesOf m)).filter fun h => decide (0 < nodeFreq g h ∧ m.size h = 0)).length,
                pads := p.2.pads + (cfgs.filter fun f => (nodesOf m f).any fun h => decide (0 < nodeFreq g h ∧ pad h = true)).length })
  | [], p => by simp [keepHot]
  | f :: cfgs, p => by
    rw [keepHot]
    simp only [freqStats_eq]
    by_cases h : ((nodesOf m f).filter fun h => decide (0 < nodeFreq g h)).length = 0
    · rw [if_pos h, keepHot_eq m g pad cfgs]
      have hz : ∀ x ∈ nodesOf m f, nodeFreq g x = 0 := by
        intro x hx
        rw [List.length_eq_zero_iff, List.filter_eq_nil_iff] at h
        have := h x hx
        simp at this
        exact this
      have h1 : ((nodesOf m f).any fun h => decide (0 < nodeFreq g h)) = false := by
        rw [List.any_eq_false]; intro x hx; simp [hz x hx]
      have h2 : ((nodesOf m f).any fun h => decide (0 < nodeFreq g h ∧ pad h = true)) = false := by
        rw [List.any_eq_false]; intro x hx; simp [hz x hx]
      have h3 : ((nodesOf m f).filter fun h => decide (0 < nodeFreq g h ∧ m.size h = 0)) = [] := by
        rw [List.filter_eq_nil_iff]; intro x hx; simp [hz x hx]
      rw [List.flatMap_cons, List.filter_append, List.filter_append, List.length_append, List.length_append, h, h3, List.filter_cons, List.filter_cons, h1, h2]
      simp
    · rw [if_neg h, keepHot_eq m g pad cfgs]
      have h1 : ((nodesOf m f).any fun h => decide (0 < nodeFreq g h)) = true := by
        rw [List.any_eq_true]
        obtain ⟨x, hx⟩ := List.exists_mem_of_length_pos (Nat.pos_of_ne_zero h)
        exact ⟨x, (List.mem_filter.1 hx).1, (List.mem_filter.1 hx).2⟩
      have h2 : (((nodesOf m f).any fun h => decide (0 < nodeFreq g h ∧ pad h = true)) = true) ↔
          ((nodesOf m f).filter fun h => decide (0 < nodeFreq g h ∧ pad h = true)).length ≠ 0 := by
        rw [List.any_eq_true]
        constructor
        · rintro ⟨x, hx, hp⟩
          exact Nat.pos_iff_ne_zero.1 (List.length_pos_of_mem (List.mem_filter.2 ⟨hx, hp⟩))
        · intro hne
          obtain ⟨x, hx⟩ := List.exists_mem_of_length_pos (Nat.pos_of_ne_zero hne)
          exact ⟨x, (List.mem_filter.1 hx).1, (List.mem_filter.1 hx).2⟩
      rw [List.flatMap_cons, List.filter_append, List.filter_append, List.length_append, List.length_append, List.filter_cons, List.filter_cons, h1]
      by_cases hp : ((nodesOf m f).any fun h => decide (0 < nodeFreq g h ∧ pad h = true)) = true
      · have hp' := h2.1 hp
        rw [if_pos hp, if_pos hp']
        simp [Nat.add_assoc, Nat.add_comm 1]
      · have hp' := fun c => hp (h2.2 c)
        rw [if_neg hp, if_neg hp']
        simp [Nat.add_assoc]

/-- **C101**: for a program built from its selected functions, whatever the order in which the CFGs are visited, the statistics
describe the graph that is built (C27), and the functions kept are the hot ones. -/
theorem stats_describe (fns : List Fn) (sel : List Nat) (m : Mapper) (hn : sel.Nodup) (h : build fns sel = some m) {S : Type} [DecidableEq S]
    (sec : Nat → S) (pad : Handle → Bool) (order : List Nat → List Nat) (ho : ∀ l, (order l).Perm l) (brs fts : List ((Nat × Nat) × Nat)) :
    ∃ g kept s, buildS m sec pad order sel brs fts = some (g, kept, s) ∧ (createEdges m sec brs fts).map (·.g) = some g ∧
      kept.Perm (keptFns m g sel) ∧ Describes m (requests m brs fts) pad sel g s := by
  have hh : m.handles = sel.flatMap (nodesOf m) := by
    unfold build at h
    obtain ⟨hs, h1, rfl⟩ := Option.map_eq_some_iff.1 h
    simp only
    exact buildHandles_eq sel none hs h1
  have hmem : ∀ f, f ∈ sel → ∀ x, x ∈ nodesOf m f ↔ x ∈ m.handles ∧ x.fn = f := by
    intro f hf x
    rw [hh]
    constructor
    · intro hx
      refine ⟨List.mem_flatMap.2 ⟨f, hf, hx⟩, ?_⟩
      obtain ⟨b, _, rfl⟩ := List.mem_map.1 hx
      rfl
    · rintro ⟨hx, rfl⟩
      obtain ⟨f', _, hx'⟩ := List.mem_flatMap.1 hx
      obtain ⟨b, hb, rfl⟩ := List.mem_map.1 hx'
      exact List.mem_map.2 ⟨b, hb, rfl⟩
  have hmk := makeCfgs_eq m sel ([], {}) hn (by simp)
  have hbase : SInv m [] Graph.empty (makeCfgs m sel ([], {})).2 := by
    rw [hmk]
    refine ⟨fun k => rfl, rfl, rfl, fun _ k => rfl⟩
  obtain ⟨st, s, h1, h2, h3, h4, h5⟩ := foldS m sec (requests m brs fts) [] ⟨Graph.empty, []⟩ _ (inv_empty m) hbase (requests_range m brs fts)
  rw [List.nil_append] at h3 h4
  have hrest : s.cfgs = sel.length ∧ s.pads = 0 ∧ s.nodes = m.handles.length ∧ s.hot = 0 ∧ s.hotEmpty = 0 := by
    obtain ⟨a1, a2, a3, a4, a5⟩ := h5
    rw [hmk] at a1 a2 a3 a4 a5
    refine ⟨by simpa using a1, a2, ?_, a4, a5⟩
    rw [a3, hh]
    simp
  have hord : (makeCfgs m sel ([], {})).1 = sel := by rw [hmk]; simp
  have hperm := ho sel
  have hflat : ∀ p : Handle → Bool, (((order sel).flatMap (nodesOf m)).filter p).length = (m.handles.filter p).length := by
    intro p
    rw [hh]
    exact ((hperm.flatMap_right (nodesOf m)).filter p).length_eq
  have hany : ∀ (p : Handle → Prop) [DecidablePred p] (f : Nat), f ∈ sel → ((nodesOf m f).any fun h => decide (p h)) =
      (m.handles.any fun h => decide (h.fn = f ∧ p h)) := by
    intro p _ f hf
    rw [Bool.eq_iff_iff, List.any_eq_true, List.any_eq_true]
    constructor
    · rintro ⟨x, hx, hp⟩
      obtain ⟨hx1, hx2⟩ := (hmem f hf x).1 hx
      exact ⟨x, hx1, by simp only [decide_eq_true_eq] at hp ⊢; exact ⟨hx2, hp⟩⟩
    · rintro ⟨x, hx, hp⟩
      simp only [decide_eq_true_eq] at hp
      exact ⟨x, (hmem f hf x).2 ⟨hx, hp.1⟩, by simpa using hp.2⟩
  refine ⟨st.g, (keepHot m st.g pad (order sel) ([], s)).1, (keepHot m st.g pad (order sel) ([], s)).2, ?_, ?_, ?_, ?_⟩
  · unfold buildS
    simp only
    rw [h1, Option.map_some, hord]
  · unfold createEdges addEdges
    rw [h2]
    rfl
  · rw [keepHot_eq]
    simp only [List.nil_append]
    refine (hperm.filter _).trans ?_
    unfold keptFns
    rw [List.filter_congr (q := fun f => m.handles.any fun h => decide (h.fn = f ∧ nodeFreq st.g h ≠ 0))]
    intro f hf
    rw [hany (fun h => 0 < nodeFreq st.g h) f hf]
    simp only [Nat.pos_iff_ne_zero]
  · rw [keepHot_eq]
    obtain ⟨a1, a2, a3, a4, a5⟩ := hrest
    refine ⟨a1, a3, ?_, ?_, h4.total, h4.mixed, ?_, ?_, ?_, ?_⟩
    · intro k
      simp only
      rw [h4.created k, ksum, sum_filter_kind _ _ fun _ => 1]
      simp
    · have := sum_kinds st.g.edges fun _ => 1
      simp only [Stats.edges]
      rw [h4.created, h4.created, h4.created, ksum, ksum, ksum, this]
      simp
    · intro h0 k
      simp only at h0 ⊢
      rw [h4.weights h0 k, wsum, sum_filter_kind _ _ fun e => e.weight]
    · simp only
      rw [a4, Nat.zero_add, hflat]
    · simp only
      rw [a5, Nat.zero_add, hflat]
    · simp only
      rw [a2, Nat.zero_add, (hperm.filter _).length_eq]
      congr 1
      apply List.filter_congr
      intro f hf
      exact hany (fun h => 0 < nodeFreq st.g h ∧ pad h = true) f hf

/-- Statistics of several parts add up, counter by counter, in any order. -/
theorem add_spec (s t : Stats) : (s.add t).edges = s.edges + t.edges ∧ (s.add t).weight = s.weight + t.weight ∧ s.add t = t.add s ∧ s.add {} = s ∧
    [(s.add t).mixed, (s.add t).cfgs, (s.add t).pads, (s.add t).nodes, (s.add t).hot, (s.add t).hotEmpty] =
      List.zipWith (· + ·) [s.mixed, s.cfgs, s.pads, s.nodes, s.hot, s.hotEmpty] [t.mixed, t.cfgs, t.pads, t.nodes, t.hot, t.hotEmpty] := by
  refine ⟨?_, ?_, ?_, rfl, rfl⟩
  · simp only [Stats.edges, Stats.add]; omega
  · simp only [Stats.weight, Stats.add]; omega
  · simp only [Stats.add, Nat.add_comm]

/-! ## Example -/

/-- The example of C27, the second block of `g` being a landing pad: the hypotheses of `stats_describe` hold, and these are the
statistics. -/
theorem ex_stats : build exMap.fns [0, 1] = some exMap ∧
    (buildS exMap id (fun h => decide (h = ⟨1, 1⟩)) List.reverse [0, 1] exBrs exFts).map (fun r =>
      (r.2.1, [r.2.2.mixed, r.2.2.cfgs, r.2.2.pads, r.2.2.nodes, r.2.2.hot, r.2.2.hotEmpty], [r.2.2.created .branch, r.2.2.created .call, r.2.2.created .ret],
        [r.2.2.weights .branch, r.2.2.weights .call, r.2.2.weights .ret])) =
    some ([1, 0], [0, 2, 1, 5, 5, 0], [3, 1, 1], [18, 7, 5]) := by
  exact ⟨rfl, by decide +kernel⟩

/-- Not claimed: with branches of different kinds between the same blocks the weights by kind are not those of the edges: the graph has
one edge, a branch of weight 5, the statistics have 2 for branches and 3 for returns. -/
theorem kinds_violated : (buildS exMap id (fun _ => false) id [0, 1] [((0x13, 0x14), 2), ((0x13, 0x15), 3)] []).map (fun r =>
    (r.1.edges.map fun e => (e.kind, e.weight), r.2.2.mixed, r.2.2.weights .branch, r.2.2.weights .ret)) =
    some ([(.branch, 5)], 1, 2, 3) := by decide +kernel

end Verif.CfgStats

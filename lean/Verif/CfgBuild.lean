import Verif.InferFT

/-! # C27: building CFG edges (llvm_propeller_program_cfg_builder.cc, llvm_propeller_cfg.cc) -/
namespace Verif.CfgBuild
open Verif Verif.Mapper Verif.InferFT

/-- `CFGEdge::Kind` (llvm_propeller_cfg.h:31-38). -/
inductive Kind where
  | branch
  | call
  | ret
  deriving DecidableEq

/-- `CFGEdge` (llvm_propeller_cfg.h:27-92). A node is named by its function and block index (no clones here);
weights are unbounded (`int` in the code). -/
structure Edge where
  src : Handle
  sink : Handle
  weight : Nat
  kind : Kind
  interSection : Bool
  deriving DecidableEq

/-- The edge vectors of a `CFGNode` (llvm_propeller_cfg.h:268-271); an edge pointer is its creation index. -/
structure NodeEdges where
  intraOuts : List Nat := []
  intraIns : List Nat := []
  interOuts : List Nat := []
  interIns : List Nat := []
  deriving DecidableEq

/-- All CFGs of the program: edges in creation order, the vectors of each node, and `intra_edges_`/`inter_edges_` of each
function's CFG. -/
structure Graph where
  edges : List Edge
  node : Handle → NodeEdges
  cfgIntra : Nat → List Nat
  cfgInter : Nat → List Nat

def Graph.empty : Graph := ⟨[], fun _ => {}, fun _ => [], fun _ => []⟩

def upd {α β : Type} [DecidableEq α] (f : α → β) (a : α) (g : β → β) : α → β := fun x => if x = a then g (f x) else f x

/-- `has_duplicates` (llvm_propeller_cfg.cc). -/
def hasDup (es : List Edge) (ids : List Nat) (a b : Handle) : Bool :=
  ids.any fun i => match es[i]? with | some e => decide (e.src = a ∧ e.sink = b) | none => false

/-- `ControlFlowGraph::CreateEdge` (llvm_propeller_cfg.cc); `none`: a `CHECK` fails. -/
def createEdge (g : Graph) (a b : Handle) (w : Nat) (k : Kind) (sec : Bool) : Option (Graph × Nat) :=
  if sec = true ∧ a.fn = b.fn then none
  else if a.fn = b.fn then
    if hasDup g.edges (g.cfgIntra a.fn) a b then none
    else some (⟨g.edges ++ [⟨a, b, w, k, sec⟩],
      upd (upd g.node a fun n => { n with intraOuts := n.intraOuts ++ [g.edges.length] }) b
        fun n => { n with intraIns := n.intraIns ++ [g.edges.length] },
      upd g.cfgIntra a.fn (· ++ [g.edges.length]), g.cfgInter⟩, g.edges.length)
  else some (⟨g.edges ++ [⟨a, b, w, k, sec⟩],
      upd (upd g.node a fun n => { n with interOuts := n.interOuts ++ [g.edges.length] }) b
        fun n => { n with interIns := n.interIns ++ [g.edges.length] },
      g.cfgIntra, upd g.cfgInter a.fn (· ++ [g.edges.length])⟩, g.edges.length)

/-- The builder's state: the graph and `tmp_edge_map`. -/
structure St where
  g : Graph
  emap : List ((Handle × Handle) × Nat)

/-- A call of `InternalCreateEdge`. -/
structure Req where
  src : Nat
  sink : Nat
  weight : Nat
  kind : Kind
  deriving DecidableEq

/-- `edge->IncrementWeight(weight)`. -/
def bump (es : List Edge) (i w : Nat) : List Edge :=
  match es[i]? with
  | some e => es.set i { e with weight := e.weight + w }
  | none => es

/-- `InternalCreateEdge` (llvm_propeller_program_cfg_builder.cc), with a section name for each function.
All functions of the handles have a CFG, so the node lookup never fails; an out of range index (`at` throws) gives
`none`. Statistics are not modelled. -/
def internalCreateEdge (m : Mapper) {S : Type} [DecidableEq S] (sec : Nat → S) (st : St) (r : Req) : Option St :=
  match m.handles[r.src]?, m.handles[r.sink]? with
  | some a, some b =>
    match st.emap.lookup (a, b) with
    | some i => some { st with g := { st.g with edges := bump st.g.edges i r.weight } }
    | none => (createEdge st.g a b r.weight r.kind (decide (sec a.fn ≠ sec b.fn))).map fun p => ⟨p.1, ((a, b), p.2) :: st.emap⟩
  | _, _ => none

def addEdges (m : Mapper) {S : Type} [DecidableEq S] (sec : Nat → S) (rs : List Req) : Option St :=
  rs.foldlM (internalCreateEdge m sec) ⟨Graph.empty, []⟩

/-- `GetBBEntry(h).hasReturn()`. -/
def hasReturn (m : Mapper) (h : Handle) : Bool := ((m.bb? h).map (·.hasRet)).getD false

/-- `GetFunctionEntry(h).getFunctionAddress()`. -/
def fnAddr (m : Mapper) (h : Handle) : Nat := ((m.fns[h.fn]?).map (·.addr)).getD 0

/-- Whether a branch is treated as a return to the beginning of a block that is not a function entry. -/
def retToStart (m : Mapper) (src : Option Handle) (to_ : Nat) (h : Handle) : Bool :=
  (match src with | none => true | some s => hasReturn m s || decide (h.fn ≠ s.fn)) &&
  decide (fnAddr m h ≠ to_) && decide (to_ = m.addr h)

/-- `edge_kind` (llvm_propeller_program_cfg_builder.cc). -/
def kindOf (m : Mapper) (s h : Handle) (to_ : Nat) : Kind :=
  if fnAddr m h = to_ then .call
  else if to_ ≠ m.addr h ∨ hasReturn m s = true then .ret
  else .branch

/-- The target block after the return adjustment, and the fallthrough to count. -/
def adjust (m : Mapper) (src : Option Handle) (to_ : Nat) (j : Nat) (h : Handle) : Nat × Option (Nat × Nat) :=
  if retToStart m src to_ h = true ∧ h.bb ≠ 0 then (j - 1, some (j - 1, j)) else (j, none)

/-- One branch record in `CreateEdges`: the fallthrough to count and the edge to create. -/
def classify (m : Mapper) (br : (Nat × Nat) × Nat) : Option ((Nat × Nat) × Nat) × Option Req :=
  match find m br.1.2 .to_ with
  | none => (none, none)
  | some j =>
    match m.handles[j]? with
    | none => (none, none)
    | some h =>
      let i := find m br.1.1 .from_
      let src := i.bind fun i => m.handles[i]?
      let adj := adjust m src br.1.2 j h
      (adj.2.map fun p => (p, br.2),
       match i, src, m.handles[adj.1]? with
       | some i, some s, some h' => some ⟨i, adj.1, br.2, kindOf m s h' br.1.2⟩
       | _, _, _ => none)

/-- Block pair of a fallthrough record (first loop of `CreateFallthroughs`). -/
def fallPair (m : Mapper) (ft : (Nat × Nat) × Nat) : Option ((Nat × Nat) × Nat) :=
  match find m ft.1.1 .to_, find m ft.1.2 .from_ with
  | some i, some j => some ((i, j), ft.2)
  | _, _ => none

/-- `tmp_bb_fallthrough_counters`. -/
def fallCounters (m : Mapper) (brs fts : List ((Nat × Nat) × Nat)) : OMap (Nat ×ₗ Nat) Nat :=
  OMap.addAll [] ((brs.filterMap (fun b => (classify m b).1) ++ fts.filterMap (fallPair m)).map fun p => (toLex p.1, p.2))

/-- The edges of one accepted run (second loop of `CreateFallthroughs`). -/
def fallReqs (m : Mapper) (p : (Nat ×ₗ Nat) × Nat) : List Req :=
  let i := (ofLex p.1).1
  let j := (ofLex p.1).2
  if i = j ∨ canFallThrough m i j = false then []
  else (List.range' i (j - i)).map fun s => ⟨s, s + 1, p.2, .branch⟩

/-- All requests of `CreateEdges` and `CreateFallthroughs`, in some order of the hash maps. -/
def requests (m : Mapper) (brs fts : List ((Nat × Nat) × Nat)) : List Req :=
  brs.filterMap (fun b => (classify m b).2) ++ (fallCounters m brs fts).flatMap (fallReqs m)

/-- `CreateEdges` (llvm_propeller_program_cfg_builder.cc). The two sanity thresholds that return an error status are in
`Propeller.buildGraph`. -/
def createEdges (m : Mapper) {S : Type} [DecidableEq S] (sec : Nat → S) (brs fts : List ((Nat × Nat) × Nat)) : Option St :=
  addEdges m sec (requests m brs fts)

/-! ### Specification -/

/-- Ids of the edges satisfying a condition, in creation order. -/
def idsWhere (es : List Edge) (p : Edge → Bool) : List Nat :=
  (List.range es.length).filter fun i => match es[i]? with | some e => p e | none => false

/-- Total weight of the requests between two blocks. -/
def reqWeight (m : Mapper) (rs : List Req) (a b : Handle) : Nat :=
  ((rs.filter fun r => decide (m.handles[r.src]? = some a ∧ m.handles[r.sink]? = some b)).map (·.weight)).sum

/-- Edges are consistent with the requests `rs`: one edge per pair, weights add up, kind of the first request, and
every edge is registered exactly once at its source, at its sink and in its source's CFG. -/
structure Spec (m : Mapper) (rs : List Req) (g : Graph) : Prop where
  one : (g.edges.map fun e => (e.src, e.sink)).Nodup
  weight : ∀ e ∈ g.edges, e.weight = reqWeight m rs e.src e.sink
  made : ∀ a b, (∃ e ∈ g.edges, e.src = a ∧ e.sink = b) ↔
    ∃ r ∈ rs, m.handles[r.src]? = some a ∧ m.handles[r.sink]? = some b
  kind : ∀ e ∈ g.edges, ((rs.find? fun r => decide (m.handles[r.src]? = some e.src ∧ m.handles[r.sink]? = some e.sink)).map (·.kind)) =
    some e.kind
  intraOuts : ∀ n, (g.node n).intraOuts = idsWhere g.edges fun e => decide (e.src = n ∧ e.sink.fn = n.fn)
  intraIns : ∀ n, (g.node n).intraIns = idsWhere g.edges fun e => decide (e.sink = n ∧ e.src.fn = n.fn)
  interOuts : ∀ n, (g.node n).interOuts = idsWhere g.edges fun e => decide (e.src = n ∧ e.sink.fn ≠ n.fn)
  interIns : ∀ n, (g.node n).interIns = idsWhere g.edges fun e => decide (e.sink = n ∧ e.src.fn ≠ n.fn)
  cfgIntra : ∀ f, g.cfgIntra f = idsWhere g.edges fun e => decide (e.src.fn = f ∧ e.sink.fn = f)
  cfgInter : ∀ f, g.cfgInter f = idsWhere g.edges fun e => decide (e.src.fn = f ∧ e.sink.fn ≠ f)

/-! ### Proofs -/

/-- An edge id is listed once where its condition holds, and not elsewhere. -/
theorem mem_idsWhere {es : List Edge} {p : Edge → Bool} {i : Nat} :
    i ∈ idsWhere es p ↔ ∃ e, es[i]? = some e ∧ p e = true := by
  unfold idsWhere
  rw [List.mem_filter, List.mem_range]
  constructor
  · rintro ⟨h1, h2⟩
    rw [List.getElem?_eq_getElem h1] at h2 ⊢
    exact ⟨_, rfl, h2⟩
  · rintro ⟨e, h1, h2⟩
    exact ⟨(List.getElem?_eq_some_iff.mp h1).1, by rw [h1]; exact h2⟩

theorem idsWhere_nodup (es : List Edge) (p : Edge → Bool) : (idsWhere es p).Nodup :=
  List.Nodup.filter _ List.nodup_range

theorem idsWhere_append (es : List Edge) (p : Edge → Bool) (e : Edge) :
    idsWhere (es ++ [e]) p = idsWhere es p ++ if p e then [es.length] else [] := by
  unfold idsWhere
  rw [List.length_append, List.length_singleton, List.range_succ, List.filter_append]
  congr 1
  · apply List.filter_congr
    intro i hi
    rw [List.getElem?_append_left (List.mem_range.mp hi)]
  · simp [List.filter_cons]

theorem idsWhere_bump (es : List Edge) (p : Edge → Bool) (i w : Nat)
    (hp : ∀ e : Edge, p { e with weight := e.weight + w } = p e) : idsWhere (bump es i w) p = idsWhere es p := by
  unfold bump
  cases h : es[i]? with
  | none => rfl
  | some e =>
    simp only
    unfold idsWhere
    rw [List.length_set]
    apply List.filter_congr
    intro j hj
    rw [List.getElem?_set]
    by_cases hij : i = j
    · subst hij
      rw [if_pos rfl, if_pos (List.mem_range.mp hj), h]
      exact hp e
    · rw [if_neg hij]

/-- Invariant while adding edges. -/
structure Inv (m : Mapper) (rs : List Req) (st : St) : Prop where
  spec : Spec m rs st.g
  emap : ∀ a b i, st.emap.lookup (a, b) = some i ↔ ∃ e, st.g.edges[i]? = some e ∧ e.src = a ∧ e.sink = b

theorem reqWeight_append (m : Mapper) (rs : List Req) (r : Req) (a b : Handle) :
    reqWeight m (rs ++ [r]) a b = reqWeight m rs a b +
      if m.handles[r.src]? = some a ∧ m.handles[r.sink]? = some b then r.weight else 0 := by
  unfold reqWeight
  rw [List.filter_append, List.map_append, List.sum_append]
  congr 1
  by_cases h : m.handles[r.src]? = some a ∧ m.handles[r.sink]? = some b
  · simp [h]
  · rw [if_neg h, List.filter_cons_of_neg (by simpa using h)]; simp

theorem reqWeight_zero {m : Mapper} {rs : List Req} {a b : Handle}
    (h : ¬ ∃ r ∈ rs, m.handles[r.src]? = some a ∧ m.handles[r.sink]? = some b) : reqWeight m rs a b = 0 := by
  unfold reqWeight
  rw [List.filter_eq_nil_iff.mpr]
  · rfl
  · intro r hr hc
    exact h ⟨r, hr, by simpa using hc⟩

theorem getElem_unique {es : List Edge} (hn : (es.map fun e => (e.src, e.sink)).Nodup) {i j : Nat} {e e' : Edge}
    (hi : es[i]? = some e) (hj : es[j]? = some e') (h1 : e.src = e'.src) (h2 : e.sink = e'.sink) : i = j := by
  obtain ⟨hi1, hi2⟩ := List.getElem?_eq_some_iff.mp hi
  obtain ⟨hj1, hj2⟩ := List.getElem?_eq_some_iff.mp hj
  have := (List.Nodup.getElem_inj_iff hn (i := i) (j := j) (hi := by simpa using hi1) (hj := by simpa using hj1)).mp
    (by rw [List.getElem_map, List.getElem_map, hi2, hj2, h1, h2])
  exact this

theorem inv_empty (m : Mapper) : Inv m [] ⟨Graph.empty, []⟩ := by
  refine ⟨⟨by simp [Graph.empty], by simp [Graph.empty], by simp [Graph.empty], by simp [Graph.empty], ?_, ?_, ?_, ?_, ?_, ?_⟩,
    by simp [Graph.empty]⟩ <;> intro n <;> rfl

theorem bump_map (es : List Edge) (i w : Nat) :
    (bump es i w).map (fun e => (e.src, e.sink)) = es.map fun e => (e.src, e.sink) := by
  unfold bump
  cases h : es[i]? with
  | none => rfl
  | some e =>
    simp only
    rw [List.map_set]
    obtain ⟨h1, h2⟩ := List.getElem?_eq_some_iff.mp h
    apply List.ext_getElem
    · simp
    · intro j hj1 hj2
      rw [List.getElem_set]
      split
      · rename_i hij; subst hij; simp [h2]
      · rfl

theorem mem_bump {es : List Edge} {i w : Nat} {e : Edge} (hi : es[i]? = some e) (x : Edge) :
    x ∈ bump es i w ↔ ∃ j y, es[j]? = some y ∧ x = if j = i then { y with weight := y.weight + w } else y := by
  unfold bump
  rw [hi]; simp only
  rw [List.mem_iff_getElem?]
  constructor
  · rintro ⟨j, hj⟩
    rw [List.getElem?_set] at hj
    split at hj
    · rename_i hij
      subst hij
      split at hj
      · cases hj; exact ⟨_, e, hi, by simp⟩
      · cases hj
    · rename_i hij
      exact ⟨j, x, hj, by rw [if_neg (fun h => hij h.symm)]⟩
  · rintro ⟨j, y, hy, rfl⟩
    refine ⟨j, ?_⟩
    rw [List.getElem?_set]
    by_cases hij : i = j
    · subst hij
      rw [hi] at hy; cases hy
      rw [if_pos rfl, if_pos (List.getElem?_eq_some_iff.mp hi).1, if_pos rfl]
    · rw [if_neg hij, if_neg (fun h => hij h.symm), hy]

theorem getElem_bump {es : List Edge} {i w : Nat} {e : Edge} (hi : es[i]? = some e) (j : Nat) (a b : Handle) :
    (∃ x, (bump es i w)[j]? = some x ∧ x.src = a ∧ x.sink = b) ↔ ∃ x, es[j]? = some x ∧ x.src = a ∧ x.sink = b := by
  unfold bump
  rw [hi]; simp only
  rw [List.getElem?_set]
  by_cases hij : i = j
  · subst hij
    rw [if_pos rfl, if_pos (List.getElem?_eq_some_iff.mp hi).1, hi]
    simp
  · rw [if_neg hij]

theorem find_append_kind {m : Mapper} {rs : List Req} {a b : Handle} (r : Req)
    (h : ∃ r ∈ rs, m.handles[r.src]? = some a ∧ m.handles[r.sink]? = some b) :
    (rs ++ [r]).find? (fun r => decide (m.handles[r.src]? = some a ∧ m.handles[r.sink]? = some b)) =
    rs.find? fun r => decide (m.handles[r.src]? = some a ∧ m.handles[r.sink]? = some b) := by
  rw [List.find?_append]
  cases hf : rs.find? fun r => decide (m.handles[r.src]? = some a ∧ m.handles[r.sink]? = some b) with
  | some x => rfl
  | none =>
    obtain ⟨x, hx, h1⟩ := h
    have := List.find?_eq_none.mp hf x hx
    simp [h1] at this

theorem step_inv {m : Mapper} {S : Type} [DecidableEq S] (sec : Nat → S) {rs : List Req} {st : St} (hI : Inv m rs st) (r : Req)
    (h1 : r.src < m.handles.length) (h2 : r.sink < m.handles.length) :
    ∃ st', internalCreateEdge m sec st r = some st' ∧ Inv m (rs ++ [r]) st' := by
  obtain ⟨a, ha⟩ : ∃ a, m.handles[r.src]? = some a := ⟨_, List.getElem?_eq_getElem h1⟩
  obtain ⟨b, hb⟩ : ∃ b, m.handles[r.sink]? = some b := ⟨_, List.getElem?_eq_getElem h2⟩
  have hS := hI.spec
  have hw : ∀ x y, reqWeight m (rs ++ [r]) x y = reqWeight m rs x y + if a = x ∧ b = y then r.weight else 0 := by
    intro x y; rw [reqWeight_append, ha, hb]; simp
  unfold internalCreateEdge
  rw [ha, hb]
  simp only
  cases hl : st.emap.lookup (a, b) with
  | some i =>
    simp only
    obtain ⟨e, he, hea, heb⟩ := (hI.emap a b i).mp hl
    have hmem : ∃ r ∈ rs, m.handles[r.src]? = some a ∧ m.handles[r.sink]? = some b :=
      (hS.made a b).mp ⟨e, List.mem_of_getElem? he, hea, heb⟩
    refine ⟨_, rfl, ⟨⟨?_, ?_, ?_, ?_, ?_, ?_, ?_, ?_, ?_, ?_⟩, ?_⟩⟩
    · show ((bump st.g.edges i r.weight).map _).Nodup
      rw [bump_map]; exact hS.one
    · intro x hx
      obtain ⟨j, y, hy, rfl⟩ := (mem_bump he x).mp hx
      by_cases hji : j = i
      · subst hji
        rw [he] at hy; cases hy
        rw [if_pos rfl]
        simp only
        rw [hw, if_pos ⟨hea.symm, heb.symm⟩, hS.weight e (List.mem_of_getElem? he)]
      · rw [if_neg hji, hw, if_neg, hS.weight y (List.mem_of_getElem? hy), Nat.add_zero]
        rintro ⟨h3, h4⟩
        exact hji (getElem_unique hS.one hy he (by rw [← h3, hea]) (by rw [← h4, heb]))
    · intro x y
      have h3 : (∃ e ∈ bump st.g.edges i r.weight, e.src = x ∧ e.sink = y) ↔ ∃ e ∈ st.g.edges, e.src = x ∧ e.sink = y := by
        have := bump_map st.g.edges i r.weight
        have h4 : ∀ l : List Edge, (∃ e ∈ l, e.src = x ∧ e.sink = y) ↔ (x, y) ∈ l.map fun e => (e.src, e.sink) := by
          intro l; simp [List.mem_map]
        rw [h4, h4, this]
      show (∃ e ∈ bump st.g.edges i r.weight, _) ↔ _
      rw [h3, hS.made]
      constructor
      · rintro ⟨q, hq, h⟩; exact ⟨q, by simp [hq], h⟩
      · rintro ⟨q, hq, h⟩
        rcases List.mem_append.mp hq with hq | hq
        · exact ⟨q, hq, h⟩
        · rcases List.mem_singleton.mp hq with rfl
          rw [ha, hb] at h; simp only [Option.some.injEq] at h
          rw [← h.1, ← h.2]; exact hmem
    · intro x hx
      obtain ⟨j, y, hy, rfl⟩ := (mem_bump he x).mp hx
      have hk := hS.kind y (List.mem_of_getElem? hy)
      have hy' := (hS.made y.src y.sink).mp ⟨y, List.mem_of_getElem? hy, rfl, rfl⟩
      split
      · simp only; rw [find_append_kind r hy', hk]
      · rw [find_append_kind r hy', hk]
    all_goals
      intro n
      first
      | (show (st.g.node n).intraOuts = idsWhere (bump st.g.edges i r.weight) _
         rw [idsWhere_bump _ _ _ _ (fun _ => rfl)]; exact hS.intraOuts n)
      | (show (st.g.node n).intraIns = idsWhere (bump st.g.edges i r.weight) _
         rw [idsWhere_bump _ _ _ _ (fun _ => rfl)]; exact hS.intraIns n)
      | (show (st.g.node n).interOuts = idsWhere (bump st.g.edges i r.weight) _
         rw [idsWhere_bump _ _ _ _ (fun _ => rfl)]; exact hS.interOuts n)
      | (show (st.g.node n).interIns = idsWhere (bump st.g.edges i r.weight) _
         rw [idsWhere_bump _ _ _ _ (fun _ => rfl)]; exact hS.interIns n)
      | (show st.g.cfgIntra n = idsWhere (bump st.g.edges i r.weight) _
         rw [idsWhere_bump _ _ _ _ (fun _ => rfl)]; exact hS.cfgIntra n)
      | (show st.g.cfgInter n = idsWhere (bump st.g.edges i r.weight) _
         rw [idsWhere_bump _ _ _ _ (fun _ => rfl)]; exact hS.cfgInter n)
      | (intro y j
         show st.emap.lookup (n, y) = some j ↔ ∃ x, (bump st.g.edges i r.weight)[j]? = some x ∧ _
         rw [getElem_bump he, hI.emap])
  | none =>
    simp only
    have hno : ¬ ∃ e ∈ st.g.edges, e.src = a ∧ e.sink = b := by
      rintro ⟨e, he, h3⟩
      obtain ⟨i, hi⟩ := List.mem_iff_getElem?.mp he
      rw [(hI.emap a b i).mpr ⟨e, hi, h3⟩] at hl; cases hl
    have hno' : ¬ ∃ r ∈ rs, m.handles[r.src]? = some a ∧ m.handles[r.sink]? = some b := by rw [← hS.made]; exact hno
    have hdup : ∀ ids, hasDup st.g.edges ids a b = false := by
      intro ids
      rw [Bool.eq_false_iff]
      intro hc
      unfold hasDup at hc
      obtain ⟨i, _, hi⟩ := List.any_eq_true.mp hc
      cases he : st.g.edges[i]? with
      | none => rw [he] at hi; simp at hi
      | some e => rw [he] at hi; exact hno ⟨e, List.mem_of_getElem? he, by simpa using hi⟩
    -- the parts that do not depend on the kind of edge
    have common : ∀ st' : St, ∀ s : Bool, st'.g.edges = st.g.edges ++ [⟨a, b, r.weight, r.kind, s⟩] →
        st'.emap = ((a, b), st.g.edges.length) :: st.emap →
        (∀ n, (st'.g.node n).intraOuts = (st.g.node n).intraOuts ++ if a = n ∧ b.fn = n.fn then [st.g.edges.length] else []) →
        (∀ n, (st'.g.node n).intraIns = (st.g.node n).intraIns ++ if b = n ∧ a.fn = n.fn then [st.g.edges.length] else []) →
        (∀ n, (st'.g.node n).interOuts = (st.g.node n).interOuts ++ if a = n ∧ b.fn ≠ n.fn then [st.g.edges.length] else []) →
        (∀ n, (st'.g.node n).interIns = (st.g.node n).interIns ++ if b = n ∧ a.fn ≠ n.fn then [st.g.edges.length] else []) →
        (∀ f, st'.g.cfgIntra f = st.g.cfgIntra f ++ if a.fn = f ∧ b.fn = f then [st.g.edges.length] else []) →
        (∀ f, st'.g.cfgInter f = st.g.cfgInter f ++ if a.fn = f ∧ b.fn ≠ f then [st.g.edges.length] else []) →
        Inv m (rs ++ [r]) st' := by
      intro st' s he hem c1 c2 c3 c4 c5 c6
      refine ⟨⟨?_, ?_, ?_, ?_, ?_, ?_, ?_, ?_, ?_, ?_⟩, ?_⟩
      · rw [he, List.map_append, List.nodup_append]
        refine ⟨hS.one, by simp, ?_⟩
        intro x hx y hy hxy
        subst hxy
        simp only [List.map_cons, List.map_nil, List.mem_singleton] at hy
        obtain ⟨e, he1, he2⟩ := List.mem_map.mp hx
        rw [hy] at he2
        simp only [Prod.mk.injEq] at he2
        exact hno ⟨e, he1, he2⟩
      · intro e hm
        rw [he] at hm
        rcases List.mem_append.mp hm with hm | hm
        · rw [hw, if_neg, hS.weight e hm, Nat.add_zero]
          rintro ⟨h3, h4⟩; exact hno ⟨e, hm, h3.symm, h4.symm⟩
        · rcases List.mem_singleton.mp hm with rfl
          simp only
          rw [hw, if_pos ⟨rfl, rfl⟩, reqWeight_zero hno', Nat.zero_add]
      · intro x y
        rw [he]
        constructor
        · rintro ⟨e, hm, h3⟩
          rcases List.mem_append.mp hm with hm | hm
          · obtain ⟨q, hq, h4⟩ := (hS.made x y).mp ⟨e, hm, h3⟩
            exact ⟨q, by simp [hq], h4⟩
          · rcases List.mem_singleton.mp hm with rfl
            exact ⟨r, by simp, by rw [ha, ← h3.1], by rw [hb, ← h3.2]⟩
        · rintro ⟨q, hq, h3⟩
          rcases List.mem_append.mp hq with hq | hq
          · obtain ⟨e, hm, h4⟩ := (hS.made x y).mpr ⟨q, hq, h3⟩
            exact ⟨e, by simp [hm], h4⟩
          · rcases List.mem_singleton.mp hq with rfl
            rw [ha, hb] at h3
            simp only [Option.some.injEq] at h3
            exact ⟨_, List.mem_append_right _ (List.mem_singleton.mpr rfl), h3⟩
      · intro e hm
        rw [he] at hm
        rcases List.mem_append.mp hm with hm | hm
        · rw [find_append_kind r ((hS.made e.src e.sink).mp ⟨e, hm, rfl, rfl⟩)]; exact hS.kind e hm
        · rcases List.mem_singleton.mp hm with rfl
          simp only
          rw [List.find?_append, List.find?_eq_none.mpr]
          · simp [ha, hb]
          · intro q hq hc
            exact hno' ⟨q, hq, by simpa using hc⟩
      · intro n; rw [c1, he, idsWhere_append, hS.intraOuts n]; simp
      · intro n; rw [c2, he, idsWhere_append, hS.intraIns n]; simp
      · intro n; rw [c3, he, idsWhere_append, hS.interOuts n]; simp
      · intro n; rw [c4, he, idsWhere_append, hS.interIns n]; simp
      · intro n; rw [c5, he, idsWhere_append, hS.cfgIntra n]; simp
      · intro n; rw [c6, he, idsWhere_append, hS.cfgInter n]; simp
      · intro x y i
        rw [hem, he, List.lookup_cons]
        by_cases hxy : (x, y) = (a, b)
        · simp only [Prod.mk.injEq] at hxy
          obtain ⟨rfl, rfl⟩ := hxy
          simp only [beq_self_eq_true]
          constructor
          · intro h
            cases h
            exact ⟨⟨x, y, r.weight, r.kind, s⟩, by simp, rfl, rfl⟩
          · rintro ⟨e, h3, h4⟩
            rcases Nat.lt_trichotomy i st.g.edges.length with h | h | h
            · rw [List.getElem?_append_left h] at h3
              exact absurd ⟨e, List.mem_of_getElem? h3, h4⟩ hno
            · rw [h]
            · rw [List.getElem?_eq_none (by simp; omega)] at h3; cases h3
        · have : ((x, y) == (a, b)) = false := by simpa using hxy
          rw [this]
          simp only
          rw [hI.emap]
          constructor
          · rintro ⟨e, h3, h4⟩
            exact ⟨e, by rw [List.getElem?_append_left (List.getElem?_eq_some_iff.mp h3).1]; exact h3, h4⟩
          · rintro ⟨e, h3, h4⟩
            rcases Nat.lt_trichotomy i st.g.edges.length with h | h | h
            · rw [List.getElem?_append_left h] at h3; exact ⟨e, h3, h4⟩
            · rw [h] at h3
              simp at h3
              exact absurd (by rw [← h4.1, ← h4.2, ← h3]) hxy
            · rw [List.getElem?_eq_none (by simp; omega)] at h3; cases h3
    unfold createEdge
    by_cases hf : a.fn = b.fn
    · rw [if_neg (by simp [hf]), if_pos hf, hdup, if_neg (by simp)]
      refine ⟨_, rfl, common _ _ rfl rfl ?_ ?_ ?_ ?_ ?_ ?_⟩
      all_goals
        intro n
        simp only [upd]
        first
        | (by_cases hna : n = a
           · by_cases hnb : n = b
             · subst hna; subst hnb; simp
             · subst hna; simp [hnb, Ne.symm hnb, hf]
           · by_cases hnb : n = b
             · subst hnb; simp [hna, Ne.symm hna, hf]
             · simp [hna, hnb, Ne.symm hna, Ne.symm hnb])
        | (by_cases hn : n = a.fn
           · simp [hn, hf]
           · simp [hn, Ne.symm hn])
        | (by_cases hn : a.fn = n
           · simp [hn, ← hf]
           · simp [hn])
    · rw [if_neg (by simp [hf]), if_neg hf]
      have hab : a ≠ b := fun h => hf (by rw [h])
      refine ⟨_, rfl, common _ _ rfl rfl ?_ ?_ ?_ ?_ ?_ ?_⟩
      all_goals
        intro n
        simp only [upd]
        first
        | (by_cases hna : n = a
           · subst hna; simp [hab, hab.symm, Ne.symm hf]
           · by_cases hnb : n = b
             · subst hnb; simp [hab, hab.symm, hf]
             · simp [hna, hnb, Ne.symm hna, Ne.symm hnb])
        | (by_cases hn : n = a.fn
           · simp [hn, Ne.symm hf]
           · simp [hn, Ne.symm hn])

theorem foldlM_inv {m : Mapper} {S : Type} [DecidableEq S] (sec : Nat → S) : ∀ (rs : List Req) (rs0 : List Req) (st : St), Inv m rs0 st →
    (∀ r ∈ rs, r.src < m.handles.length ∧ r.sink < m.handles.length) →
    ∃ st', rs.foldlM (internalCreateEdge m sec) st = some st' ∧ Inv m (rs0 ++ rs) st'
  | [], rs0, st, hI, _ => ⟨st, rfl, by simpa using hI⟩
  | r :: rs, rs0, st, hI, h => by
    obtain ⟨st1, h1, hI1⟩ := step_inv sec hI r (h r (by simp)).1 (h r (by simp)).2
    obtain ⟨st2, h2, hI2⟩ := foldlM_inv sec rs (rs0 ++ [r]) st1 hI1 fun q hq => h q (by simp [hq])
    refine ⟨st2, ?_, by simpa using hI2⟩
    rw [List.foldlM_cons, h1]; exact h2

/-- For every sequence of requests between existing blocks, building succeeds (no duplicate-edge check fails) and the
resulting edges are consistent with the requests. -/
theorem addEdges_spec (m : Mapper) {S : Type} [DecidableEq S] (sec : Nat → S) (rs : List Req)
    (h : ∀ r ∈ rs, r.src < m.handles.length ∧ r.sink < m.handles.length) :
    ∃ st, addEdges m sec rs = some st ∧ Spec m rs st.g := by
  obtain ⟨st, h1, h2⟩ := foldlM_inv sec rs [] _ (inv_empty m) h
  exact ⟨st, h1, by simpa using h2.spec⟩

end Verif.CfgBuild

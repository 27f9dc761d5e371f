import Verif.CfgBuild
import Mathlib.Data.List.Nodup
import Mathlib.Data.List.Perm.Basic

/-!
# C92: control flow graphs in a file
Model of `ProgramCfgProtoBuilder::AddCfgs` (llvm_propeller_program_cfg_proto_builder.cc:42-94) and of `BuildFromCfgProto`
(llvm_propeller_mock_program_cfg_builder.cc:31-118).  The text format of protocol buffers is not modelled: the message is what is in the
file.  Function and block indexes are natural numbers (`int` here, `uint32` in the message, converted back and forth without loss).
-/
namespace Verif.CfgProto
open Verif.CfgBuild (Kind)

abbrev Name := List Nat

/-- `CFGEdgePb` (llvm_propeller_cfg.proto). -/
structure EdgePb where
  fn : Nat
  bb : Nat
  weight : Nat
  kind : Kind
deriving DecidableEq

/-- `CFGNodePb` (llvm_propeller_cfg.proto). -/
structure NodePb where
  size : Nat
  edges : List EdgePb
  bbId : Nat
  fall : Bool
  ret : Bool
  tail : Bool
  pad : Bool
deriving DecidableEq

/-- `ControlFlowGraphPb` (llvm_propeller_cfg.proto). -/
structure CfgPb where
  nodes : List NodePb
  names : List Name
  fn : Nat
  section_ : Name
deriving DecidableEq

/-- `BBAddrMap::BBEntry::Metadata`. -/
structure Meta where
  ret : Bool
  tail : Bool
  pad : Bool
  fall : Bool
  indirect : Bool
deriving DecidableEq

/-- `CFGNode` (llvm_propeller_cfg.h:93-275) without its edges. -/
structure Block where
  addr : Nat
  bb : Nat
  clone : Nat
  bbId : Nat
  size : Int
  info : Meta
deriving DecidableEq

/-- An edge in `intra_edges_`: source and sink are block indexes, clones with their number (llvm_propeller_cfg.h:27-92). -/
structure Edge where
  src : Nat × Nat
  sink : Nat × Nat
  weight : Int
  kind : Kind
deriving DecidableEq

/-- An edge in `inter_edges_`, with the function of the sink. -/
structure XEdge where
  src : Nat × Nat
  fn : Nat
  sink : Nat × Nat
  weight : Int
  kind : Kind
  interSection : Bool
deriving DecidableEq

/-- `ControlFlowGraph` (llvm_propeller_cfg.h:277-522). -/
structure Cfg where
  section_ : Name
  fn : Nat
  module_ : Option Name
  names : List Name
  blocks : List Block
  edges : List Edge
  xedges : List XEdge
deriving DecidableEq

/-- `intra_outs()` of a block: `CreateEdge` (llvm_propeller_cfg.cc:42-70) appends to it whenever it appends to `intra_edges_`. -/
def Cfg.outs (c : Cfg) (b : Block) : List Edge := c.edges.filter fun e => decide (e.src = (b.bb, b.clone))

/-! ## Writing -/

/-- From `int` to `uint64`. -/
def toU64 (x : Int) : Nat := (x % 2 ^ 64).toNat

/-- `PopulateCFGEdgePb` (llvm_propeller_program_cfg_proto_builder.cc:75-94); the sink is in the same function. -/
def edgePb (fn : Nat) (e : Edge) : EdgePb := ⟨fn, e.sink.1, toU64 e.weight, e.kind⟩

/-- `PopulateCFGNodePb` (llvm_propeller_program_cfg_proto_builder.cc:58-73); `none`: the check of the clone number fails. -/
def nodePb (c : Cfg) (b : Block) : Option NodePb :=
  if b.clone = 0 then some ⟨toU64 b.size, (c.outs b).map (edgePb c.fn), b.bbId, b.info.fall, b.info.ret, b.info.tail, b.info.pad⟩ else none

/-- `PopulateControlFlowGraphPb` (llvm_propeller_program_cfg_proto_builder.cc:50-56). -/
def cfgPb (c : Cfg) : Option CfgPb := (c.blocks.mapM (nodePb c)).map fun ns => ⟨ns, c.names, c.fn, c.section_⟩

/-- `AddCfgs` (llvm_propeller_program_cfg_proto_builder.cc:43-48); the list is the hash map in the order of its iteration. -/
def write (p : List Cfg) : Option (List CfgPb) := p.mapM cfgPb

/-! ## Reading -/

/-- From `uint64` to `int`. -/
def toI32 (n : Nat) : Int := Int.bmod n (2 ^ 32)

/-- `ConvertFromPb` for the metadata (llvm_propeller_mock_program_cfg_builder.cc:48-54). -/
def metaOf (n : NodePb) : Meta where
  ret := n.ret
  tail := n.tail
  pad := n.pad
  fall := n.pad
  indirect := false

/-- `CreateNodeFromNodePb` (llvm_propeller_mock_program_cfg_builder.cc:56-64). -/
def blockOf (n : NodePb) : Block := ⟨0, n.bbId, 0, n.bbId, toI32 n.size, metaOf n⟩

/-- One function (llvm_propeller_mock_program_cfg_builder.cc:79-97) with the checks of the constructor (llvm_propeller_cfg.h:311-323) and
of `emplace`. -/
def addCfg (p : List Cfg) (c : CfgPb) : Option (List Cfg) :=
  if (c.nodes.map blockOf).map (·.bb) = List.range c.nodes.length ∧ ∀ d ∈ p, d.fn ≠ c.fn then
    some (p ++ [⟨c.section_, c.fn, none, c.names, c.nodes.map blockOf, [], []⟩])
  else none

/-- `id_to_node_map.at`: the function has a block with this id. -/
def hasNode (p : List Cfg) (fn bb : Nat) : Bool := p.any fun c => decide (c.fn = fn) && c.blocks.any fun b => decide ((b.bb, b.clone) = (bb, 0))

/-- `cfgs.at(...)->section_name()`. -/
def sectionOf (p : List Cfg) (fn : Nat) : Option Name := (p.find? fun c => decide (c.fn = fn)).map (·.section_)

/-- An edge of the file with the function and block it is stored in. -/
structure Item where
  cfg : CfgPb
  node : NodePb
  edge : EdgePb
deriving DecidableEq

/-- All edges of the file, in the order of the three loops (llvm_propeller_mock_program_cfg_builder.cc:100-102). -/
def items (pb : List CfgPb) : List Item := pb.flatMap fun c => c.nodes.flatMap fun n => n.edges.map fun e => ⟨c, n, e⟩

/-- `CreateEdge` (llvm_propeller_cfg.cc:42-70) in the function of the source. -/
def createEdge (c : Cfg) (i : Item) (interSection : Bool) : Option Cfg :=
  if interSection = true ∧ i.edge.fn = c.fn then none
  else if i.edge.fn = c.fn then
    if c.edges.any fun e => decide (e.src = (i.node.bbId, 0) ∧ e.sink = (i.edge.bb, 0)) then none
    else some { c with edges := c.edges ++ [⟨(i.node.bbId, 0), (i.edge.bb, 0), toI32 i.edge.weight, i.edge.kind⟩] }
  else some { c with xedges := c.xedges ++ [⟨(i.node.bbId, 0), i.edge.fn, (i.edge.bb, 0), toI32 i.edge.weight, i.edge.kind, interSection⟩] }

/-- One edge (llvm_propeller_mock_program_cfg_builder.cc:103-116). -/
def addEdge (p : List Cfg) (i : Item) : Option (List Cfg) :=
  if hasNode p i.cfg.fn i.node.bbId = true ∧ hasNode p i.edge.fn i.edge.bb = true then
    (sectionOf p i.edge.fn).bind fun s =>
      p.mapM fun c => if c.fn = i.cfg.fn then createEdge c i (decide (s ≠ i.cfg.section_)) else some c
  else none

/-- `BuildFromCfgProto` (llvm_propeller_mock_program_cfg_builder.cc:68-118). -/
def read (pb : List CfgPb) : Option (List Cfg) := (pb.foldlM addCfg []).bind fun p => (items pb).foldlM addEdge p

/-! ## Specification -/

/-- A file that can be read: the functions are different, blocks are numbered by their ids, sinks exist, and no block has two edges to
one block of its function. -/
structure Valid (pb : List CfgPb) : Prop where
  fns : (pb.map (·.fn)).Nodup
  ids : ∀ c ∈ pb, ∀ (i : Nat) (n : NodePb), c.nodes[i]? = some n → n.bbId = i
  sinks : ∀ c ∈ pb, ∀ n ∈ c.nodes, ∀ e ∈ n.edges, ∃ d ∈ pb, d.fn = e.fn ∧ e.bb < d.nodes.length
  once : ∀ c ∈ pb, ∀ n ∈ c.nodes, ((n.edges.filter fun e => decide (e.fn = c.fn)).map (·.bb)).Nodup

/-- The graph of a function in the file. -/
def graphOf (pb : List CfgPb) (c : CfgPb) : Cfg where
  section_ := c.section_
  fn := c.fn
  module_ := none
  names := c.names
  blocks := c.nodes.map blockOf
  edges := c.nodes.flatMap fun n => (n.edges.filter fun e => decide (e.fn = c.fn)).map fun e => ⟨(n.bbId, 0), (e.bb, 0), toI32 e.weight, e.kind⟩
  xedges := c.nodes.flatMap fun n => (n.edges.filter fun e => decide (e.fn ≠ c.fn)).map fun e =>
    ⟨(n.bbId, 0), e.fn, (e.bb, 0), toI32 e.weight, e.kind, decide (∃ d ∈ pb, d.fn = e.fn ∧ d.section_ ≠ c.section_)⟩

/-- The graphs of a program in memory: as C88 shows for one function, blocks without clones are numbered, edges are between blocks, and no
two have the same ends.  Sizes and weights are `int`. -/
structure Wf (p : List Cfg) : Prop where
  fns : (p.map (·.fn)).Nodup
  blocks : ∀ c ∈ p, (∀ b ∈ c.blocks, b.clone = 0) → ∀ (i : Nat) (b : Block), c.blocks[i]? = some b → b.bb = i
  ends : ∀ c ∈ p, ∀ e ∈ c.edges, (∃ b ∈ c.blocks, (b.bb, b.clone) = e.src) ∧ ∃ b ∈ c.blocks, (b.bb, b.clone) = e.sink
  once : ∀ c ∈ p, (c.edges.map fun e => (e.src, e.sink)).Nodup
  ints : ∀ c ∈ p, (∀ b ∈ c.blocks, -2 ^ 31 ≤ b.size ∧ b.size < 2 ^ 31) ∧ ∀ e ∈ c.edges, -2 ^ 31 ≤ e.weight ∧ e.weight < 2 ^ 31

/-- What becomes of a function that is written and read: the address, the module, the edges to other functions, `can_fallthrough` and
`has_indirect_branch` are lost, and the edges are ordered by their source. -/
def reread (c : Cfg) : Cfg where
  section_ := c.section_
  fn := c.fn
  module_ := none
  names := c.names
  blocks := c.blocks.map fun b => { b with addr := 0, info := { b.info with fall := b.info.pad, indirect := false } }
  edges := c.blocks.flatMap c.outs
  xedges := []

/-! ## Proof -/

theorem mapM_some {α β : Type} {f : α → Option β} {g : α → β} : ∀ {l : List α}, (∀ x ∈ l, f x = some (g x)) → l.mapM f = some (l.map g)
  | [], _ => rfl
  | a :: l, h => by
    rw [List.mapM_cons, h a (by simp), mapM_some fun x hx => h x (List.mem_cons_of_mem _ hx)]
    rfl

theorem mapM_none {α β : Type} {f : α → Option β} : ∀ {l : List α}, (∃ x ∈ l, f x = none) → l.mapM f = none
  | [], h => by obtain ⟨_, h, _⟩ := h; cases h
  | a :: l, h => by
    rw [List.mapM_cons]
    cases ha : f a with
    | none => rfl
    | some y =>
      obtain ⟨x, hx, hn⟩ := h
      rcases List.mem_cons.1 hx with rfl | hx
      · rw [ha] at hn; cases hn
      · rw [mapM_none ⟨x, hx, hn⟩]; rfl

theorem mapM_map_some {α β γ : Type} {f : β → Option γ} {g : α → β} {h : α → γ} : ∀ {l : List α}, (∀ x ∈ l, f (g x) = some (h x)) →
    (l.map g).mapM f = some (l.map h)
  | [], _ => rfl
  | a :: l, hh => by
    rw [List.map_cons, List.mapM_cons, hh a (by simp), mapM_map_some fun x hx => hh x (List.mem_cons_of_mem _ hx)]
    rfl

/-- A function without edges. -/
def base (c : CfgPb) : Cfg := ⟨c.section_, c.fn, none, c.names, c.nodes.map blockOf, [], []⟩

theorem ids_iff (c : CfgPb) : (c.nodes.map blockOf).map (·.bb) = List.range c.nodes.length ↔
    ∀ (i : Nat) (n : NodePb), c.nodes[i]? = some n → n.bbId = i := by
  constructor
  · intro h i n hn
    have h1 : ((c.nodes.map blockOf).map (·.bb))[i]? = some n.bbId := by simp [hn, blockOf]
    rw [h] at h1
    have hi : i < c.nodes.length := (List.getElem?_eq_some_iff.1 hn).1
    rw [List.getElem?_range hi] at h1
    exact (Option.some.inj h1).symm
  · intro h
    apply List.ext_getElem?
    intro i
    by_cases hi : i < c.nodes.length
    · rw [List.getElem?_range hi]
      have := h i c.nodes[i] (List.getElem?_eq_getElem hi)
      simp [hi, blockOf, this]
    · rw [List.getElem?_eq_none (by simpa using hi), List.getElem?_eq_none (by simpa using hi)]

theorem addCfgs (pb : List CfgPb) : ∀ p : List Cfg,
    (((∀ c ∈ pb, ∀ (i : Nat) (n : NodePb), c.nodes[i]? = some n → n.bbId = i) ∧ (pb.map (·.fn)).Nodup ∧ ∀ d ∈ p, ∀ c ∈ pb, d.fn ≠ c.fn) →
      pb.foldlM addCfg p = some (p ++ pb.map base)) ∧
    (¬ ((∀ c ∈ pb, ∀ (i : Nat) (n : NodePb), c.nodes[i]? = some n → n.bbId = i) ∧ (pb.map (·.fn)).Nodup ∧ ∀ d ∈ p, ∀ c ∈ pb, d.fn ≠ c.fn) →
      pb.foldlM addCfg p = none) := by
  induction pb with
  | nil => intro p; simp
  | cons c pb ih =>
    intro p
    rw [List.foldlM_cons]
    classical
    have hstep : addCfg p c = if (∀ (i : Nat) (n : NodePb), c.nodes[i]? = some n → n.bbId = i) ∧ ∀ d ∈ p, d.fn ≠ c.fn then
        some (p ++ [base c]) else none := by
      unfold addCfg
      by_cases h : (c.nodes.map blockOf).map (·.bb) = List.range c.nodes.length ∧ ∀ d ∈ p, d.fn ≠ c.fn
      · rw [if_pos h, if_pos ⟨(ids_iff c).1 h.1, h.2⟩]; rfl
      · rw [if_neg h, if_neg fun x => h ⟨(ids_iff c).2 x.1, x.2⟩]
    rw [hstep]
    by_cases h : (∀ (i : Nat) (n : NodePb), c.nodes[i]? = some n → n.bbId = i) ∧ ∀ d ∈ p, d.fn ≠ c.fn
    · rw [if_pos h]
      obtain ⟨i1, i2⟩ := ih (p ++ [base c])
      have e : ((∀ c' ∈ c :: pb, ∀ (i : Nat) (n : NodePb), c'.nodes[i]? = some n → n.bbId = i) ∧ ((c :: pb).map (·.fn)).Nodup ∧
          ∀ d ∈ p, ∀ c' ∈ c :: pb, d.fn ≠ c'.fn) ↔
          ((∀ c ∈ pb, ∀ (i : Nat) (n : NodePb), c.nodes[i]? = some n → n.bbId = i) ∧ (pb.map (·.fn)).Nodup ∧ ∀ d ∈ p ++ [base c], ∀ c ∈ pb, d.fn ≠ c.fn) := by
        simp only [List.forall_mem_cons, List.map_cons, List.nodup_cons, List.mem_map, not_exists, not_and]
        constructor
        · rintro ⟨⟨_, a⟩, ⟨b, b'⟩, d⟩
          refine ⟨a, b', fun x hx y hy => ?_⟩
          rcases List.mem_append.1 hx with hx | hx
          · exact (d x hx).2 y hy
          · rw [List.mem_singleton] at hx
            subst hx
            exact fun e => b y hy e.symm
        · rintro ⟨a, b, d⟩
          refine ⟨⟨h.1, a⟩, ⟨fun y hy e => d (base c) (by simp) y hy e.symm, b⟩, fun x hx => ⟨h.2 x hx, d x (List.mem_append_left _ hx)⟩⟩
      constructor
      · intro hh
        refine (i1 (e.1 hh)).trans ?_
        rw [List.append_assoc]; rfl
      · intro hh
        exact i2 fun x => hh (e.2 x)
    · rw [if_neg h]
      refine ⟨fun hh => absurd ⟨hh.1 c (by simp), fun d hd => hh.2.2 d hd c (by simp)⟩ h, fun _ => rfl⟩

/-- The edge of an item, within its function. -/
def inner (i : Item) : Edge := ⟨(i.node.bbId, 0), (i.edge.bb, 0), toI32 i.edge.weight, i.edge.kind⟩

/-- The edge of an item, to another function. -/
def outer (B : List Cfg) (i : Item) : XEdge :=
  ⟨(i.node.bbId, 0), i.edge.fn, (i.edge.bb, 0), toI32 i.edge.weight, i.edge.kind, decide (sectionOf B i.edge.fn ≠ some i.cfg.section_)⟩

/-- A function with the edges of some items. -/
def grow (B : List Cfg) (ts : List Item) (c : Cfg) : Cfg :=
  { c with
    edges := (ts.filter fun i => decide (i.cfg.fn = c.fn ∧ i.edge.fn = c.fn)).map inner
    xedges := (ts.filter fun i => decide (i.cfg.fn = c.fn ∧ i.edge.fn ≠ c.fn)).map (outer B) }

theorem hasNode_grow (B : List Cfg) (ts : List Item) (f b : Nat) : hasNode (B.map (grow B ts)) f b = hasNode B f b := by
  unfold hasNode
  rw [List.any_map]
  rfl

theorem sectionOf_grow (B : List Cfg) (ts : List Item) (f : Nat) : sectionOf (B.map (grow B ts)) f = sectionOf B f := by
  unfold sectionOf
  rw [List.find?_map, Option.map_map]
  rfl

/-- Two items for the same pair of blocks of one function. -/
def Same (i j : Item) : Prop :=
  i.cfg.fn = j.cfg.fn ∧ i.edge.fn = i.cfg.fn ∧ j.edge.fn = j.cfg.fn ∧ i.node.bbId = j.node.bbId ∧ i.edge.bb = j.edge.bb

def Ends (B : List Cfg) (i : Item) : Prop := hasNode B i.cfg.fn i.node.bbId = true ∧ hasNode B i.edge.fn i.edge.bb = true

theorem grow_snoc (B : List Cfg) (ts : List Item) (i : Item) (c : Cfg) : grow B (ts ++ [i]) c =
    { grow B ts c with
      edges := (grow B ts c).edges ++ if i.cfg.fn = c.fn ∧ i.edge.fn = c.fn then [inner i] else []
      xedges := (grow B ts c).xedges ++ if i.cfg.fn = c.fn ∧ i.edge.fn ≠ c.fn then [outer B i] else [] } := by
  unfold grow
  simp only [List.filter_append, List.map_append]
  congr 1
  · congr 1
    by_cases h : i.cfg.fn = c.fn ∧ i.edge.fn = c.fn <;> simp [h]
  · congr 1
    by_cases h : i.cfg.fn = c.fn ∧ i.edge.fn ≠ c.fn
    · simp [h]
    · rw [if_neg h]
      have : decide (i.cfg.fn = c.fn ∧ i.edge.fn ≠ c.fn) = false := decide_eq_false h
      simp only [List.filter_cons, this, List.filter_nil]
      rfl

theorem addEdge_grow (pb : List CfgPb) (hf : (pb.map (·.fn)).Nodup) (ts : List Item) (i : Item) (hi : i.cfg ∈ pb) :
    ((Ends (pb.map base) i ∧ ∀ j ∈ ts, ¬ Same j i) →
      addEdge ((pb.map base).map (grow (pb.map base) ts)) i = some ((pb.map base).map (grow (pb.map base) (ts ++ [i])))) ∧
    (¬ (Ends (pb.map base) i ∧ ∀ j ∈ ts, ¬ Same j i) → addEdge ((pb.map base).map (grow (pb.map base) ts)) i = none) := by
  have hsec : ∀ c ∈ pb, sectionOf (pb.map base) c.fn = some c.section_ := by
    intro c hc
    unfold sectionOf
    rw [List.find?_map, Option.map_map]
    have : (fun c' : Cfg => decide (c'.fn = c.fn)) ∘ base = fun c' => decide (c'.fn = c.fn) := rfl
    rw [this]
    have h2 : pb.find? (fun c' => decide (c'.fn = c.fn)) = some c := by
      clear hi this
      induction pb with
      | nil => cases hc
      | cons d pb ih =>
        rw [List.map_cons, List.nodup_cons] at hf
        rcases List.mem_cons.1 hc with rfl | hc
        · simp
        · have hne : d.fn ≠ c.fn := fun e => hf.1 (e ▸ List.mem_map.2 ⟨c, hc, rfl⟩)
          rw [List.find?_cons_of_neg (by simpa using hne)]
          exact ih hf.2 hc
    rw [h2]
    rfl
  unfold addEdge
  rw [hasNode_grow, hasNode_grow, sectionOf_grow]
  by_cases he : Ends (pb.map base) i
  · rw [if_pos (show _ ∧ _ from he)]
    obtain ⟨d, hd, hdf⟩ : ∃ d ∈ pb, d.fn = i.edge.fn := by
      have := he.2
      unfold hasNode at this
      rw [List.any_map, List.any_eq_true] at this
      obtain ⟨d, hd, h⟩ := this
      simp only [Function.comp, Bool.and_eq_true, decide_eq_true_eq] at h
      exact ⟨d, hd, h.1⟩
    have hs : sectionOf (pb.map base) i.edge.fn = some d.section_ := hdf ▸ hsec d hd
    rw [hs, Option.bind_some]
    have hown : i.edge.fn = i.cfg.fn → d.section_ = i.cfg.section_ := by
      intro e
      have := hsec i.cfg hi
      rw [← e, hs] at this
      exact Option.some.inj this
    have hdup : ∀ c : Cfg, c.fn = i.cfg.fn →
        (((grow (pb.map base) ts c).edges.any fun e => decide (e.src = (i.node.bbId, 0) ∧ e.sink = (i.edge.bb, 0))) = true ↔
        ∃ j ∈ ts, j.cfg.fn = i.cfg.fn ∧ j.edge.fn = i.cfg.fn ∧ j.node.bbId = i.node.bbId ∧ j.edge.bb = i.edge.bb) := by
      intro c hc
      rw [List.any_eq_true]
      unfold grow
      simp only [List.mem_map, List.mem_filter, decide_eq_true_eq, hc]
      constructor
      · rintro ⟨e, ⟨j, ⟨hj, h1, h2⟩, rfl⟩, h3, h4⟩
        simp only [inner, Prod.mk.injEq, and_true] at h3 h4
        exact ⟨j, hj, h1, h2, h3, h4⟩
      · rintro ⟨j, hj, h1, h2, h3, h4⟩
        exact ⟨_, ⟨j, ⟨hj, h1, h2⟩, rfl⟩, by simp [inner, h3], by simp [inner, h4]⟩
    by_cases hd2 : ∃ j ∈ ts, Same j i
    · constructor
      · intro h
        obtain ⟨j, hj, hs⟩ := hd2
        exact absurd hs (h.2 j hj)
      · intro _
        obtain ⟨j, hj, s1, s2, s3, s4, s5⟩ := hd2
        refine mapM_none ⟨grow (pb.map base) ts (base i.cfg), List.mem_map.2 ⟨_, List.mem_map.2 ⟨_, hi, rfl⟩, rfl⟩, ?_⟩
        have e1 : (grow (pb.map base) ts (base i.cfg)).fn = i.cfg.fn := rfl
        rw [e1, if_pos rfl]
        unfold createEdge
        rw [e1, (hdup (base i.cfg) rfl).2 ⟨j, hj, s1, by rw [s2, s1], s4, s5⟩]
        rw [hown s3]
        simp [s3]
    · constructor
      · intro _
        refine mapM_map_some fun c hc => ?_
        have e1 : (grow (pb.map base) ts c).fn = c.fn := rfl
        rw [e1, grow_snoc]
        by_cases hcf : c.fn = i.cfg.fn
        · rw [if_pos hcf]
          unfold createEdge
          rw [e1]
          by_cases hef : i.edge.fn = c.fn
          · have hno : ¬ (decide (d.section_ ≠ i.cfg.section_) = true ∧ i.edge.fn = c.fn) := by
              rintro ⟨h, _⟩
              rw [hown (hef.trans hcf)] at h
              simp at h
            have hnd : ((grow (pb.map base) ts c).edges.any fun e => decide (e.src = (i.node.bbId, 0) ∧ e.sink = (i.edge.bb, 0))) = false := by
              rw [← Bool.not_eq_true]
              intro h
              obtain ⟨j, hj, h1, h2, h3, h4⟩ := (hdup c hcf).1 h
              exact hd2 ⟨j, hj, h1, by rw [h2, h1], by rw [hef, hcf], h3, h4⟩
            rw [if_neg hno, if_pos hef, hnd, if_neg (by simp), if_pos (show i.cfg.fn = c.fn ∧ i.edge.fn = c.fn from ⟨hcf.symm, hef⟩),
              if_neg (show ¬ (i.cfg.fn = c.fn ∧ i.edge.fn ≠ c.fn) from fun h => h.2 hef), List.append_nil]
            rfl
          · rw [if_neg (fun h => hef h.2), if_neg hef, if_neg (show ¬ (i.cfg.fn = c.fn ∧ i.edge.fn = c.fn) from fun h => hef h.2),
              if_pos (show i.cfg.fn = c.fn ∧ i.edge.fn ≠ c.fn from ⟨hcf.symm, hef⟩), List.append_nil]
            have : decide (sectionOf (pb.map base) i.edge.fn ≠ some i.cfg.section_) = decide (d.section_ ≠ i.cfg.section_) := by
              rw [hs]; simp
            unfold outer
            rw [this]
            rfl
        · rw [if_neg hcf, if_neg (fun h => hcf h.1.symm), if_neg (fun h => hcf h.1.symm), List.append_nil, List.append_nil]
      · intro h
        exact absurd ⟨he, fun j hj hs => hd2 ⟨j, hj, hs⟩⟩ h
  · rw [if_neg (show ¬ (_ ∧ _) from he)]
    exact ⟨fun h => absurd h.1 he, fun _ => rfl⟩

theorem foldlM_grow (pb : List CfgPb) (hf : (pb.map (·.fn)).Nodup) (us : List Item) : (∀ i ∈ us, i.cfg ∈ pb) → ∀ ts : List Item,
    (((∀ i ∈ us, Ends (pb.map base) i) ∧ us.Pairwise (fun i j => ¬ Same i j) ∧ ∀ j ∈ ts, ∀ i ∈ us, ¬ Same j i) →
      us.foldlM addEdge ((pb.map base).map (grow (pb.map base) ts)) = some ((pb.map base).map (grow (pb.map base) (ts ++ us)))) ∧
    (¬ ((∀ i ∈ us, Ends (pb.map base) i) ∧ us.Pairwise (fun i j => ¬ Same i j) ∧ ∀ j ∈ ts, ∀ i ∈ us, ¬ Same j i) →
      us.foldlM addEdge ((pb.map base).map (grow (pb.map base) ts)) = none) := by
  induction us with
  | nil => intro _ ts; simp
  | cons i us ih =>
    intro hm ts
    obtain ⟨s1, s2⟩ := addEdge_grow pb hf ts i (hm i (by simp))
    rw [List.foldlM_cons]
    by_cases h : Ends (pb.map base) i ∧ ∀ j ∈ ts, ¬ Same j i
    · rw [s1 h]
      obtain ⟨i1, i2⟩ := ih (fun x hx => hm x (List.mem_cons_of_mem _ hx)) (ts ++ [i])
      have e : ((∀ x ∈ i :: us, Ends (pb.map base) x) ∧ (i :: us).Pairwise (fun i j => ¬ Same i j) ∧ ∀ j ∈ ts, ∀ x ∈ i :: us, ¬ Same j x) ↔
          ((∀ i ∈ us, Ends (pb.map base) i) ∧ us.Pairwise (fun i j => ¬ Same i j) ∧ ∀ j ∈ ts ++ [i], ∀ i ∈ us, ¬ Same j i) := by
        simp only [List.forall_mem_cons, List.pairwise_cons, List.forall_mem_append, List.forall_mem_singleton]
        constructor
        · rintro ⟨⟨_, a⟩, ⟨b, b'⟩, d⟩
          exact ⟨a, b', fun j hj => (d j hj).2, b, by simp⟩
        · rintro ⟨a, b, d, d', _⟩
          exact ⟨⟨h.1, a⟩, ⟨d', b⟩, fun j hj => ⟨h.2 j hj, d j hj⟩⟩
      constructor
      · intro hh
        refine (i1 (e.1 hh)).trans ?_
        rw [List.append_assoc]; rfl
      · intro hh
        exact i2 fun x => hh (e.2 x)
    · rw [s2 h]
      exact ⟨fun hh => absurd ⟨hh.1 i (by simp), fun j hj => hh.2.2 j hj i (by simp)⟩ h, fun _ => rfl⟩

theorem mem_items {pb : List CfgPb} {i : Item} : i ∈ items pb ↔ i.cfg ∈ pb ∧ i.node ∈ i.cfg.nodes ∧ i.edge ∈ i.node.edges := by
  unfold items
  simp only [List.mem_flatMap, List.mem_map]
  constructor
  · rintro ⟨c, hc, n, hn, e, he, rfl⟩
    exact ⟨hc, hn, he⟩
  · rintro ⟨h1, h2, h3⟩
    exact ⟨_, h1, _, h2, _, h3, rfl⟩

theorem hasNode_iff {pb : List CfgPb} (ids : ∀ c ∈ pb, ∀ (i : Nat) (n : NodePb), c.nodes[i]? = some n → n.bbId = i) (f b : Nat) :
    hasNode (pb.map base) f b = true ↔ ∃ d ∈ pb, d.fn = f ∧ b < d.nodes.length := by
  unfold hasNode
  rw [List.any_map, List.any_eq_true]
  refine exists_congr fun d => and_congr_right fun hd => ?_
  simp only [Function.comp, Bool.and_eq_true, decide_eq_true_eq]
  refine and_congr_right fun _ => ?_
  simp only [base, List.any_map, List.any_eq_true, Function.comp, decide_eq_true_eq, blockOf, Prod.mk.injEq, and_true]
  constructor
  · rintro ⟨n, hn, rfl⟩
    obtain ⟨i, hi⟩ := List.getElem?_of_mem hn
    rw [ids d hd i n hi]
    exact (List.getElem?_eq_some_iff.1 hi).1
  · intro h
    exact ⟨d.nodes[b], List.getElem_mem h, ids d hd b _ (List.getElem?_eq_getElem h)⟩

theorem pairwise_iff {pb : List CfgPb} (hf : (pb.map (·.fn)).Nodup)
    (ids : ∀ c ∈ pb, ∀ (i : Nat) (n : NodePb), c.nodes[i]? = some n → n.bbId = i) :
    (items pb).Pairwise (fun i j => ¬ Same i j) ↔
      ∀ c ∈ pb, ∀ n ∈ c.nodes, ((n.edges.filter fun e => decide (e.fn = c.fn)).map (·.bb)).Nodup := by
  unfold items
  rw [List.pairwise_flatMap]
  have h1 : pb.Pairwise fun c d => ∀ x ∈ c.nodes.flatMap (fun n => n.edges.map fun e => (⟨c, n, e⟩ : Item)),
      ∀ y ∈ d.nodes.flatMap (fun n => n.edges.map fun e => (⟨d, n, e⟩ : Item)), ¬ Same x y := by
    rw [List.nodup_iff_pairwise_ne, List.pairwise_map] at hf
    refine hf.imp ?_
    intro c d hcd x hx y hy
    simp only [List.mem_flatMap, List.mem_map] at hx hy
    obtain ⟨_, _, _, _, rfl⟩ := hx
    obtain ⟨_, _, _, _, rfl⟩ := hy
    exact fun h => hcd h.1
  rw [and_iff_left h1]
  refine forall_congr' fun c => forall_congr' fun hc => ?_
  rw [List.pairwise_flatMap]
  have h2 : c.nodes.Pairwise fun m n => ∀ x ∈ m.edges.map (fun e => (⟨c, m, e⟩ : Item)), ∀ y ∈ n.edges.map (fun e => (⟨c, n, e⟩ : Item)), ¬ Same x y := by
    rw [List.pairwise_iff_getElem]
    intro i j hi hj hij x hx y hy
    obtain ⟨_, _, rfl⟩ := List.mem_map.1 hx
    obtain ⟨_, _, rfl⟩ := List.mem_map.1 hy
    rintro ⟨_, _, _, h, _⟩
    simp only [] at h
    rw [ids c hc i _ (List.getElem?_eq_getElem hi), ids c hc j _ (List.getElem?_eq_getElem hj)] at h
    omega
  rw [and_iff_left h2]
  refine forall_congr' fun n => forall_congr' fun hn => ?_
  rw [List.pairwise_map, List.nodup_iff_pairwise_ne, List.pairwise_map, List.pairwise_filter]
  refine Iff.of_eq (congrFun (congrArg _ ?_) _)
  funext e e'
  simp only [Same, true_and, eq_iff_iff, decide_eq_true_eq]
  constructor
  · intro h a b c; exact h ⟨a, b, c⟩
  · rintro h ⟨a, b, c⟩; exact h a b c

theorem items_of {pb : List CfgPb} (hf : (pb.map (·.fn)).Nodup) {c : CfgPb} (hc : c ∈ pb) (P : Item → Bool)
    (hP : ∀ i, P i = true → i.cfg.fn = c.fn) :
    (items pb).filter P = c.nodes.flatMap fun n => (n.edges.map fun e => (⟨c, n, e⟩ : Item)).filter P := by
  unfold items
  rw [List.filter_flatMap]
  have h0 : ∀ d : CfgPb, d.fn ≠ c.fn → (d.nodes.flatMap fun n => n.edges.map fun e => (⟨d, n, e⟩ : Item)).filter P = [] := by
    intro d hd
    rw [List.filter_eq_nil_iff]
    intro i hi h
    simp only [List.mem_flatMap, List.mem_map] at hi
    obtain ⟨_, _, _, _, rfl⟩ := hi
    exact hd (hP _ h)
  rw [← List.filter_flatMap]
  induction pb with
  | nil => cases hc
  | cons d pb ih =>
    rw [List.map_cons, List.nodup_cons] at hf
    rw [List.flatMap_cons, List.filter_append]
    rcases List.mem_cons.1 hc with rfl | hc
    · have : (pb.flatMap fun c => c.nodes.flatMap fun n => n.edges.map fun e => (⟨c, n, e⟩ : Item)).filter P = [] := by
        rw [List.filter_flatMap, List.flatMap_eq_nil_iff]
        intro d hd
        exact h0 d fun e => hf.1 (e ▸ List.mem_map.2 ⟨d, hd, rfl⟩)
      rw [this, List.append_nil, List.filter_flatMap]
    · rw [h0 d fun e => hf.1 (e ▸ List.mem_map.2 ⟨c, hc, rfl⟩), List.nil_append]
      exact ih hf.2 hc

theorem sectionOf_base {pb : List CfgPb} (hf : (pb.map (·.fn)).Nodup) {d : CfgPb} (hd : d ∈ pb) :
    sectionOf (pb.map base) d.fn = some d.section_ := by
  unfold sectionOf
  rw [List.find?_map, Option.map_map]
  have : (fun c' : Cfg => decide (c'.fn = d.fn)) ∘ base = fun c' => decide (c'.fn = d.fn) := rfl
  rw [this]
  have h2 : pb.find? (fun c' => decide (c'.fn = d.fn)) = some d := by
    induction pb with
    | nil => cases hd
    | cons e pb ih =>
      rw [List.map_cons, List.nodup_cons] at hf
      rcases List.mem_cons.1 hd with rfl | hd
      · simp
      · have hne : e.fn ≠ d.fn := fun h => hf.1 (h ▸ List.mem_map.2 ⟨d, hd, rfl⟩)
        rw [List.find?_cons_of_neg (by simpa using hne)]
        exact ih hf.2 hd
  rw [h2]
  rfl

theorem fn_unique {pb : List CfgPb} (hf : (pb.map (·.fn)).Nodup) {c d : CfgPb} (hc : c ∈ pb) (hd : d ∈ pb) (h : c.fn = d.fn) : c = d :=
  List.inj_on_of_nodup_map hf hc hd h

theorem grow_items {pb : List CfgPb} (h : Valid pb) {c : CfgPb} (hc : c ∈ pb) : grow (pb.map base) (items pb) (base c) = graphOf pb c := by
  unfold grow graphOf
  have e1 : (base c).fn = c.fn := rfl
  simp only [e1]
  rw [items_of h.fns hc _ (fun i hi => by simp only [decide_eq_true_eq] at hi; exact hi.1),
    items_of h.fns hc _ (fun i hi => by simp only [decide_eq_true_eq] at hi; exact hi.1), List.map_flatMap, List.map_flatMap]
  congr 1
  · congr 1
    funext n
    rw [List.filter_map, List.map_map]
    simp only [Function.comp_def, true_and]
    rfl
  · refine List.flatMap_congr fun n hn => ?_
    rw [List.filter_map, List.map_map]
    simp only [Function.comp_def, true_and]
    refine List.map_congr_left fun e he => ?_
    obtain ⟨d, hd, hdf, _⟩ := h.sinks c hc n hn e (List.mem_filter.1 he).1
    have hs : sectionOf (pb.map base) e.fn = some d.section_ := hdf ▸ sectionOf_base h.fns hd
    unfold outer
    simp only [hs, XEdge.mk.injEq, true_and, ne_eq, Option.some.injEq]
    refine decide_eq_decide.2 ?_
    constructor
    · intro hne; exact ⟨d, hd, hdf, hne⟩
    · rintro ⟨d', hd', hdf', hne⟩
      rwa [fn_unique h.fns hd hd' (hdf.trans hdf'.symm)]

/-- **C92: reading.** A file is read exactly if it is valid, and then the graphs are those of the file. For every file. -/
theorem read_iff (pb : List CfgPb) : (Valid pb → read pb = some (pb.map (graphOf pb))) ∧ (¬ Valid pb → read pb = none) := by
  have key : Valid pb ↔ (((∀ c ∈ pb, ∀ (i : Nat) (n : NodePb), c.nodes[i]? = some n → n.bbId = i) ∧ (pb.map (·.fn)).Nodup ∧
      ∀ d ∈ ([] : List Cfg), ∀ c ∈ pb, d.fn ≠ c.fn) ∧
      ((∀ i ∈ items pb, Ends (pb.map base) i) ∧ (items pb).Pairwise (fun i j => ¬ Same i j) ∧ ∀ j ∈ ([] : List Item), ∀ i ∈ items pb, ¬ Same j i)) := by
    constructor
    · intro h
      refine ⟨⟨h.ids, h.fns, by simp⟩, ?_, (pairwise_iff h.fns h.ids).2 h.once, by simp⟩
      intro i hi
      obtain ⟨h1, h2, h3⟩ := mem_items.1 hi
      refine ⟨(hasNode_iff h.ids _ _).2 ⟨i.cfg, h1, rfl, ?_⟩, (hasNode_iff h.ids _ _).2 (h.sinks _ h1 _ h2 _ h3)⟩
      obtain ⟨k, hk⟩ := List.getElem?_of_mem h2
      rw [h.ids _ h1 k _ hk]
      exact (List.getElem?_eq_some_iff.1 hk).1
    · rintro ⟨⟨h1, h2, _⟩, h3, h4, _⟩
      refine ⟨h2, h1, ?_, (pairwise_iff h2 h1).1 h4⟩
      intro c hc n hn e he
      exact (hasNode_iff h1 _ _).1 (h3 ⟨c, n, e⟩ (mem_items.2 ⟨hc, hn, he⟩)).2
  obtain ⟨a1, a2⟩ := addCfgs pb []
  have e0 : (pb.map base).map (grow (pb.map base) []) = pb.map base := by
    rw [List.map_map]
    exact List.map_congr_left fun c _ => rfl
  unfold read
  constructor
  · intro h
    obtain ⟨k1, k2⟩ := key.1 h
    rw [a1 k1, Option.bind_some, List.nil_append, ← e0, (foldlM_grow pb h.fns (items pb) (fun i hi => (mem_items.1 hi).1) []).1 k2,
      List.nil_append, List.map_map]
    congr 1
    exact List.map_congr_left fun c hc => grow_items h hc
  · intro h
    by_cases k1 : (∀ c ∈ pb, ∀ (i : Nat) (n : NodePb), c.nodes[i]? = some n → n.bbId = i) ∧ (pb.map (·.fn)).Nodup ∧
      ∀ d ∈ ([] : List Cfg), ∀ c ∈ pb, d.fn ≠ c.fn
    · rw [a1 k1, Option.bind_some, List.nil_append, ← e0]
      exact (foldlM_grow pb k1.2.1 (items pb) (fun i hi => (mem_items.1 hi).1) []).2 fun k2 => h (key.2 ⟨k1, k2⟩)
    · rw [a2 k1]; rfl

/-! ### Round trip -/

theorem int_trip {x : Int} (h : -2 ^ 31 ≤ x ∧ x < 2 ^ 31) : toI32 (toU64 x) = x := by
  unfold toI32 toU64
  have h0 : 0 ≤ x % 2 ^ 64 := Int.emod_nonneg _ (by decide)
  rw [Int.toNat_of_nonneg h0]
  unfold Int.bmod
  have h1 : x % 2 ^ 64 % ((2 ^ 32 : Nat) : Int) = x % 2 ^ 32 := by
    refine (Int.emod_emod_of_dvd x ?_).trans ?_
    · exact ⟨2 ^ 32, by norm_num⟩
    · norm_num
  rw [h1]
  norm_num
  norm_num at h
  split <;> omega

/-- What is written for a function without clones. -/
def pbOf (c : Cfg) : CfgPb :=
  ⟨c.blocks.map fun b => ⟨toU64 b.size, (c.outs b).map (edgePb c.fn), b.bbId, b.info.fall, b.info.ret, b.info.tail, b.info.pad⟩, c.names, c.fn, c.section_⟩

/-- **C92: writing** fails exactly if there is a clone. -/
theorem write_iff (p : List Cfg) : ((∀ c ∈ p, ∀ b ∈ c.blocks, b.clone = 0) → write p = some (p.map pbOf)) ∧
    ((∃ c ∈ p, ∃ b ∈ c.blocks, b.clone ≠ 0) → write p = none) := by
  constructor
  · intro h
    refine mapM_some fun c hc => ?_
    unfold cfgPb
    rw [mapM_some (g := fun b => ⟨toU64 b.size, (c.outs b).map (edgePb c.fn), b.bbId, b.info.fall, b.info.ret, b.info.tail, b.info.pad⟩)
      fun b hb => by unfold nodePb; rw [if_pos (h c hc b hb)]]
    rfl
  · rintro ⟨c, hc, b, hb, hne⟩
    refine mapM_none ⟨c, hc, ?_⟩
    unfold cfgPb
    rw [mapM_none ⟨b, hb, by unfold nodePb; rw [if_neg hne]⟩]
    rfl

theorem valid_written {p : List Cfg} (h : Wf p) (h0 : ∀ c ∈ p, ∀ b ∈ c.blocks, b.clone = 0) :
    Valid (p.map pbOf) ↔ ∀ c ∈ p, ∀ b ∈ c.blocks, b.bbId = b.bb := by
  constructor
  · intro hv c hc b hb
    obtain ⟨i, hi⟩ := List.getElem?_of_mem hb
    have := hv.ids (pbOf c) (List.mem_map.2 ⟨c, hc, rfl⟩) i
    simp only [pbOf, List.getElem?_map, hi, Option.map_some, Option.some.injEq] at this
    rw [h.blocks c hc (h0 c hc) i b hi]
    exact this _ rfl
  · intro hid
    refine ⟨?_, ?_, ?_, ?_⟩
    · rw [List.map_map]; exact h.fns
    · intro c hc i n hn
      obtain ⟨c, hcp, rfl⟩ := List.mem_map.1 hc
      clear hc
      have hc := hcp
      clear hcp
      simp only [pbOf, List.getElem?_map, Option.map_eq_some_iff] at hn
      obtain ⟨b, hb, rfl⟩ := hn
      simp only
      rw [hid c hc b (List.mem_of_getElem? hb)]
      exact h.blocks c hc (h0 c hc) i b hb
    · intro c hc n hn e he
      obtain ⟨c, hcp, rfl⟩ := List.mem_map.1 hc
      clear hc
      have hc := hcp
      clear hcp
      simp only [pbOf, List.mem_map] at hn
      obtain ⟨b, hb, rfl⟩ := hn
      obtain ⟨e', he', rfl⟩ := List.mem_map.1 he
      refine ⟨pbOf c, List.mem_map.2 ⟨c, hc, rfl⟩, rfl, ?_⟩
      obtain ⟨s, hs, hse⟩ := (h.ends c hc e' (List.mem_filter.1 he').1).2
      obtain ⟨i, hi⟩ := List.getElem?_of_mem hs
      simp only [edgePb, ← hse, pbOf, List.length_map]
      rw [h.blocks c hc (h0 c hc) i s hi]
      exact (List.getElem?_eq_some_iff.1 hi).1
    · intro c hc n hn
      obtain ⟨c, hcp, rfl⟩ := List.mem_map.1 hc
      clear hc
      have hc := hcp
      clear hcp
      simp only [pbOf, List.mem_map] at hn
      obtain ⟨b, hb, rfl⟩ := hn
      refine List.Nodup.sublist (List.Sublist.map _ List.filter_sublist) ?_
      simp only [List.map_map]
      have ho := h.once c hc
      rw [List.nodup_iff_pairwise_ne, List.pairwise_map] at ho ⊢
      unfold Cfg.outs
      rw [List.pairwise_filter]
      refine (List.Pairwise.and_mem.1 ho).imp ?_
      rintro e e' ⟨he, he', hne⟩ hs hs' heq
      simp only [decide_eq_true_eq] at hs hs'
      apply hne
      obtain ⟨s, hs1, hse⟩ := (h.ends c hc e he).2
      obtain ⟨s', hs1', hse'⟩ := (h.ends c hc e' he').2
      have : e.sink = e'.sink := by
        simp only [Function.comp, edgePb] at heq
        refine Prod.ext heq ?_
        rw [← hse, ← hse']
        exact (h0 c hc s hs1).trans (h0 c hc s' hs1').symm
      rw [hs, hs', this]

/-- **C92: the round trip.** For all graphs in memory without clones: what is written can be read exactly if the id of each block is its
index, and then everything but the address, the module, the edges to other functions and two flags is as before. -/
theorem round_trip {p : List Cfg} (h : Wf p) (h0 : ∀ c ∈ p, ∀ b ∈ c.blocks, b.clone = 0) :
    ((∀ c ∈ p, ∀ b ∈ c.blocks, b.bbId = b.bb) → (write p).bind read = some (p.map reread)) ∧
    ((∃ c ∈ p, ∃ b ∈ c.blocks, b.bbId ≠ b.bb) → (write p).bind read = none) := by
  rw [(write_iff p).1 h0, Option.bind_some]
  constructor
  · intro hid
    rw [(read_iff _).1 ((valid_written h h0).2 hid), List.map_map]
    congr 1
    refine List.map_congr_left fun c hc => ?_
    simp only [Function.comp, graphOf, reread, pbOf, Cfg.mk.injEq, true_and, List.map_map, List.flatMap_map]
    refine ⟨?_, ?_, ?_⟩
    · refine List.map_congr_left fun b hb => ?_
      simp only [Function.comp, blockOf, metaOf, int_trip ((h.ints c hc).1 b hb), hid c hc b hb, h0 c hc b hb]
    · refine List.flatMap_congr fun b hb => ?_
      rw [List.filter_map]
      refine (congrArg (fun l => List.map _ (List.map (edgePb c.fn) l)) (List.filter_eq_self.2 fun e _ => by simp [edgePb])).trans ?_
      rw [List.map_map]
      refine (List.map_congr_left fun e he => ?_).trans (List.map_id _)
      obtain ⟨he1, he2⟩ := List.mem_filter.1 he
      obtain ⟨s, hs, hse⟩ := (h.ends c hc e he1).2
      have h1 : e.src = (b.bbId, 0) := by
        rw [of_decide_eq_true he2, hid c hc b hb, h0 c hc b hb]
      have h2 : e.sink = (e.sink.1, 0) := by
        refine Prod.ext rfl ?_
        rw [← hse]
        exact h0 c hc s hs
      simp only [Function.comp, edgePb, int_trip ((h.ints c hc).2 e he1), id]
      rw [← h1, ← h2]
    · rw [List.flatMap_eq_nil_iff]
      intro b _
      rw [List.map_eq_nil_iff, List.filter_eq_nil_iff]
      intro e he
      obtain ⟨e', _, rfl⟩ := List.mem_map.1 he
      simp [edgePb]
  · rintro ⟨c, hc, b, hb, hne⟩
    exact (read_iff _).2 fun hv => hne ((valid_written h h0).1 hv c hc b hb)

/-- **C92**: reading back keeps the edges of each function as a multiset, and for each block their order. -/
theorem reread_edges {p : List Cfg} (h : Wf p) (h0 : ∀ c ∈ p, ∀ b ∈ c.blocks, b.clone = 0) (c : Cfg) (hc : c ∈ p) :
    (reread c).edges.Perm c.edges ∧ ∀ s, (reread c).edges.filter (fun e => decide (e.src = s)) = c.edges.filter (fun e => decide (e.src = s)) := by
  have hn : (c.blocks.map fun b => (b.bb, b.clone)).Nodup := by
    rw [List.nodup_iff_pairwise_ne, List.pairwise_map, List.pairwise_iff_getElem]
    intro i j hi hj hij e
    have e1 := h.blocks c hc (h0 c hc) i _ (List.getElem?_eq_getElem hi)
    have e2 := h.blocks c hc (h0 c hc) j _ (List.getElem?_eq_getElem hj)
    simp only [Prod.mk.injEq] at e
    omega
  have key : ∀ s, (reread c).edges.filter (fun e => decide (e.src = s)) = c.edges.filter (fun e => decide (e.src = s)) := by
    intro s
    simp only [reread]
    rw [List.filter_flatMap]
    by_cases hs : ∃ b ∈ c.blocks, (b.bb, b.clone) = s
    · obtain ⟨b, hb, hbs⟩ := hs
      have hz : ∀ d : Block, (d.bb, d.clone) ≠ s → (c.outs d).filter (fun e => decide (e.src = s)) = [] := by
        intro d hd
        rw [List.filter_eq_nil_iff]
        intro e he h
        obtain ⟨_, h2⟩ := List.mem_filter.1 he
        exact hd ((of_decide_eq_true h2).symm.trans (of_decide_eq_true h))
      have ho : (c.outs b).filter (fun e => decide (e.src = s)) = c.edges.filter (fun e => decide (e.src = s)) := by
        unfold Cfg.outs
        rw [hbs, List.filter_filter]
        simp
      generalize c.blocks = l at hb hn
      induction l with
      | nil => cases hb
      | cons d l ih =>
        rw [List.map_cons, List.nodup_cons] at hn
        rw [List.flatMap_cons]
        rcases List.mem_cons.1 hb with rfl | hb
        · rw [ho]
          have : l.flatMap (fun d => (c.outs d).filter (fun e => decide (e.src = s))) = [] := by
            rw [List.flatMap_eq_nil_iff]
            intro d hd
            exact hz d fun e => hn.1 (by rw [hbs, ← e]; exact List.mem_map.2 ⟨d, hd, rfl⟩)
          rw [this, List.append_nil]
        · rw [hz d fun e => hn.1 (by rw [e, ← hbs]; exact List.mem_map.2 ⟨b, hb, rfl⟩), List.nil_append]
          exact ih hb hn.2
    · have r : c.edges.filter (fun e => decide (e.src = s)) = [] := by
        rw [List.filter_eq_nil_iff]
        intro e he h'
        obtain ⟨b, hb, hbe⟩ := (h.ends c hc e he).1
        exact hs ⟨b, hb, hbe.trans (of_decide_eq_true h')⟩
      rw [r, List.flatMap_eq_nil_iff]
      intro b hb
      rw [List.filter_eq_nil_iff]
      intro e he h
      obtain ⟨_, h2⟩ := List.mem_filter.1 he
      exact hs ⟨b, hb, (of_decide_eq_true h2).symm.trans (of_decide_eq_true h)⟩
  refine ⟨?_, key⟩
  rw [List.perm_iff_count]
  intro e
  have : ∀ l : List Edge, l.count e = (l.filter fun x => decide (x.src = e.src)).count e := by
    intro l
    rw [List.count_filter (by simp)]
  rw [this, key, ← this]

/-! ### Example -/

def exMeta : Meta := ⟨false, false, false, true, false⟩
def exProg (id1 clone1 : Nat) : List Cfg := [
  ⟨[46], 0, some [109], [[102], [103]], [⟨16, 0, 0, 0, 8, exMeta⟩, ⟨24, 1, clone1, id1, 4, ⟨true, false, false, false, true⟩⟩, ⟨28, 2, 0, 2, 0, ⟨false, false, true, false, false⟩⟩],
    [⟨(1, 0), (0, 0), 7, .branch⟩, ⟨(0, 0), (2, 0), 5, .branch⟩, ⟨(0, 0), (1, 0), 2, .branch⟩], [⟨(0, 0), 3, (0, 0), 9, .call, false⟩]⟩,
  ⟨[46], 3, none, [[104]], [⟨64, 0, 0, 0, 4, exMeta⟩], [⟨(0, 0), (0, 0), 1, .call⟩], []⟩]

theorem ex_trip : (write (exProg 1 0)).bind read = some ((exProg 1 0).map reread) ∧ ((exProg 1 0).map reread).map (fun c => c.edges.length) = [3, 1] := by
  decide +kernel

theorem ex_wf : Wf (exProg 1 0) ∧ (∀ c ∈ exProg 1 0, ∀ b ∈ c.blocks, b.clone = 0) ∧ ∀ c ∈ exProg 1 0, ∀ b ∈ c.blocks, b.bbId = b.bb := by
  refine ⟨⟨by decide +kernel, ?_, by decide +kernel, by decide +kernel, by decide +kernel⟩, by decide +kernel, by decide +kernel⟩
  intro c hc _ i b hb
  simp only [exProg, List.mem_cons, List.not_mem_nil, or_false] at hc
  rcases hc with rfl | rfl
  · rcases i with _ | _ | _ | i <;> simp at hb <;> subst hb <;> rfl
  · rcases i with _ | i <;> simp at hb <;> subst hb <;> rfl

/-- `can_fallthrough` is not what was written: it is read from another field. -/
theorem fallthrough_violated : ((exProg 1 0).map fun c => c.blocks.map fun b => b.info.fall) = [[true, false, false], [true]] ∧
    (((write (exProg 1 0)).bind read).map fun p => p.map fun c => c.blocks.map fun b => b.info.fall) = some [[false, false, true], [false]] := by
  decide +kernel

/-- Calls to other functions are lost. -/
theorem calls_violated : ((exProg 1 0).map fun c => c.xedges.length) = [1, 0] ∧
    (((write (exProg 1 0)).bind read).map fun p => p.map fun c => c.xedges.length) = some [0, 0] := by
  decide +kernel

/-- Ids that are not indexes are written but cannot be read. -/
theorem ids_violated : (write (exProg 7 0)).isSome = true ∧ (write (exProg 7 0)).bind read = none := by
  decide +kernel

/-- Clones cannot be written. -/
theorem clones_violated : write (exProg 1 1) = none := by
  decide +kernel

end Verif.CfgProto

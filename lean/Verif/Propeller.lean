import Verif.WriterText
import Verif.MapperSelect
import Verif.CfgBuildProps
import Verif.PerfAgg
import Mathlib.Data.List.Dedup

/-!
# C74: from branch counts to the cluster file (llvm_propeller_profile_computer.cc:62-163, llvm_propeller_program_cfg_builder.cc:46-104,
199-304, llvm_propeller_code_layout.cc:26-39, llvm_propeller_program_cfg.cc:26-33)

`PropellerProfileComputer::ComputeProfile` for a binary, given by its `SHT_LLVM_BB_ADDR_MAP` and its symbols, and the counts of an
`LbrAggregation`: selection of the functions, edges of the CFGs, layout of each section, and what is written.  `none`: a `CHECK` fails
or `at` throws; `some none`: an error status.

Hash maps are lists in any order: `brs`, `fts` are the counters, and `shuf`, `shufS` the orders in which the CFGs and the sections are
visited.  The two comparisons of floating point quotients in `CreateEdges` are arbitrary predicates of the two numbers divided.
-/
namespace Verif.Propeller
open Verif Verif.Mapper Verif.MapperSelect Verif.CfgBuild Verif.Layout

/-- `LbrBranchAggregator::GetBranchEndpointAddresses` (lbr_branch_aggregator.cc:35-49). -/
def endpoints (brs fts : List ((Nat × Nat) × Nat)) : List Nat := (brs ++ fts).flatMap fun e => [e.1.1, e.1.2]

/-- The binary: blocks and symbols (`Bin`), and for each block whether it is a landing pad, and its id; the module of each function
(llvm_propeller_program_cfg_builder.cc:61-68). -/
structure Binary where
  bin : Bin
  lp : Handle → Bool
  id : Handle → Nat
  module_ : Nat → Option (List Char)

/-- The options: of the selection of functions, and of the layout. -/
structure Config where
  uniq : Name → Bool
  text : Name
  filterText : Bool
  weights : Chain.Weights
  opts : Chain.Opts
  /-- `call_chain_clustering` -/
  ccc : Bool
  thr : Nat
  tooMany : Nat → Nat → Bool
  tooFew : Nat → Nat → Bool

/-- `section_name()` of a function (llvm_propeller_program_cfg_builder.cc:74-79). -/
def sectionOf (b : Bin) (f : Nat) : Name := ((b.info f).map (·.section_)).getD []

/-- The weight of a branch if it is dubious (llvm_propeller_program_cfg_builder.cc:258-263). -/
def dubious (m : Mapper) (br : (Nat × Nat) × Nat) : Nat :=
  match (classify m br).2 with
  | none => 0
  | some r =>
    match m.handles[r.src]?, m.handles[r.sink]? with
    | some s, some h => if hasReturn m s = false ∧ m.addr h ≠ br.1.2 then br.2 else 0
    | _, _ => 0

/-- `CreateEdges` with its two sanity checks (llvm_propeller_program_cfg_builder.cc:199-304). -/
def buildGraph (c : Config) (m : Mapper) (sec : Nat → Name) (brs fts : List ((Nat × Nat) × Nat)) : Option (Option Graph) :=
  (addEdges m sec (brs.filterMap fun b => (classify m b).2)).bind fun st =>
    if c.tooMany (brs.map (dubious m)).sum ((brs.filterMap fun b => (classify m b).2).map (·.weight)).sum = true then some none
    else if c.tooFew st.g.edges.length brs.length = true then some none
    else (((fallCounters m brs fts).flatMap (fallReqs m)).foldlM (internalCreateEdge m sec) st).map fun st => some st.g

/-- The CFGs as one graph; the blocks are numbered as in `bb_handles()`, which is the order of `CFGNodePtrComparator`
(llvm_propeller_node_chain_builder.h:22-29, llvm_propeller_program_cfg_builder.cc:30-44). -/
def progOf (m : Mapper) (lp : Handle → Bool) (g : Graph) : Chain.Prog where
  size := fun n => ((m.handles[n]?).map m.size).getD 0
  fn := fun n => ((m.handles[n]?).map (·.fn)).getD 0
  bbi := fun n => ((m.handles[n]?).map (·.bb)).getD 0
  lp := fun n => ((m.handles[n]?).map lp).getD false
  edges := g.edges.map fun e => ⟨m.handles.idxOf e.src, m.handles.idxOf e.sink, e.weight, e.kind, e.interSection⟩

/-- The CFG of a function. -/
def cfgOf (m : Mapper) (f : Nat) : Chain.Cfg :=
  ⟨f, (List.range m.handles.length).filter fun n => decide ((m.handles[n]?).map (·.fn) = some f), []⟩

/-- `bb_id()` of a block. -/
def idOf (b : Binary) (m : Mapper) (n : Nat) : Nat := ((m.handles[n]?).map b.id).getD 0

/-- `addr()` of a block. -/
def addrOf (m : Mapper) (n : Nat) : Nat := ((m.handles[n]?).map m.addr).getD 0

/-- `GenerateLayoutBySection` (llvm_propeller_code_layout.cc:26-39); `order`: the CFGs in the order of the hash map. -/
def layoutSections (c : Config) (b : Binary) (m : Mapper) (g : Graph) (order : List Nat) (secs : List Name) :
    Option (OMap Name (List FnInfo)) :=
  secs.foldlM (fun acc s => (orderAll c.weights (progOf m b.lp g) c.opts c.ccc c.thr (idOf b m) (addrOf m)
    ((order.filter fun f => decide (sectionOf b.bin f = s)).map (cfgOf m))).map fun is => OMap.emplace s is acc) []

/-- The binary address mapper (`GetProgramCfg`, llvm_propeller_profile_computer.cc:129-136), and the check that functions have blocks
(llvm_propeller_program_cfg_builder.cc:70). -/
def mapperOf (c : Config) (b : Binary) (brs fts : List ((Nat × Nat) × Nat)) : Option Mapper :=
  (build b.bin.fns (select c.uniq c.text c.filterText b.bin (some (endpoints brs fts)))).bind fun m =>
    if (select c.uniq c.text c.filterText b.bin (some (endpoints brs fts))).any
      (fun f => ((b.bin.fns[f]?).map (·.bbs)).getD [] = []) = true then none else some m

/-- `ComputeProfile` (llvm_propeller_profile_computer.cc:62-81). -/
def computeProfile (c : Config) (b : Binary) (shuf : List Nat → List Nat) (shufS : List Name → List Name)
    (brs fts : List ((Nat × Nat) × Nat)) : Option (Option (OMap Name (List FnInfo))) :=
  (mapperOf c b brs fts).bind fun m => (buildGraph c m (sectionOf b.bin) brs fts).bind fun r =>
    match r with
    | none => some none
    | some g =>
      (layoutSections c b m g (shuf (keptFns m g (select c.uniq c.text c.filterText b.bin (some (endpoints brs fts)))))
        (shufS ((shuf (keptFns m g (select c.uniq c.text c.filterText b.bin (some (endpoints brs fts))))).map
          (sectionOf b.bin)).dedup)).map some

/-- What the writer needs of a CFG; there are no clones. -/
def outOf (b : Binary) (f : Nat) : Option CfgOut :=
  (b.bin.fns[f]?).map fun x => ⟨(b.bin.names f).map fun n => n.map fun c => Char.ofNat c.toNat, b.module_ f, [], x.bbs.length⟩

/-- The cluster file of a profile: its sections one after the other (llvm_propeller_profile_writer.cc:106-210). -/
def clusterFile (v : Ver) (b : Binary) (m : Mapper) (prof : OMap Name (List FnInfo)) : Option (List Char) :=
  ((prof.flatMap Prod.snd).mapM (recOf (idOf b m) (fun _ => 0) (outOf b))).bind (ccText v)

/-! ## Specification -/

/-- The blocks of the binary's functions are in order, do not overlap and start with the function; the functions are in order and do
not overlap. -/
structure Tidy (b : Bin) : Prop where
  fns : b.fns.Pairwise fun f g => f.addr < g.addr ∧ Before f g
  ok : ∀ f ∈ b.fns, FnOk f ∧ ∃ x t, f.bbs = x :: t ∧ x.offset = 0

/-- The counters have distinct keys and positive counts. -/
def Counts (l : List ((Nat × Nat) × Nat)) : Prop := ∀ e ∈ l, 0 < e.2

/-- A block that a branch leaves or comes to, or that a straight-line run goes through. -/
def Touched (m : Mapper) (brs fts : List ((Nat × Nat) × Nat)) (n : Nat) : Prop :=
  (∃ br ∈ brs, ∃ k, branchPair m br = some (n, k) ∨ branchPair m br = some (k, n)) ∨
    ∃ p ∈ runs m brs fts, ∃ k, Passes m p.1 n k ∨ Passes m p.1 k n

/-- A function with a block that is touched. -/
def HotFn (m : Mapper) (brs fts : List ((Nat × Nat) × Nat)) (f : Nat) : Prop :=
  ∃ n h, m.handles[n]? = some h ∧ h.fn = f ∧ Touched m brs fts n

/-- The blocks to be laid out in a section: of each hot function the touched blocks, its entry block unless functions are laid out
together, and its landing pads if one of them is touched; or all blocks of hot functions, if functions are not split. -/
def LaidOut (c : Config) (b : Binary) (m : Mapper) (brs fts : List ((Nat × Nat) × Nat)) (s : Name) (n : Nat) : Prop :=
  ∃ h, m.handles[n]? = some h ∧ (b.bin.info h.fn).map (·.section_) = some s ∧ HotFn m brs fts h.fn ∧
    (c.opts.splitFunctions = false ∨ Touched m brs fts n ∨ (h.bb = 0 ∧ c.opts.inter = false) ∨
      (b.lp h = true ∧ ∃ k h', m.handles[k]? = some h' ∧ h'.fn = h.fn ∧ b.lp h' = true ∧ Touched m brs fts k))

/-- The program that is laid out is the graph: block `n` is the `n`-th of the mapper. -/
structure Faithful (b : Binary) (m : Mapper) (g : Graph) : Prop where
  node : ∀ n h, m.handles[n]? = some h → (progOf m b.lp g).size n = m.size h ∧ (progOf m b.lp g).fn n = h.fn ∧
    (progOf m b.lp g).bbi n = h.bb ∧ (progOf m b.lp g).lp n = b.lp h ∧ idOf b m n = b.id h ∧ addrOf m n = m.addr h
  edges : List.Forall₂ (fun (E : Chain.Edge) (e : CfgBuild.Edge) => m.handles[E.src]? = some e.src ∧ m.handles[E.sink]? = some e.sink ∧
    E.weight = e.weight ∧ E.kind = e.kind ∧ E.interSection = e.interSection) (progOf m b.lp g).edges g.edges
  sec : ∀ e ∈ g.edges, ∀ x y, b.bin.info e.src.fn = some x → b.bin.info e.sink.fn = some y →
    e.interSection = decide (x.section_ ≠ y.section_)

/-- What is claimed of the layout of a section. -/
structure SectionOk (c : Config) (b : Binary) (m : Mapper) (g : Graph) (brs fts : List ((Nat × Nat) × Nat)) (s : Name)
    (is : List FnInfo) (order : List Nat) (B : List (List Nat)) : Prop where
  nodup : order.Nodup
  blocks : ∀ n, n ∈ order ↔ LaidOut c b m brs fts s n
  runs : Runs (progOf m b.lp g) order B
  emitted : ∃ orig opt, Emitted (progOf m b.lp g) (idOf b m) orig opt order B is
  /-- the scores are those of the original and of the new addresses -/
  scores : ∀ i ∈ is, i.orig = fnScore (Chain.getEdgeScore c.weights (progOf m b.lp g).size) (progOf m b.lp g) (addrOf m) true i.fn ∧
    i.opt = fnScore (Chain.getEdgeScore c.weights (progOf m b.lp g).size) (progOf m b.lp g) (pos (progOf m b.lp g) order) true i.fn
  /-- without inter-function layout each function is one cluster that starts with its entry block -/
  entry : c.opts.inter = false → ∀ i ∈ is, ∃ cl n0 t h, i.clusters = [cl] ∧ cl.blocks = n0 :: t ∧ m.handles[n0]? = some h ∧ h.bb = 0 ∧ h.fn = i.fn

/-- A branch from a block that does not return to the middle of a block. -/
def Strange (m : Mapper) (br : (Nat × Nat) × Nat) : Prop :=
  ∃ i j s h, branchPair m br = some (i, j) ∧ m.handles[i]? = some s ∧ m.handles[j]? = some h ∧ hasReturn m s = false ∧ m.addr h ≠ br.1.2

open Classical in
/-- An error status: too much of the weight of the branches between blocks is that of strange ones, or there are too few pairs of
blocks for the branches. -/
def Refused (c : Config) (m : Mapper) (brs : List ((Nat × Nat) × Nat)) : Prop :=
  c.tooMany ((brs.filter fun br => decide (Strange m br)).map Prod.snd).sum
      ((brs.filter fun br => (branchPair m br).isSome).map Prod.snd).sum = true ∨
    c.tooFew (brs.filterMap (branchPair m)).dedup.length brs.length = true

/-- The names and modules can be written. -/
structure NamesOk (v : Ver) (b : Binary) : Prop where
  names : ∀ f o, outOf b f = some o → o.names ≠ []
  clean : ∀ f o, outOf b f = some o → ∀ n ∈ o.names, ' ' ∉ n ∧ '\n' ∉ n ∧ (v = .v0 → '/' ∉ n)
  mark : v = .v0 → ∀ f o, outOf b f = some o → ∀ n, o.names.head? = some n → n.head? ≠ some '!'
  mod_ : ∀ f x, b.module_ f = some x → '\n' ∉ x

/-- The record of a function: its names, its module, and the ids of the blocks of its clusters. -/
def record (b : Binary) (m : Mapper) (i : FnInfo) : FnRec :=
  ⟨(b.bin.names i.fn).map fun n => n.map fun c => Char.ofNat c.toNat, b.module_ i.fn, [],
    i.clusters.map fun cl => cl.blocks.map fun n => (idOf b m n, 0)⟩

/-! ## Proof -/

theorem foldl_max_ne (l : List Nat) : l.foldl max 0 ≠ 0 ↔ ∃ x ∈ l, 0 < x := by
  have : ∀ (l : List Nat) (a : Nat), 0 < l.foldl max a ↔ 0 < a ∨ ∃ x ∈ l, 0 < x := by
    intro l
    induction l with
    | nil => intro a; simp
    | cons y t ih =>
      intro a
      rw [List.foldl_cons, ih]
      simp only [List.mem_cons, exists_eq_or_imp]
      constructor
      · rintro (h | h)
        · rcases Nat.lt_or_ge 0 a with h' | h'
          · exact .inl h'
          · exact .inr (.inl (by omega))
        · exact .inr (.inr h)
      · rintro (h | h | h)
        · exact .inl (by omega)
        · exact .inl (by omega)
        · exact .inr h
  have h := this l 0
  simp only [Nat.lt_irrefl, false_or] at h
  rw [← h]
  omega

theorem sum_ne (l : List Nat) : l.sum ≠ 0 ↔ ∃ x ∈ l, 0 < x := by
  induction l with
  | nil => simp
  | cons y t ih =>
    simp only [List.sum_cons, List.mem_cons, exists_eq_or_imp]
    rw [← ih]
    omega

/-- A block has a frequency exactly if an edge with a weight leaves it or comes to it. -/
theorem calcFreq_ne (es : List Chain.Edge) (n : Nat) :
    Chain.calcFreq es n ≠ 0 ↔ ∃ e ∈ es, 0 < e.weight ∧ (e.src = n ∨ e.sink = n) := by
  unfold Chain.calcFreq
  simp only
  have hm : ∀ a b c d : Nat, max (max a b) (max c d) ≠ 0 ↔ a ≠ 0 ∨ b ≠ 0 ∨ c ≠ 0 ∨ d ≠ 0 := by intro a b c d; omega
  rw [hm, foldl_max_ne, foldl_max_ne, sum_ne, sum_ne]
  simp only [List.mem_map, List.mem_filter, decide_eq_true_eq]
  constructor
  · rintro (⟨x, ⟨e, ⟨⟨he, h1⟩, _⟩, rfl⟩, hx⟩ | ⟨x, ⟨e, ⟨⟨he, h1⟩, _⟩, rfl⟩, hx⟩ | ⟨x, ⟨e, ⟨⟨he, h1⟩, _⟩, rfl⟩, hx⟩ | ⟨x, ⟨e, ⟨⟨he, h1⟩, _⟩, rfl⟩, hx⟩)
    · exact ⟨e, he, hx, .inl h1⟩
    · exact ⟨e, he, hx, .inr h1⟩
    · exact ⟨e, he, hx, .inl h1⟩
    · exact ⟨e, he, hx, .inr h1⟩
  · rintro ⟨e, he, hw, h | h⟩
    · by_cases hk : e.kind = .call
      · exact .inl ⟨_, ⟨e, ⟨⟨he, h⟩, hk⟩, rfl⟩, hw⟩
      · exact .inr (.inr (.inl ⟨_, ⟨e, ⟨⟨he, h⟩, hk⟩, rfl⟩, hw⟩))
    · by_cases hk : e.kind = .ret
      · exact .inr (.inl ⟨_, ⟨e, ⟨⟨he, h⟩, hk⟩, rfl⟩, hw⟩)
      · exact .inr (.inr (.inr ⟨_, ⟨e, ⟨⟨he, h⟩, hk⟩, rfl⟩, hw⟩))

/-! ### Selection -/

theorem fnEnd_le {f g : Fn} (h : Before f g) : fnEnd f ≤ g.addr := by
  unfold fnEnd
  cases hl : f.bbs.getLast? with
  | none => simpa using h.1
  | some b =>
    have := h.2 b (List.mem_of_getLast? hl)
    simp only [Option.map_some, Option.getD_some]
    omega

theorem getElem_pair {b : Bin} (hb : Tidy b) {i j : Nat} {f g : Fn} (hi : b.fns[i]? = some f) (hj : b.fns[j]? = some g) (hij : i < j) :
    f.addr < g.addr ∧ Before f g := by
  obtain ⟨hi1, hi2⟩ := List.getElem?_eq_some_iff.mp hi
  obtain ⟨hj1, hj2⟩ := List.getElem?_eq_some_iff.mp hj
  have := List.pairwise_iff_getElem.mp hb.fns i j hi1 hj1 hij
  rwa [hi2, hj2] at this

theorem layout_of {b : Bin} (hb : Tidy b) {sel : List Nat} (hs : sel.Pairwise (· < ·)) (hlt : ∀ i ∈ sel, i < b.fns.length) :
    Mapper.Layout b.fns sel := by
  refine ⟨?_, ?_⟩
  · intro i hi
    exact ⟨_, List.getElem?_eq_getElem (hlt i hi), (hb.ok _ (List.getElem_mem _)).1⟩
  · refine hs.imp ?_
    intro i j hij f g hf hg
    exact (getElem_pair hb hf hg hij).2

/-- The mapper is made for every tidy binary. -/
theorem mapperOf_some (c : Config) (b : Binary) (hb : Tidy b.bin) (brs fts : List ((Nat × Nat) × Nat)) :
    ∃ m, mapperOf c b brs fts = some m ∧
      build b.bin.fns (select c.uniq c.text c.filterText b.bin (some (endpoints brs fts))) = some m := by
  obtain ⟨h1, h2, _⟩ := select_spec c.uniq c.text c.filterText b.bin (some (endpoints brs fts))
  unfold mapperOf
  generalize select c.uniq c.text c.filterText b.bin (some (endpoints brs fts)) = sel at h1 h2 ⊢
  have hsome : (build b.bin.fns sel).isSome = true := by
    rw [build_isSome_iff]
    refine ⟨fun f hf => (h2 f hf).1, ?_⟩
    rw [List.pairwise_filterMap]
    refine h1.imp_of_mem ?_
    intro i j hi hj hij x hx y hy
    obtain ⟨f, hf, rfl⟩ := Option.map_eq_some_iff.1 hx
    obtain ⟨g, hg, rfl⟩ := Option.map_eq_some_iff.1 hy
    exact (getElem_pair hb hf hg hij).1
  obtain ⟨m, hm⟩ := Option.isSome_iff_exists.1 hsome
  refine ⟨m, ?_, hm⟩
  rw [hm, Option.bind_some, if_neg]
  rw [List.any_eq_true]
  rintro ⟨f, hf, he⟩
  obtain ⟨x, t, hx, _⟩ := (hb.ok _ (List.getElem_mem (h2 f hf).1)).2
  rw [List.getElem?_eq_getElem (h2 f hf).1] at he
  simp [hx] at he

/-! ### The graph -/

theorem sec_step {m : Mapper} {S : Type} [DecidableEq S] {sec : Nat → S} {st st' : St} {r : Req}
    (h : ∀ e ∈ st.g.edges, e.interSection = decide (sec e.src.fn ≠ sec e.sink.fn)) (hr : internalCreateEdge m sec st r = some st') :
    ∀ e ∈ st'.g.edges, e.interSection = decide (sec e.src.fn ≠ sec e.sink.fn) := by
  unfold internalCreateEdge at hr
  split at hr
  · next a b _ _ =>
    split at hr
    · next i _ =>
      cases hr
      intro e he
      simp only at he
      unfold bump at he
      split at he
      · next e0 he0 =>
        rcases List.mem_or_eq_of_mem_set he with he | rfl
        · exact h e he
        · exact h e0 (List.mem_of_getElem? he0)
      · exact h e he
    · obtain ⟨p, hp, rfl⟩ := Option.map_eq_some_iff.1 hr
      unfold createEdge at hp
      have hnew : ∀ e ∈ st.g.edges ++ [⟨a, b, r.weight, r.kind, decide (sec a.fn ≠ sec b.fn)⟩],
          e.interSection = decide (sec e.src.fn ≠ sec e.sink.fn) := by
        intro e he
        rcases List.mem_append.1 he with he | he
        · exact h e he
        · rw [List.mem_singleton] at he; subst he; rfl
      split at hp
      · cases hp
      · split at hp
        · split at hp
          · cases hp
          · cases hp; exact hnew
        · cases hp; exact hnew
  · cases hr

theorem sec_fold {m : Mapper} {S : Type} [DecidableEq S] {sec : Nat → S} : ∀ (rs : List Req) (st st' : St),
    (∀ e ∈ st.g.edges, e.interSection = decide (sec e.src.fn ≠ sec e.sink.fn)) → rs.foldlM (internalCreateEdge m sec) st = some st' →
    ∀ e ∈ st'.g.edges, e.interSection = decide (sec e.src.fn ≠ sec e.sink.fn)
  | [], st, st', h, hr => by cases hr; exact h
  | r :: rs, st, st', h, hr => by
    rw [List.foldlM_cons] at hr
    obtain ⟨s1, h1, h2⟩ := Option.bind_eq_some_iff.1 hr
    exact sec_fold rs s1 st' (sec_step h h1) h2

theorem upsert_pos {K : Type} [LinearOrder K] (k : K) (w : Nat) (hw : 0 < w) : ∀ (m : OMap K Nat), (∀ e ∈ m, 0 < e.2) →
    ∀ e ∈ OMap.add m (k, w), 0 < e.2 := by
  intro m
  unfold OMap.add
  induction m with
  | nil => intro _ e he; simp [OMap.upsert] at he; subst he; exact hw
  | cons a t ih =>
    intro h e he
    unfold OMap.upsert at he
    have ht : ∀ e ∈ t, 0 < e.2 := fun e he => h e (List.mem_cons_of_mem _ he)
    split at he
    · rcases List.mem_cons.1 he with rfl | he
      · simpa using hw
      · exact h e he
    · split at he
      · rcases List.mem_cons.1 he with rfl | he
        · simp only; omega
        · exact ht e he
      · rcases List.mem_cons.1 he with rfl | he
        · exact h _ List.mem_cons_self
        · exact ih ht e he

theorem addAll_pos {K : Type} [LinearOrder K] : ∀ (xs : List (K × Nat)) (m : OMap K Nat), (∀ e ∈ m, 0 < e.2) → (∀ e ∈ xs, 0 < e.2) →
    ∀ e ∈ OMap.addAll m xs, 0 < e.2
  | [], m, hm, _ => hm
  | x :: t, m, hm, hx => by
    have : OMap.addAll m (x :: t) = OMap.addAll (OMap.add m x) t := rfl
    rw [this]
    exact addAll_pos t _ (upsert_pos x.1 x.2 (hx x List.mem_cons_self) m hm) fun e he => hx e (List.mem_cons_of_mem _ he)

theorem classify_fall {m : Mapper} {br p : (Nat × Nat) × Nat} (h : (classify m br).1 = some p) : p.2 = br.2 := by
  unfold classify at h
  split at h
  · cases h
  · split at h
    · cases h
    · simp only at h
      obtain ⟨q, _, rfl⟩ := Option.map_eq_some_iff.1 h
      rfl

theorem requests_pos (m : Mapper) {brs fts : List ((Nat × Nat) × Nat)} (hb : Counts brs) (hf : Counts fts) :
    ∀ r ∈ requests m brs fts, 0 < r.weight := by
  intro r hr
  rcases List.mem_append.1 hr with hr | hr
  · obtain ⟨br, hbr, h⟩ := List.mem_filterMap.1 hr
    obtain ⟨_, _, _, _, _, _, _, _, _, _, _, hw, _⟩ := classify_req h
    rw [hw]; exact hb br hbr
  · obtain ⟨p, hp, h⟩ := List.mem_flatMap.1 hr
    rw [(fallReqs_mem h).2.2.2.1]
    refine addAll_pos _ [] (by simp) ?_ p hp
    intro e he
    obtain ⟨q, hq, rfl⟩ := List.mem_map.1 he
    rcases List.mem_append.1 hq with hq | hq
    · obtain ⟨br, hbr, h⟩ := List.mem_filterMap.1 hq
      simp only
      rw [classify_fall h]; exact hb br hbr
    · obtain ⟨ft, hft, h⟩ := List.mem_filterMap.1 hq
      unfold fallPair at h
      split at h
      · cases h; exact hf ft hft
      · cases h

/-- What the layout needs of the graph. -/
structure GraphOk (b : Bin) (m : Mapper) (brs fts : List ((Nat × Nat) × Nat)) (g : Graph) : Prop where
  ends : ∀ e ∈ g.edges, e.src ∈ m.handles ∧ e.sink ∈ m.handles
  pos : ∀ e ∈ g.edges, 0 < e.weight
  sec : ∀ e ∈ g.edges, e.interSection = decide (sectionOf b e.src.fn ≠ sectionOf b e.sink.fn)
  branch : ∀ e ∈ g.edges, e.kind = .branch → e.sink.fn = e.src.fn ∧ e.sink.bb ≠ 0
  touched : ∀ n h, m.handles[n]? = some h → (Touched m brs fts n ↔ ∃ e ∈ g.edges, e.src = h ∨ e.sink = h)

theorem graph_ok {b : Bin} (hb : Tidy b) {sel : List Nat} (hs : sel.Pairwise (· < ·)) (hlt : ∀ i ∈ sel, i < b.fns.length) {m : Mapper}
    (hm : build b.fns sel = some m) {brs fts : List ((Nat × Nat) × Nat)} (h1 : Counts brs) (h2 : Counts fts) {st : St}
    (hst : createEdges m (sectionOf b) brs fts = some st) : GraphOk b m brs fts st.g := by
  have hn : sel.Nodup := hs.imp fun h => Nat.ne_of_lt h
  have hl := layout_of hb hs hlt
  obtain ⟨st', e1, spec⟩ := createEdges_spec m (sectionOf b) brs fts
  rw [hst] at e1; cases e1
  have hreq : ∀ e ∈ st.g.edges, ∃ r ∈ requests m brs fts, m.handles[r.src]? = some e.src ∧ m.handles[r.sink]? = some e.sink := fun e he =>
    (spec.made e.src e.sink).1 ⟨e, he, rfl, rfl⟩
  refine ⟨?_, ?_, ?_, ?_, ?_⟩
  · intro e he
    obtain ⟨r, _, h3, h4⟩ := hreq e he
    exact ⟨List.mem_of_getElem? h3, List.mem_of_getElem? h4⟩
  · intro e he
    obtain ⟨r, hr, h3, h4⟩ := hreq e he
    rw [spec.weight e he]
    unfold reqWeight
    have : r.weight ∈ ((requests m brs fts).filter fun r => decide (m.handles[r.src]? = some e.src ∧ m.handles[r.sink]? = some e.sink)).map (·.weight) :=
      List.mem_map.mpr ⟨r, List.mem_filter.mpr ⟨hr, by simp [h3, h4]⟩, rfl⟩
    have h5 := List.le_sum_of_mem this
    have := requests_pos m h1 h2 r hr
    omega
  · exact sec_fold _ _ _ (by simp [Graph.empty]) hst
  · intro e he hk
    have hfind := spec.kind e he
    rw [hk] at hfind
    obtain ⟨r, hr, hrk⟩ := Option.map_eq_some_iff.1 hfind
    have hp := List.find?_some hr
    simp only [decide_eq_true_eq] at hp
    rcases List.mem_append.1 (List.mem_of_find?_eq_some hr) with hmem | hmem
    · obtain ⟨br, hbr, h⟩ := List.mem_filterMap.1 hmem
      have h0 : ∀ f ∈ b.fns, ∀ x, f.bbs[0]? = some x → x.offset = 0 := by
        intro f hf x hx
        obtain ⟨y, t, hy, hy0⟩ := (hb.ok f hf).2
        rw [hy] at hx
        simp only [List.getElem?_cons_zero, Option.some.injEq] at hx
        rw [← hx]; exact hy0
      have := (classify_kinds b.fns sel m hn hl hm h0 br r h e.src e.sink hp.1 hp.2).2.2.1 hrk
      exact ⟨this.1, this.2.2.2⟩
    · obtain ⟨p, hp', h⟩ := List.mem_flatMap.1 hmem
      obtain ⟨g1, g2, g3, _, _, g4, g5⟩ := fallReqs_mem h
      obtain ⟨_, _, ⟨fn, hfn⟩, _⟩ := (InferFT.canFallThrough_iff b.fns sel m hn hm _ _ g4).1 g5
      obtain ⟨x, hx, hxf⟩ := hfn r.src g1 (by omega)
      obtain ⟨y, hy, hyf⟩ := hfn r.sink (by omega) (by omega)
      rw [hp.1] at hx; cases hx
      rw [hp.2] at hy; cases hy
      refine ⟨by rw [hxf, hyf], ?_⟩
      obtain ⟨hms, _⟩ := InferFT.handle_fn_mem hm hp.1
      obtain ⟨base, hbase⟩ := InferFT.fn_block hn hm e.src.fn hms
      have i1 := (hbase r.src e.src.bb).1 hp.1
      have i2 := (hbase r.sink e.sink.bb).1 (by rw [hxf, ← hyf]; exact hp.2)
      omega
  · intro n h hh
    have hlt' := (List.getElem?_eq_some_iff.1 hh).1
    have hpair : ∀ br r, (classify m br).2 = some r → branchPair m br = some (r.src, r.sink) := by
      intro br r hr; unfold branchPair; rw [hr]; rfl
    have hx := createEdges_exists b.fns sel m hn hm (sectionOf b) brs fts st hst
    constructor
    · intro ht
      have hout : ∀ i j, ((∃ br ∈ brs, branchPair m br = some (i, j)) ∨ ∃ p ∈ runs m brs fts, Passes m p.1 i j) →
          ∃ x y, m.handles[i]? = some x ∧ m.handles[j]? = some y ∧ ∃ e ∈ st.g.edges, e.src = x ∧ e.sink = y := by
        intro i j hij
        have hb' : i < m.handles.length ∧ j < m.handles.length := by
          rcases hij with ⟨br, hbr, hp⟩ | ⟨p, _, hp⟩
          · unfold branchPair at hp
            obtain ⟨r, hr, hq⟩ := Option.map_eq_some_iff.1 hp
            have := requests_range m brs fts r (List.mem_append_left _ (List.mem_filterMap.2 ⟨br, hbr, hr⟩))
            cases hq
            exact this
          · obtain ⟨q1, q2, q3, _, q4, _⟩ := hp
            omega
        refine ⟨_, _, List.getElem?_eq_getElem hb'.1, List.getElem?_eq_getElem hb'.2, ?_⟩
        exact (hx i j _ _ (List.getElem?_eq_getElem hb'.1) (List.getElem?_eq_getElem hb'.2)).2 hij
      have hcase : ∃ k, ((∃ br ∈ brs, branchPair m br = some (n, k)) ∨ ∃ p ∈ runs m brs fts, Passes m p.1 n k) ∨
          ((∃ br ∈ brs, branchPair m br = some (k, n)) ∨ ∃ p ∈ runs m brs fts, Passes m p.1 k n) := by
        rcases ht with ⟨br, hbr, k, hp | hp⟩ | ⟨p, hp, k, hq | hq⟩
        · exact ⟨k, .inl (.inl ⟨br, hbr, hp⟩)⟩
        · exact ⟨k, .inr (.inl ⟨br, hbr, hp⟩)⟩
        · exact ⟨k, .inl (.inr ⟨p, hp, hq⟩)⟩
        · exact ⟨k, .inr (.inr ⟨p, hp, hq⟩)⟩
      obtain ⟨k, hk | hk⟩ := hcase
      · obtain ⟨x, y, hx1, _, e, he, h3, _⟩ := hout n k hk
        rw [hh] at hx1; cases hx1
        exact ⟨e, he, .inl h3⟩
      · obtain ⟨x, y, _, hy1, e, he, _, h3⟩ := hout k n hk
        rw [hh] at hy1; cases hy1
        exact ⟨e, he, .inr h3⟩
    · rintro ⟨e, he, hor⟩
      obtain ⟨r, _, h3, h4⟩ := hreq e he
      rcases hor with hor | hor
      · subst hor
        have := handles_nodup hn hm _ _ _ h3 hh
        subst this
        rcases (hx r.src r.sink _ _ h3 h4).1 ⟨e, he, rfl, rfl⟩ with ⟨br, hbr, hp⟩ | ⟨p, hp, hq⟩
        · exact .inl ⟨br, hbr, _, .inl hp⟩
        · exact .inr ⟨p, hp, _, .inl hq⟩
      · subst hor
        have := handles_nodup hn hm _ _ _ h4 hh
        subst this
        rcases (hx r.src r.sink _ _ h3 h4).1 ⟨e, he, rfl, rfl⟩ with ⟨br, hbr, hp⟩ | ⟨p, hp, hq⟩
        · exact .inl ⟨br, hbr, _, .inr hp⟩
        · exact .inr ⟨p, hp, _, .inr hq⟩

/-! ### The layout of a section -/

section
variable {c : Config} {b : Binary} {m : Mapper} {g : Graph} {brs fts : List ((Nat × Nat) × Nat)}

theorem idx_of {h : Handle} (hh : h ∈ m.handles) : m.handles[m.handles.idxOf h]? = some h := by
  rw [List.getElem?_eq_getElem (List.idxOf_lt_length_iff.2 hh), List.getElem_idxOf]

/-- An edge of the program is one of the graph. -/
theorem prog_edge (hg : GraphOk b.bin m brs fts g) {E : Chain.Edge} (hE : E ∈ (progOf m b.lp g).edges) :
    ∃ e ∈ g.edges, m.handles[E.src]? = some e.src ∧ m.handles[E.sink]? = some e.sink ∧ E.weight = e.weight ∧ E.kind = e.kind ∧
      E.interSection = e.interSection := by
  obtain ⟨e, he, rfl⟩ := List.mem_map.1 hE
  obtain ⟨h1, h2⟩ := hg.ends e he
  exact ⟨e, he, idx_of h1, idx_of h2, rfl, rfl, rfl⟩

theorem prog_fn {n : Nat} {h : Handle} (hh : m.handles[n]? = some h) : (progOf m b.lp g).fn n = h.fn := by simp [progOf, hh]
theorem prog_bbi {n : Nat} {h : Handle} (hh : m.handles[n]? = some h) : (progOf m b.lp g).bbi n = h.bb := by simp [progOf, hh]
theorem prog_lp {n : Nat} {h : Handle} (hh : m.handles[n]? = some h) : (progOf m b.lp g).lp n = b.lp h := by simp [progOf, hh]

theorem faithful (hg : GraphOk b.bin m brs fts g) : Faithful b m g := by
  refine ⟨?_, ?_, ?_⟩
  · intro n h hh
    simp [progOf, idOf, addrOf, hh]
  · have : (progOf m b.lp g).edges = g.edges.map fun e =>
        ⟨m.handles.idxOf e.src, m.handles.idxOf e.sink, e.weight, e.kind, e.interSection⟩ := rfl
    rw [this, List.forall₂_map_left_iff, List.forall₂_same]
    intro e he
    obtain ⟨h1, h2⟩ := hg.ends e he
    exact ⟨idx_of h1, idx_of h2, rfl, rfl, rfl⟩
  · intro e he x y hx hy
    rw [hg.sec e he]
    unfold sectionOf
    rw [hx, hy]
    rfl

theorem mem_cfg {f n : Nat} : n ∈ (cfgOf m f).nodes ↔ ∃ h, m.handles[n]? = some h ∧ h.fn = f := by
  unfold cfgOf
  simp only [List.mem_filter, List.mem_range, decide_eq_true_eq, Option.map_eq_some_iff]
  constructor
  · exact fun h => h.2
  · rintro ⟨h, hh, hf⟩
    exact ⟨(List.getElem?_eq_some_iff.1 hh).1, h, hh, hf⟩

/-- The frequency of a block is that it is touched. -/
theorem freq_touched (hinj : ∀ (i j : Nat) (k : Handle), m.handles[i]? = some k → m.handles[j]? = some k → i = j)
    (hg : GraphOk b.bin m brs fts g) {n : Nat} {h : Handle} (hh : m.handles[n]? = some h) :
    Chain.calcFreq (progOf m b.lp g).edges n ≠ 0 ↔ Touched m brs fts n := by
  rw [calcFreq_ne, hg.touched n h hh]
  constructor
  · rintro ⟨E, hE, _, hor⟩
    obtain ⟨e, he, h1, h2, _⟩ := prog_edge hg hE
    refine ⟨e, he, ?_⟩
    rcases hor with rfl | rfl
    · rw [hh] at h1; cases h1; exact .inl rfl
    · rw [hh] at h2; cases h2; exact .inr rfl
  · rintro ⟨e, he, hor⟩
    refine ⟨_, List.mem_map.2 ⟨e, he, rfl⟩, hg.pos e he, ?_⟩
    obtain ⟨h1, h2⟩ := hg.ends e he
    rcases hor with rfl | rfl
    · exact .inl (hinj _ _ _ (idx_of h1) hh)
    · exact .inr (hinj _ _ _ (idx_of h2) hh)

theorem edge_hot (hinj : ∀ (i j : Nat) (k : Handle), m.handles[i]? = some k → m.handles[j]? = some k → i = j)
    (hg : GraphOk b.bin m brs fts g) {E : Chain.Edge} (hE : E ∈ (progOf m b.lp g).edges) :
    HotFn m brs fts ((progOf m b.lp g).fn E.src) ∧ HotFn m brs fts ((progOf m b.lp g).fn E.sink) := by
  obtain ⟨e, he, h1, h2, _⟩ := prog_edge hg hE
  rw [prog_fn h1, prog_fn h2]
  exact ⟨⟨_, _, h1, rfl, (hg.touched _ _ h1).2 ⟨e, he, .inl rfl⟩⟩, ⟨_, _, h2, rfl, (hg.touched _ _ h2).2 ⟨e, he, .inr rfl⟩⟩⟩

theorem cfgHot_iff (hinj : ∀ (i j : Nat) (k : Handle), m.handles[i]? = some k → m.handles[j]? = some k → i = j)
    (hg : GraphOk b.bin m brs fts g) (f : Nat) : Chain.cfgHot (progOf m b.lp g) (cfgOf m f) = true ↔ HotFn m brs fts f := by
  unfold Chain.cfgHot
  simp only [List.any_eq_true, Bool.or_eq_true, decide_eq_true_eq]
  have hfn : (cfgOf m f).fn = f := rfl
  rw [hfn]
  constructor
  · rintro ⟨E, hE, h | h⟩
    · rw [← h]; exact (edge_hot hinj hg hE).1
    · rw [← h]; exact (edge_hot hinj hg hE).2
  · rintro ⟨n, h, hh, rfl, ht⟩
    obtain ⟨e, he, hor⟩ := (hg.touched n h hh).1 ht
    refine ⟨_, List.mem_map.2 ⟨e, he, rfl⟩, ?_⟩
    obtain ⟨h1, h2⟩ := hg.ends e he
    rcases hor with rfl | rfl
    · exact .inl (prog_fn (idx_of h1))
    · exact .inr (prog_fn (idx_of h2))

/-- The CFGs of a section. -/
def csOf (b : Binary) (m : Mapper) (order : List Nat) (s : Name) : List Chain.Cfg :=
  (order.filter fun f => decide (sectionOf b.bin f = s)).map (cfgOf m)

theorem mem_cs {order : List Nat} {s : Name} {d : Chain.Cfg} :
    d ∈ csOf b m order s ↔ ∃ f ∈ order, sectionOf b.bin f = s ∧ cfgOf m f = d := by
  unfold csOf
  simp only [List.mem_map, List.mem_filter, decide_eq_true_eq, and_assoc]

theorem cs_node (hinj : ∀ (i j : Nat) (k : Handle), m.handles[i]? = some k → m.handles[j]? = some k → i = j)
    {order : List Nat} {s : Name} {n : Nat} : (∃ d ∈ csOf b m order s, n ∈ d.nodes) ↔
      ∃ h, m.handles[n]? = some h ∧ h.fn ∈ order ∧ sectionOf b.bin h.fn = s := by
  constructor
  · rintro ⟨d, hd, hn⟩
    obtain ⟨f, hf, hs, rfl⟩ := mem_cs.1 hd
    obtain ⟨h, hh, rfl⟩ := mem_cfg.1 hn
    exact ⟨h, hh, hf, hs⟩
  · rintro ⟨h, hh, hf, hs⟩
    exact ⟨_, mem_cs.2 ⟨_, hf, hs, rfl⟩, mem_cfg.2 ⟨h, hh, rfl⟩⟩

theorem cs_fits (hg : GraphOk b.bin m brs fts g) {order : List Nat} (hnd : order.Nodup) (s : Name) :
    Chain.Fits (progOf m b.lp g) (csOf b m order s) := by
  refine ⟨?_, ?_, ?_⟩
  · unfold csOf
    rw [List.flatMap_map, List.nodup_flatMap]
    refine ⟨fun f _ => List.nodup_range.filter _, ?_⟩
    refine (hnd.filter _).imp ?_
    intro x y hxy n h1 h2
    obtain ⟨h, hh, hf⟩ := mem_cfg.1 h1
    obtain ⟨h', hh', hf'⟩ := mem_cfg.1 h2
    rw [hh] at hh'; cases hh'
    exact hxy (hf.symm.trans hf')
  · intro d hd n hn
    obtain ⟨f, hf, hs, rfl⟩ := mem_cs.1 hd
    obtain ⟨h, hh, rfl⟩ := mem_cfg.1 hn
    exact prog_fn hh
  · intro d hd E hE h1 h2
    obtain ⟨f, hf, hs, rfl⟩ := mem_cs.1 hd
    obtain ⟨e, he, e1, e2, _⟩ := prog_edge hg hE
    rw [prog_fn e1] at h1
    rw [prog_fn e2] at h2
    exact ⟨mem_cfg.2 ⟨_, e1, h1⟩, mem_cfg.2 ⟨_, e2, h2⟩⟩

theorem cs_section (hinj : ∀ (i j : Nat) (k : Handle), m.handles[i]? = some k → m.handles[j]? = some k → i = j)
    (hg : GraphOk b.bin m brs fts g) {order : List Nat} (hord : ∀ f, f ∈ order ↔ HotFn m brs fts f) (s : Name) :
    Layout.Section (progOf m b.lp g) (csOf b m order s) := by
  refine ⟨?_, ?_, ?_⟩
  · intro E hE d hd h1
    obtain ⟨f, hf, hs, rfl⟩ := mem_cs.1 hd
    obtain ⟨e, he, e1, e2, _⟩ := prog_edge hg hE
    rw [prog_fn e1] at h1
    exact mem_cfg.2 ⟨_, e1, h1⟩
  · intro E hE _ hk d hd
    obtain ⟨f, hf, hs, rfl⟩ := mem_cs.1 hd
    obtain ⟨e, he, e1, e2, _, ek, _⟩ := prog_edge hg hE
    have := (hg.branch e he (ek ▸ hk)).1
    rw [mem_cfg, mem_cfg]
    simp only [e1, e2, Option.some.injEq, exists_eq_left', this]
  · intro E hE _ hk
    obtain ⟨e, he, e1, e2, _, _, ek⟩ := prog_edge hg hE
    have hsec := hg.sec e he
    rw [← ek, hk] at hsec
    have hsec : sectionOf b.bin e.src.fn = sectionOf b.bin e.sink.fn := by
      by_contra hne
      rw [decide_eq_true hne] at hsec
      cases hsec
    rw [cs_node hinj, cs_node hinj]
    obtain ⟨t1, t2⟩ := edge_hot hinj hg hE
    rw [prog_fn e1] at t1
    rw [prog_fn e2] at t2
    simp only [e1, e2, Option.some.injEq, exists_eq_left', hsec, hord, t1, t2]

theorem first_block {fns : List Fn} {sel : List Nat} (hn : sel.Nodup) (hm : build fns sel = some m) {f : Nat} (hf : f ∈ sel)
    {x : Fn} (hx : fns[f]? = some x) (hne : x.bbs ≠ []) :
    ∃ n0 rest, (cfgOf m f).nodes = n0 :: rest ∧ m.handles[n0]? = some ⟨f, 0⟩ ∧ ∀ n ∈ rest, ∃ h, m.handles[n]? = some h ∧ h.bb ≠ 0 := by
  obtain ⟨base, hbase⟩ := InferFT.fn_block hn hm f hf
  rw [hx] at hbase
  have hlen : 0 < x.bbs.length := List.length_pos_of_ne_nil hne
  have hb0 : m.handles[base]? = some ⟨f, 0⟩ := (hbase base 0).2 ⟨rfl, hlen⟩
  have hmem : base ∈ (cfgOf m f).nodes := mem_cfg.2 ⟨_, hb0, rfl⟩
  have hsort : (cfgOf m f).nodes.Pairwise (· < ·) := List.pairwise_lt_range.filter _
  have hall : ∀ n ∈ (cfgOf m f).nodes, ∃ bb, m.handles[n]? = some ⟨f, bb⟩ ∧ n = base + bb := by
    intro n hn'
    obtain ⟨h, hh, rfl⟩ := mem_cfg.1 hn'
    exact ⟨h.bb, hh, ((hbase n h.bb).1 hh).1⟩
  generalize (cfgOf m f).nodes = l at hmem hsort hall
  cases l with
  | nil => cases hmem
  | cons n0 rest =>
    rw [List.pairwise_cons] at hsort
    obtain ⟨bb, h1, h2⟩ := hall n0 List.mem_cons_self
    have : n0 = base := by
      rcases List.mem_cons.1 hmem with h | h
      · exact h.symm
      · have := hsort.1 _ h; omega
    subst this
    refine ⟨n0, rest, rfl, hb0, ?_⟩
    intro n hn'
    obtain ⟨bb', h3, h4⟩ := hall n (List.mem_cons_of_mem _ hn')
    have := hsort.1 n hn'
    exact ⟨_, h3, by simp only; omega⟩

theorem cs_entries (hb : Tidy b.bin) {sel : List Nat} (hn : sel.Nodup) (hm : build b.bin.fns sel = some m)
    (hlt : ∀ i ∈ sel, i < b.bin.fns.length) (hg : GraphOk b.bin m brs fts g) {order : List Nat} (hsel : ∀ f ∈ order, f ∈ sel) (s : Name) :
    Layout.Entries (progOf m b.lp g) (csOf b m order s) := by
  refine ⟨?_⟩
  intro d hd
  obtain ⟨f, hf, hs, rfl⟩ := mem_cs.1 hd
  obtain ⟨x, t, hx, _⟩ := (hb.ok _ (List.getElem_mem (hlt f (hsel f hf)))).2
  obtain ⟨n0, rest, h1, h2, h3⟩ := first_block hn hm (hsel f hf) (List.getElem?_eq_getElem (hlt f (hsel f hf))) (by rw [hx]; simp)
  refine ⟨n0, rest, h1, prog_bbi h2, ?_, ?_⟩
  · intro n hn'
    obtain ⟨h, hh, hne⟩ := h3 n hn'
    rw [prog_bbi hh]; exact hne
  · rintro ⟨a, _, ha⟩
    have hmem : (a, n0) ∈ ([(a, n0)] : List (Nat × Nat)) := List.mem_singleton.2 rfl
    rw [← ha] at hmem
    obtain ⟨E, hE, heq⟩ := List.mem_map.1 hmem
    obtain ⟨hE, hp⟩ := List.mem_filter.1 hE
    simp only [decide_eq_true_eq] at hp
    obtain ⟨e, he, e1, e2, _, ek, _⟩ := prog_edge hg hE
    have := (hg.branch e he (ek ▸ hp.2.2.2.1)).2
    rw [hp.2.2.2.2, h2, Option.some.injEq] at e2
    exact this (by rw [← e2])

theorem one_score (hinj : ∀ (i j : Nat) (k : Handle), m.handles[i]? = some k → m.handles[j]? = some k → i = j)
    (hg : GraphOk b.bin m brs fts g) {order : List Nat} (hord : ∀ f, f ∈ order ↔ HotFn m brs fts f) (s : Name)
    (sc : Chain.Edge → Int → Rat) (at_ : Nat → Nat) {f : Nat} (hf : f ∈ (csOf b m order s).map (·.fn)) :
    fnScore sc (progOf m b.lp g) at_ (decide (1 < (csOf b m order s).length)) f = fnScore sc (progOf m b.lp g) at_ true f := by
  by_cases h1 : 1 < (csOf b m order s).length
  · rw [decide_eq_true h1]
  · rw [decide_eq_false h1]
    unfold fnScore
    simp only [if_true]
    congr 1
    simp only [Bool.false_eq_true, if_false]
    symm
    unfold scoreAt
    rw [List.filter_eq_nil_iff.2]
    · rfl
    · intro E hE hp
      simp only [decide_eq_true_eq] at hp
      have hin := (cs_section hinj hg hord s).inside E hE hp.2.2.1 hp.2.2.2.2
      obtain ⟨d, hd, rfl⟩ := List.mem_map.1 hf
      have hsd := (cs_section hinj hg hord s).src E hE d hd hp.1
      obtain ⟨d', hd', hk⟩ := hin.1 ⟨d, hd, hsd⟩
      have : d' = d := by
        match hcs : csOf b m order s with
        | [] => rw [hcs] at hd; cases hd
        | [z] =>
          rw [hcs] at hd hd'
          rw [List.mem_singleton.1 hd, List.mem_singleton.1 hd']
        | _ :: _ :: _ => rw [hcs] at h1; simp at h1
      subst this
      obtain ⟨f', _, _, rfl⟩ := mem_cs.1 hd
      obtain ⟨h, hh, hf'⟩ := mem_cfg.1 hk
      apply hp.2.1
      rw [prog_fn hh, hf']
      rfl

theorem mem_wanted (hinj : ∀ (i j : Nat) (k : Handle), m.handles[i]? = some k → m.handles[j]? = some k → i = j)
    (hg : GraphOk b.bin m brs fts g) {f : Nat} (hot : HotFn m brs fts f) (n : Nat) :
    n ∈ Chain.wanted (progOf m b.lp g) c.opts (cfgOf m f) ↔ ∃ h, m.handles[n]? = some h ∧ h.fn = f ∧
      (c.opts.splitFunctions = false ∨ Touched m brs fts n ∨ (h.bb = 0 ∧ c.opts.inter = false) ∨
        (b.lp h = true ∧ ∃ k h', m.handles[k]? = some h' ∧ h'.fn = h.fn ∧ b.lp h' = true ∧ Touched m brs fts k)) := by
  unfold Chain.wanted
  rw [(cfgHot_iff hinj hg f).2 hot, if_neg (by simp)]
  have hlp : Chain.hotLp (progOf m b.lp g) (cfgOf m f) = true ↔
      ∃ k h', m.handles[k]? = some h' ∧ h'.fn = f ∧ b.lp h' = true ∧ Touched m brs fts k := by
    unfold Chain.hotLp
    simp only [List.any_eq_true, Bool.and_eq_true]
    constructor
    · rintro ⟨k, hk, h1, h2⟩
      obtain ⟨h', hh', hf'⟩ := mem_cfg.1 hk
      rw [prog_lp hh'] at h1
      exact ⟨k, h', hh', hf', h1, (freq_touched hinj hg hh').1 (of_decide_eq_true h2)⟩
    · rintro ⟨k, h', hh', hf', h1, h2⟩
      exact ⟨k, mem_cfg.2 ⟨h', hh', hf'⟩, by rw [prog_lp hh']; exact h1, decide_eq_true ((freq_touched hinj hg hh').2 h2)⟩
  cases hsp : c.opts.splitFunctions with
  | false =>
    rw [if_neg (by simp), mem_cfg]
    simp
  | true =>
    rw [if_pos rfl, List.mem_filter, mem_cfg]
    constructor
    · rintro ⟨⟨h, hh, hf⟩, hi⟩
      refine ⟨h, hh, hf, .inr ?_⟩
      unfold Chain.isHot at hi
      simp only [Bool.or_eq_true, Bool.and_eq_true] at hi
      rcases hi with (hi | hi) | hi
      · exact .inl ((freq_touched hinj hg hh).1 (of_decide_eq_true hi))
      · rw [prog_bbi hh] at hi
        exact .inr (.inl ⟨of_decide_eq_true hi.1, by simpa using hi.2⟩)
      · rw [prog_lp hh, hlp] at hi
        rw [hf]
        exact .inr (.inr hi)
    · rintro ⟨h, hh, hf, hi⟩
      refine ⟨⟨h, hh, hf⟩, ?_⟩
      unfold Chain.isHot
      simp only [Bool.or_eq_true, Bool.and_eq_true]
      rcases hi with hi | hi | hi | hi
      · cases hi
      · exact .inl (.inl (decide_eq_true ((freq_touched hinj hg hh).2 hi)))
      · refine .inl (.inr ⟨?_, by simp [hi.2]⟩)
        rw [prog_bbi hh]; exact decide_eq_true hi.1
      · refine .inr ?_
        rw [prog_lp hh, hlp]
        rw [hf] at hi
        exact hi

/-- The layout of a section is made, and is as specified. -/
theorem section_ok (hb : Tidy b.bin) {sel : List Nat} (hn : sel.Nodup) (hm : build b.bin.fns sel = some m)
    (hlt : ∀ i ∈ sel, i < b.bin.fns.length) (hinfo : ∀ i ∈ sel, ∃ x, b.bin.info i = some x) (hg : GraphOk b.bin m brs fts g)
    {order : List Nat} (hsel : ∀ f ∈ order, f ∈ sel) (hnd : order.Nodup) (hord : ∀ f, f ∈ order ↔ HotFn m brs fts f) (s : Name) :
    ∃ is o B, orderAll c.weights (progOf m b.lp g) c.opts c.ccc c.thr (idOf b m) (addrOf m) (csOf b m order s) = some is ∧
      SectionOk c b m g brs fts s is o B := by
  have hinj := handles_nodup hn hm
  have hen := cs_entries hb hn hm hlt hg hsel s
  obtain ⟨o, B, is, h1, h2, h3, h4, h5, h6⟩ := orderAll_ok c.weights c.ccc c.thr (idOf b m) (addrOf m) (o := c.opts)
    (cs_fits hg hnd s) (cs_section hinj hg hord s) (by
      intro d hd
      obtain ⟨f, _, _, rfl⟩ := mem_cs.1 hd
      rfl) (by
      unfold csOf
      rw [List.map_map]
      have : (fun x : Chain.Cfg => x.fn) ∘ cfgOf m = id := by funext f; rfl
      rw [this, List.map_id]
      exact hnd.filter _) (by
      intro d hd _ hhot
      obtain ⟨f, _, _, rfl⟩ := mem_cs.1 hd
      obtain ⟨n, h, hh, hf, ht⟩ := (cfgHot_iff hinj hg f).1 hhot
      refine List.ne_nil_of_mem (a := n) (List.mem_filter.2 ⟨mem_cfg.2 ⟨h, hh, hf⟩, ?_⟩)
      unfold Chain.isHot
      rw [decide_eq_true ((freq_touched hinj hg hh).2 ht)]
      rfl) (fun _ _ => hen)
  refine ⟨is, o, B, h1, ⟨h3, ?_, h4, ⟨_, _, h5⟩, ?_, ?_⟩⟩
  · intro n
    rw [h2.mem_iff, List.mem_flatMap]
    constructor
    · rintro ⟨d, hd, hn'⟩
      obtain ⟨f, hf, hs, rfl⟩ := mem_cs.1 hd
      obtain ⟨h, hh, rfl, hc⟩ := (mem_wanted hinj hg ((hord f).1 hf) n).1 hn'
      refine ⟨h, hh, ?_, (hord _).1 hf, hc⟩
      obtain ⟨x, hx⟩ := hinfo _ (hsel _ hf)
      unfold sectionOf at hs
      rw [hx] at hs ⊢
      exact congrArg some hs
    · rintro ⟨h, hh, hs, hot, hc⟩
      have hs : sectionOf b.bin h.fn = s := by unfold sectionOf; rw [hs]; rfl
      exact ⟨_, mem_cs.2 ⟨_, (hord _).2 hot, hs, rfl⟩, (mem_wanted hinj hg hot n).2 ⟨h, hh, rfl, hc⟩⟩
  · intro i hi
    obtain ⟨e1, e2⟩ := h5.scores i hi
    have hf : i.fn ∈ (csOf b m order s).map (·.fn) := by
      by_contra hne
      rw [if_neg hne] at e1
      cases e1
    rw [if_pos hf, one_score hinj hg hord s _ _ hf] at e1 e2
    exact ⟨(Option.some.inj e1).symm, (Option.some.inj e2).symm⟩
  · intro hi i hmem
    obtain ⟨cl, n0, t, e1, e2, e3⟩ := h6 hi hen i hmem
    have hcl := h5.clusters i hmem
    rw [e1] at hcl
    have : cl ∈ runsOf (progOf m b.lp g) B i.fn := hcl.mem_iff.1 (List.mem_singleton.2 rfl)
    unfold runsOf at this
    obtain ⟨x, hx, hx'⟩ := List.mem_map.1 this
    obtain ⟨hx1, hx2⟩ := List.mem_filter.1 hx
    rw [decide_eq_true_eq] at hx2
    rw [← hx'] at e2
    simp only at e2
    rw [e2] at hx2
    simp only [List.head?_cons, Option.map_some, Option.some.injEq] at hx2
    have hB : n0 ∈ o := by
      rw [← h4.all]
      refine List.mem_flatten.2 ⟨x.1, ?_, by rw [e2]; simp⟩
      exact (List.mem_zipIdx' hx1).2 ▸ List.getElem_mem _
    obtain ⟨d, hd, hn'⟩ := List.mem_flatMap.1 (h2.mem_iff.1 hB)
    obtain ⟨f, hf, hs, rfl⟩ := mem_cs.1 hd
    obtain ⟨h, hh, rfl, hc⟩ := (mem_wanted hinj hg ((hord f).1 hf) n0).1 hn'
    rw [prog_fn hh] at hx2
    rw [prog_bbi hh] at e3
    exact ⟨cl, n0, t, h, e1, by rw [← hx']; exact e2, hh, e3, hx2⟩

end

/-! ### The whole -/

open Classical in
theorem dubious_eq (m : Mapper) (br : (Nat × Nat) × Nat) : dubious m br = if Strange m br then br.2 else 0 := by
  unfold dubious Strange branchPair
  cases hc : (classify m br).2 with
  | none => simp
  | some r =>
    simp only [Option.map_some, Option.some.injEq, Prod.mk.injEq]
    cases h1 : m.handles[r.src]? with
    | none =>
      rw [if_neg]
      rintro ⟨i, j, s, h, ⟨rfl, rfl⟩, h3, _⟩
      rw [h1] at h3; cases h3
    | some s =>
      cases h2 : m.handles[r.sink]? with
      | none =>
        rw [if_neg]
        rintro ⟨i, j, s, h, ⟨rfl, rfl⟩, _, h3, _⟩
        rw [h2] at h3; cases h3
      | some h =>
        simp only
        congr 1
        apply propext
        constructor
        · rintro ⟨h3, h4⟩
          exact ⟨_, _, s, h, ⟨rfl, rfl⟩, h1, h2, h3, h4⟩
        · rintro ⟨i, j, s', h', ⟨rfl, rfl⟩, h3, h4, h5, h6⟩
          rw [h1] at h3; cases h3
          rw [h2] at h4; cases h4
          exact ⟨h5, h6⟩

theorem weight_eq (m : Mapper) (brs : List ((Nat × Nat) × Nat)) : ((brs.filterMap fun br => (classify m br).2).map (·.weight)).sum =
    ((brs.filter fun br => (branchPair m br).isSome).map Prod.snd).sum := by
  congr 1
  induction brs with
  | nil => rfl
  | cons br t ih =>
    cases hc : (classify m br).2 with
    | none =>
      rw [List.filterMap_cons_none (f := fun br => (classify m br).2) hc, List.filter_cons, if_neg (by simp [branchPair, hc]), ih]
    | some r =>
      rw [List.filterMap_cons_some (f := fun br => (classify m br).2) hc, List.filter_cons, if_pos (by simp [branchPair, hc]), List.map_cons, List.map_cons, ih]
      obtain ⟨_, _, _, _, _, _, _, _, _, _, _, hw, _⟩ := classify_req hc
      rw [hw]

/-- The number of edges made of branches is that of the pairs of blocks. -/
theorem edges_length {fns : List Fn} {sel : List Nat} {m : Mapper} (hn : sel.Nodup) (hm : build fns sel = some m)
    {brs : List ((Nat × Nat) × Nat)} {g : Graph} (h : Spec m (brs.filterMap fun br => (classify m br).2) g) :
    g.edges.length = (brs.filterMap (branchPair m)).dedup.length := by
  have hinj := handles_nodup hn hm
  have hmem : ∀ i j, (i, j) ∈ brs.filterMap (branchPair m) ↔
      ∃ r ∈ brs.filterMap (fun br => (classify m br).2), r.src = i ∧ r.sink = j := by
    intro i j
    simp only [List.mem_filterMap, branchPair, Option.map_eq_some_iff, Prod.mk.injEq]
    constructor
    · rintro ⟨br, hbr, r, hr, rfl, rfl⟩
      exact ⟨r, ⟨br, hbr, hr⟩, rfl, rfl⟩
    · rintro ⟨r, ⟨br, hbr, hr⟩, rfl, rfl⟩
      exact ⟨br, hbr, r, hr, rfl, rfl⟩
  have hends : ∀ e ∈ g.edges, e.src ∈ m.handles ∧ e.sink ∈ m.handles := by
    intro e he
    obtain ⟨r, _, h1, h2⟩ := (h.made e.src e.sink).1 ⟨e, he, rfl, rfl⟩
    exact ⟨List.mem_of_getElem? h1, List.mem_of_getElem? h2⟩
  have hnd : (g.edges.map fun e => (m.handles.idxOf e.src, m.handles.idxOf e.sink)).Nodup := by
    have h1 := h.one
    rw [List.nodup_iff_pairwise_ne, List.pairwise_map] at h1 ⊢
    refine h1.imp_of_mem ?_
    intro x y hx hy hne heq
    apply hne
    simp only [Prod.mk.injEq] at heq ⊢
    have q1 := idx_of (hends x hx).1
    have q2 := idx_of (hends x hx).2
    rw [heq.1, idx_of (hends y hy).1] at q1
    rw [heq.2, idx_of (hends y hy).2] at q2
    exact ⟨(Option.some.inj q1).symm, (Option.some.inj q2).symm⟩
  have hp : (g.edges.map fun e => (m.handles.idxOf e.src, m.handles.idxOf e.sink)).Perm (brs.filterMap (branchPair m)).dedup := by
    refine (List.perm_ext_iff_of_nodup hnd (List.nodup_dedup _)).2 ?_
    rintro ⟨i, j⟩
    rw [List.mem_dedup, hmem, List.mem_map]
    constructor
    · rintro ⟨e, he, heq⟩
      simp only [Prod.mk.injEq] at heq
      obtain ⟨r, hr, h1, h2⟩ := (h.made e.src e.sink).1 ⟨e, he, rfl, rfl⟩
      refine ⟨r, hr, ?_, ?_⟩
      · rw [← heq.1]; exact hinj _ _ _ h1 (idx_of (hends e he).1)
      · rw [← heq.2]; exact hinj _ _ _ h2 (idx_of (hends e he).2)
    · rintro ⟨r, hr, rfl, rfl⟩
      have hb := requests_range m brs [] r (List.mem_append_left _ hr)
      obtain ⟨e, he, h1, h2⟩ := (h.made _ _).2 ⟨r, hr, List.getElem?_eq_getElem hb.1, List.getElem?_eq_getElem hb.2⟩
      refine ⟨e, he, ?_⟩
      simp only [Prod.mk.injEq]
      exact ⟨hinj _ _ _ (idx_of (hends e he).1) (h1 ▸ List.getElem?_eq_getElem hb.1),
        hinj _ _ _ (idx_of (hends e he).2) (h2 ▸ List.getElem?_eq_getElem hb.2)⟩
  rw [← hp.length_eq, List.length_map]

theorem buildGraph_spec {fns : List Fn} {sel : List Nat} {m : Mapper} (hn : sel.Nodup) (hm : build fns sel = some m) (c : Config)
    (sec : Nat → Name) (brs fts : List ((Nat × Nat) × Nat)) :
    ∃ st, createEdges m sec brs fts = some st ∧ ((Refused c m brs ∧ buildGraph c m sec brs fts = some none) ∨
      (¬ Refused c m brs ∧ buildGraph c m sec brs fts = some (some st.g))) := by
  obtain ⟨st0, h0, spec0⟩ := addEdges_spec m sec (brs.filterMap fun b => (classify m b).2) fun r hr =>
    requests_range m brs fts r (List.mem_append_left _ hr)
  obtain ⟨st, h1, _⟩ := createEdges_spec m sec brs fts
  refine ⟨st, h1, ?_⟩
  have hsum : (brs.map (dubious m)).sum = ((brs.filter fun br => @decide (Strange m br) (Classical.propDecidable _)).map Prod.snd).sum := by
    classical
    rw [sum_filter]
    congr 1
    refine List.map_congr_left fun br _ => ?_
    rw [dubious_eq]
  unfold buildGraph Refused
  rw [h0, Option.bind_some, hsum, weight_eq, edges_length hn hm spec0]
  have h1' := h1
  unfold createEdges addEdges requests at h1'
  unfold addEdges at h0
  rw [List.foldlM_append, h0] at h1'
  have h1'' : ((fallCounters m brs fts).flatMap (fallReqs m)).foldlM (internalCreateEdge m sec) st0 = some st := h1'
  rw [h1'', Option.map_some]
  by_cases ha : c.tooMany ((brs.filter fun br => @decide (Strange m br) (Classical.propDecidable _)).map Prod.snd).sum
      ((brs.filter fun br => (branchPair m br).isSome).map Prod.snd).sum = true
  · rw [if_pos ha]
    exact .inl ⟨.inl ha, rfl⟩
  · rw [if_neg ha]
    by_cases hb : c.tooFew (brs.filterMap (branchPair m)).dedup.length brs.length = true
    · rw [if_pos hb]
      exact .inl ⟨.inr hb, rfl⟩
    · rw [if_neg hb]
      exact .inr ⟨fun h => h.elim ha hb, rfl⟩

theorem mem_kept {b : Bin} {sel : List Nat} {m : Mapper} (hm : build b.fns sel = some m) {brs fts : List ((Nat × Nat) × Nat)} {st : St}
    (hst : createEdges m (sectionOf b) brs fts = some st) (hg : GraphOk b m brs fts st.g) (f : Nat) :
    f ∈ keptFns m st.g sel ↔ HotFn m brs fts f := by
  obtain ⟨st', e1, spec⟩ := createEdges_spec m (sectionOf b) brs fts
  rw [hst] at e1; cases e1
  unfold keptFns HotFn
  rw [List.mem_filter, List.any_eq_true]
  constructor
  · rintro ⟨_, h, hh, hp⟩
    rw [decide_eq_true_eq] at hp
    obtain ⟨n, hn⟩ := List.mem_iff_getElem?.1 hh
    obtain ⟨e, he, _, hor⟩ := (nodeFreq_pos spec h).1 (Nat.pos_of_ne_zero hp.2)
    exact ⟨n, h, hn, hp.1, (hg.touched n h hn).2 ⟨e, he, hor⟩⟩
  · rintro ⟨n, h, hh, rfl, ht⟩
    obtain ⟨e, he, hor⟩ := (hg.touched n h hh).1 ht
    refine ⟨(InferFT.handle_fn_mem hm hh).1, h, List.mem_of_getElem? hh, ?_⟩
    have := (nodeFreq_pos spec h).2 ⟨e, he, hg.pos e he, hor⟩
    rw [decide_eq_true_eq]
    exact ⟨rfl, by omega⟩

theorem fold_sections {V : Type} (F : Name → Option V) : ∀ (secs : List Name) (acc : OMap Name V), OMap.Sorted acc →
    (∀ s ∈ secs, (F s).isSome = true) → secs.Nodup → (∀ s ∈ secs, acc.find? s = none) →
    ∃ prof, secs.foldlM (fun acc s => (F s).map fun is => OMap.emplace s is acc) acc = some prof ∧ OMap.Sorted prof ∧
      ∀ s, prof.find? s = if s ∈ secs then F s else acc.find? s
  | [], acc, hs, _, _, _ => ⟨acc, rfl, hs, by simp⟩
  | s :: t, acc, hs, hF, hn, hno => by
    obtain ⟨is, his⟩ := Option.isSome_iff_exists.1 (hF s List.mem_cons_self)
    rw [List.nodup_cons] at hn
    have hfind : ∀ x, (OMap.emplace s is acc).find? x = if x = s then some is else acc.find? x := by
      intro x
      unfold OMap.emplace
      rw [OMap.find?_upsert hs]
      by_cases hx : x = s
      · rw [if_pos hx, if_pos hx, hno s List.mem_cons_self]; rfl
      · rw [if_neg hx, if_neg hx]
    obtain ⟨prof, h1, h2, h3⟩ := fold_sections F t (OMap.emplace s is acc) (hs.upsert _ _) (fun x hx => hF x (List.mem_cons_of_mem _ hx)) hn.2
      (by
        intro x hx
        rw [hfind, if_neg (fun (h : x = s) => hn.1 (h ▸ hx))]
        exact hno x (List.mem_cons_of_mem _ hx))
    refine ⟨prof, ?_, h2, ?_⟩
    · rw [List.foldlM_cons, his]; exact h1
    · intro x
      rw [h3, hfind]
      by_cases hx : x = s
      · subst hx
        rw [if_neg hn.1, if_pos rfl, if_pos List.mem_cons_self, his]
      · rw [if_neg hx]
        simp only [List.mem_cons, hx, false_or]

/-- **C74**: for every binary whose blocks are in order, all positive counts and every order of the hash maps, `ComputeProfile` fails no
check.  It returns an error exactly if the counts look wrong; otherwise the profile has exactly the sections with a touched function,
and each is laid out as specified. -/
theorem computeProfile_ok (c : Config) (b : Binary) (hb : Tidy b.bin) (shuf : List Nat → List Nat) (shufS : List Name → List Name)
    (hsh : ∀ l, (shuf l).Perm l) (hshS : ∀ l, (shufS l).Perm l) (brs fts : List ((Nat × Nat) × Nat)) (h1 : Counts brs) (h2 : Counts fts) :
    ∃ m, build b.bin.fns (select c.uniq c.text c.filterText b.bin (some (endpoints brs fts))) = some m ∧
      (Refused c m brs → computeProfile c b shuf shufS brs fts = some none) ∧
      (¬ Refused c m brs → ∃ st prof, createEdges m (sectionOf b.bin) brs fts = some st ∧
        computeProfile c b shuf shufS brs fts = some (some prof) ∧ OMap.Sorted prof ∧
        (∀ s, (∃ is, (s, is) ∈ prof) ↔ ∃ f x, HotFn m brs fts f ∧ b.bin.info f = some x ∧ x.section_ = s) ∧
        Faithful b m st.g ∧
        ∀ s is, (s, is) ∈ prof → ∃ order B, SectionOk c b m st.g brs fts s is order B) := by
  obtain ⟨m, hmo, hm⟩ := mapperOf_some c b hb brs fts
  obtain ⟨hs1, hs2, _⟩ := select_spec c.uniq c.text c.filterText b.bin (some (endpoints brs fts))
  refine ⟨m, hm, ?_⟩
  unfold computeProfile
  rw [hmo, Option.bind_some]
  generalize select c.uniq c.text c.filterText b.bin (some (endpoints brs fts)) = sel at hm hs1 hs2
  have hn : sel.Nodup := hs1.imp fun h => Nat.ne_of_lt h
  have hlt : ∀ i ∈ sel, i < b.bin.fns.length := fun i hi => (hs2 i hi).1
  obtain ⟨st, hst, ⟨hr, hg⟩ | ⟨hr, hg⟩⟩ := buildGraph_spec hn hm c (sectionOf b.bin) brs fts
  · rw [hg]
    exact ⟨fun _ => rfl, fun h => absurd hr h⟩
  · rw [hg]
    refine ⟨fun h => absurd h hr, fun _ => ?_⟩
    have ok := graph_ok hb hs1 hlt hm h1 h2 hst
    simp only [Option.bind_some]
    have hperm := hsh (keptFns m st.g sel)
    generalize shuf (keptFns m st.g sel) = order at hperm
    have hord : ∀ f, f ∈ order ↔ HotFn m brs fts f := fun f => hperm.mem_iff.trans (mem_kept hm hst ok f)
    have hnd : order.Nodup := hperm.nodup_iff.2 (hn.filter _)
    have hsel : ∀ f ∈ order, f ∈ sel := fun f hf => (List.mem_filter.1 (hperm.mem_iff.1 hf)).1
    have hpS := hshS (order.map (sectionOf b.bin)).dedup
    generalize shufS (order.map (sectionOf b.bin)).dedup = secs at hpS
    have hall := section_ok (c := c) hb hn hm hlt (fun i hi => (hs2 i hi).2.imp fun x hx => hx.1) ok hsel hnd hord
    obtain ⟨prof, e1, e2, e3⟩ := fold_sections (fun s => orderAll c.weights (progOf m b.lp st.g) c.opts c.ccc c.thr (idOf b m) (addrOf m)
      (csOf b m order s)) secs [] (by unfold OMap.Sorted; simp) (by
        intro s _
        obtain ⟨is, _, _, h, _⟩ := hall s
        rw [h]; rfl) (hpS.nodup_iff.2 (List.nodup_dedup _)) (by intros; rfl)
    refine ⟨st, prof, hst, ?_, e2, ?_, faithful ok, ?_⟩
    · unfold layoutSections
      have : (secs.foldlM (fun acc s => (orderAll c.weights (progOf m b.lp st.g) c.opts c.ccc c.thr (idOf b m) (addrOf m)
        ((order.filter fun f => decide (sectionOf b.bin f = s)).map (cfgOf m))).map fun is => OMap.emplace s is acc) [] :
          Option (OMap Name (List FnInfo))) = some prof := e1
      rw [this]; rfl
    · intro s
      have hmem : s ∈ secs ↔ ∃ f x, HotFn m brs fts f ∧ b.bin.info f = some x ∧ x.section_ = s := by
        rw [hpS.mem_iff, List.mem_dedup, List.mem_map]
        constructor
        · rintro ⟨f, hf, hs⟩
          obtain ⟨_, x, hx, _⟩ := hs2 f (hsel f hf)
          refine ⟨f, x, (hord f).1 hf, hx, ?_⟩
          rw [← hs]
          unfold sectionOf
          rw [hx]; rfl
        · rintro ⟨f, x, hf, hx, rfl⟩
          refine ⟨f, (hord f).2 hf, ?_⟩
          unfold sectionOf
          rw [hx]; rfl
      rw [← hmem]
      constructor
      · rintro ⟨is, hmem⟩
        have := OMap.find?_some_of_mem e2 hmem
        rw [e3] at this
        by_contra hne
        rw [if_neg hne] at this
        cases this
      · intro hmem
        obtain ⟨is, _, _, h, _⟩ := hall s
        refine ⟨is, (OMap.find?_eq_some_iff e2).1 ?_⟩
        rw [e3, if_pos hmem, h]
    · intro s is hmem
      have := OMap.find?_some_of_mem e2 hmem
      rw [e3] at this
      split at this
      · obtain ⟨is', o, B, h, hk⟩ := hall s
        rw [h] at this
        cases this
        exact ⟨o, B, hk⟩
      · cases this

/-- **C74**: before functions without a name, of other sections or with ambiguous names are left out, the functions selected are
exactly those in which a branch or a run starts or ends. -/
theorem selected (b : Bin) (hb : Tidy b) (brs fts : List ((Nat × Nat) × Nat)) (f : Nat) (x : Fn) (hx : b.fns[f]? = some x) :
    f ∈ hotFunctions b.fns (endpoints brs fts) ↔
      ∃ e ∈ brs ++ fts, (x.addr ≤ e.1.1 ∧ e.1.1 < fnEnd x) ∨ (x.addr ≤ e.1.2 ∧ e.1.2 < fnEnd x) := by
  rw [hotFunctions_iff b.fns _ (hb.fns.imp fun h => ⟨h.1, fnEnd_le h.2⟩) f x hx]
  unfold endpoints
  simp only [List.mem_flatMap, List.mem_cons, List.not_mem_nil, or_false]
  constructor
  · rintro ⟨a, ⟨e, he, rfl | rfl⟩, h⟩
    · exact ⟨e, he, .inl h⟩
    · exact ⟨e, he, .inr h⟩
  · rintro ⟨e, he, h | h⟩
    · exact ⟨_, ⟨e, he, .inl rfl⟩, h⟩
    · exact ⟨_, ⟨e, he, .inr rfl⟩, h⟩

/-- **C74**: the cluster file of the profile is written, and says of each function of each section its names, its module, and the ids
of the blocks of its clusters. -/
theorem clusterFile_ok (v : Ver) (c : Config) (b : Binary) (hna : NamesOk v b) {sel : List Nat} {m : Mapper}
    (hm : build b.bin.fns sel = some m) {g : Graph} {brs fts : List ((Nat × Nat) × Nat)} {prof : OMap Name (List FnInfo)}
    (h : ∀ s is, (s, is) ∈ prof → ∃ order B, SectionOk c b m g brs fts s is order B) :
    ∃ s, clusterFile v b m prof = some s ∧ readCc s = some ((prof.flatMap Prod.snd).map (record b m)) := by
  have hrec : ∀ i ∈ prof.flatMap Prod.snd, recOf (idOf b m) (fun _ => 0) (outOf b) i = some (record b m i) ∧ Writable v (record b m i) := by
    intro i hi
    obtain ⟨⟨s, is⟩, hp, hi⟩ := List.mem_flatMap.1 hi
    obtain ⟨order, B, ok⟩ := h s is hp
    obtain ⟨_, _, hem⟩ := ok.emitted
    obtain ⟨n, hn, hf⟩ := List.mem_map.1 ((hem.fns i.fn).1 (List.mem_map.2 ⟨i, hi, rfl⟩))
    obtain ⟨hd, hh, _⟩ := (ok.blocks n).1 hn
    rw [prog_fn hh] at hf
    obtain ⟨_, x, hx, _⟩ := InferFT.handle_fn_mem hm hh
    rw [hf] at hx
    have ho : outOf b i.fn = some ⟨(b.bin.names i.fn).map fun n => n.map fun c => Char.ofNat c.toNat, b.module_ i.fn, [], x.bbs.length⟩ := by
      unfold outOf
      rw [hx]; rfl
    refine ⟨by unfold recOf; rw [ho]; rfl, ?_⟩
    refine ⟨hna.names _ _ ho, hna.clean _ _ ho, fun hv => hna.mark hv _ _ ho, fun x hx => hna.mod_ _ _ hx, by simp [record], fun _ => rfl, ?_⟩
    intro cl hcl
    obtain ⟨d, hd, rfl⟩ := List.mem_map.1 hcl
    have := (hem.clusters i hi).mem_iff.1 hd
    obtain ⟨y, hy, rfl⟩ := List.mem_map.1 this
    have hyB : y.1 ∈ B := (List.mem_zipIdx' (List.mem_filter.1 hy).1).2 ▸ List.getElem_mem _
    have := ok.runs.ne _ hyB
    simpa using this
  have hmap : ∀ l : List FnInfo, (∀ i ∈ l, recOf (idOf b m) (fun _ => 0) (outOf b) i = some (record b m i)) →
      l.mapM (recOf (idOf b m) (fun _ => 0) (outOf b)) = some (l.map (record b m)) := by
    intro l
    induction l with
    | nil => intro _; rfl
    | cons i t ih =>
      intro hl
      rw [List.mapM_cons, hl i List.mem_cons_self, ih fun j hj => hl j (List.mem_cons_of_mem _ hj)]
      rfl
  unfold clusterFile
  rw [hmap _ fun i hi => (hrec i hi).1, Option.bind_some]
  refine readCc_ccText v _ ?_
  intro r hr
  obtain ⟨i, hi, rfl⟩ := List.mem_map.1 hr
  exact (hrec i hi).2

/-- **C74: from the counts to the file.** -/
theorem cluster_file (v : Ver) (c : Config) (b : Binary) (hb : Tidy b.bin) (hna : NamesOk v b) (shuf : List Nat → List Nat)
    (shufS : List Name → List Name) (hsh : ∀ l, (shuf l).Perm l) (hshS : ∀ l, (shufS l).Perm l) (brs fts : List ((Nat × Nat) × Nat))
    (h1 : Counts brs) (h2 : Counts fts) : ∃ m, mapperOf c b brs fts = some m ∧ (¬ Refused c m brs → ∃ prof s recs,
      computeProfile c b shuf shufS brs fts = some (some prof) ∧ clusterFile v b m prof = some s ∧ readCc s = some recs ∧
      (∀ r ∈ recs, ∃ i ∈ prof.flatMap Prod.snd, r = record b m i) ∧
      -- every touched block is in exactly one cluster, that of its function
      ∀ n h, m.handles[n]? = some h → Touched m brs fts n →
        ∃ i ∈ prof.flatMap Prod.snd, i.fn = h.fn ∧ record b m i ∈ recs ∧ (i.clusters.flatMap (·.blocks)).count n = 1) := by
  obtain ⟨m, hm, _, hok⟩ := computeProfile_ok c b hb shuf shufS hsh hshS brs fts h1 h2
  obtain ⟨m', hm', hm''⟩ := mapperOf_some c b hb brs fts
  rw [hm] at hm''; cases hm''
  refine ⟨m, hm', fun hr => ?_⟩
  obtain ⟨st, prof, _, hp, _, hsec, _, hall⟩ := hok hr
  obtain ⟨s, hs1, hs2⟩ := clusterFile_ok v c b hna hm hall
  refine ⟨prof, s, _, hp, hs1, hs2, ?_, ?_⟩
  · intro r hr
    obtain ⟨i, hi, rfl⟩ := List.mem_map.1 hr
    exact ⟨i, hi, rfl⟩
  · intro n h hh ht
    obtain ⟨x, hx⟩ : ∃ x, b.bin.info h.fn = some x :=
      ((select_spec c.uniq c.text c.filterText b.bin (some (endpoints brs fts))).2.1 _ (InferFT.handle_fn_mem hm hh).1).2.imp fun x hx => hx.1
    obtain ⟨is, his⟩ := (hsec x.section_).2 ⟨h.fn, x, ⟨n, h, hh, rfl, ht⟩, hx, rfl⟩
    obtain ⟨order, B, ok⟩ := hall _ _ his
    obtain ⟨_, _, hem⟩ := ok.emitted
    have hn : n ∈ order := (ok.blocks n).2 ⟨h, hh, by rw [hx]; rfl, ⟨n, h, hh, rfl, ht⟩, .inr (.inl ht)⟩
    obtain ⟨q1, q2, q3⟩ := layout_once hem ok.runs ok.nodup
    obtain ⟨cl, hcl, hncl⟩ := List.mem_flatMap.1 (q2.mem_iff.2 hn)
    obtain ⟨i, hi, hcl⟩ := List.mem_flatMap.1 hcl
    have hi' : i ∈ prof.flatMap Prod.snd := List.mem_flatMap.2 ⟨_, his, hi⟩
    refine ⟨i, hi', ?_, List.mem_map.2 ⟨i, hi', rfl⟩, ?_⟩
    · rw [← ((q1 i hi cl hcl).2 n hncl).2, prog_fn hh]
    · refine List.count_eq_one_of_mem ?_ (List.mem_flatMap.2 ⟨cl, hcl, hncl⟩)
      obtain ⟨p, q, rfl⟩ := List.append_of_mem hi
      rw [List.flatMap_append, List.flatMap_cons, List.flatMap_append, List.flatMap_append, List.nodup_append] at q3
      exact (List.nodup_append.1 q3.2.1).1

/-! ### From the samples -/

/-- A counter as the hash map it is. -/
def counters (m : OMap (Nat ×ₗ Nat) Nat) : List ((Nat × Nat) × Nat) := m.map fun e => (ofLex e.1, e.2)

theorem agg_pos {P : PerfAgg.Agg → Prop} (h0 : P ⟨[], []⟩) (hstep : ∀ tr st x, P st.1 → P (PerfAgg.stepEntry tr st x).1) {files g}
    (h : PerfAgg.aggregateAll files = some g) : P g := by
  have h1 : ∀ tr (l : List (Nat × Nat)) st, P st.1 → P (l.foldl (PerfAgg.stepEntry tr) st).1 := by
    intro tr l
    induction l with
    | nil => intro st hp; exact hp
    | cons x t ih => intro st hp; exact ih _ (hstep tr st x hp)
  have h2 : ∀ r (l : List PerfAgg.Sample) g, P g → P (PerfAgg.aggregateLBR r l g) := by
    intro r l
    unfold PerfAgg.aggregateLBR
    induction l with
    | nil => intro g hp; exact hp
    | cons x t ih =>
      intro g hp
      refine ih _ ?_
      unfold PerfAgg.aggSample
      split
      · exact hp
      · exact h1 _ _ _ hp
  unfold PerfAgg.aggregateAll at h
  split at h
  · cases h
    have h3 : ∀ (l : List (Option PerfAgg.Reader × List PerfAgg.Sample)) g, P g →
        P (l.foldl (fun g f => match f.1 with | none => g | some r => PerfAgg.aggregateLBR r f.2 g) g) := by
      intro l
      induction l with
      | nil => intro g hp; exact hp
      | cons x t ih =>
        intro g hp
        refine ih _ ?_
        obtain ⟨_ | r, ss⟩ := x
        · exact hp
        · exact h2 r ss g hp
    exact h3 _ _ h0
  · cases h

/-- **C74**: the counts of every set of sample files are positive, so the theorems above apply to what is read from them, in every
order of the hash maps. -/
theorem samples_counts {files : List (Option PerfAgg.Reader × List PerfAgg.Sample)} {g : PerfAgg.Agg}
    (h : PerfAgg.aggregateAll files = some g) {brs fts : List ((Nat × Nat) × Nat)} (h1 : brs.Perm (counters g.branches))
    (h2 : fts.Perm (counters g.falls)) : Counts brs ∧ Counts fts := by
  have key : (∀ e ∈ g.branches, 0 < e.2) ∧ ∀ e ∈ g.falls, 0 < e.2 := by
    refine agg_pos (P := fun g => (∀ e ∈ g.branches, 0 < e.2) ∧ ∀ e ∈ g.falls, 0 < e.2) ⟨by simp, by simp⟩ ?_ h
    intro tr st x hp
    unfold PerfAgg.stepEntry
    refine ⟨upsert_pos _ 1 (by omega) _ hp.1, ?_⟩
    simp only
    split
    · exact upsert_pos _ 1 (by omega) _ hp.2
    · exact hp.2
  constructor
  · intro e he
    obtain ⟨x, hx, rfl⟩ := List.mem_map.1 (h1.mem_iff.1 he)
    exact key.1 x hx
  · intro e he
    obtain ⟨x, hx, rfl⟩ := List.mem_map.1 (h2.mem_iff.1 he)
    exact key.2 x hx

/-! ### Example -/

def exBin : Bin := ⟨exMap.fns, fun f => some ⟨[102, UInt8.ofNat (48 + f)] :: [], [116]⟩⟩
def exBinary : Binary := ⟨exBin, fun _ => false, fun h => h.bb, fun _ => none⟩
def exConfig : Config := ⟨fun _ => false, [116], true, ⟨1, 1, 1, 1, 1⟩, ⟨true, true, true, true, 10⟩, true, 10,
  fun a b => decide (3 * b < 10 * a), fun a b => decide (10000 * a < 5 * b)⟩

/-- A binary with two functions, and branch counts that are accepted; both functions are laid out. -/
theorem example_ok : Tidy exBin ∧ Counts exBrs ∧ Counts exFts ∧ NamesOk .v1 exBinary ∧ mapperOf exConfig exBinary exBrs exFts = some exMap ∧
    ¬ Refused exConfig exMap exBrs ∧ HotFn exMap exBrs exFts 0 ∧ HotFn exMap exBrs exFts 1 := by
  have hbuild : build exBin.fns [0, 1] = some exMap := by rfl
  refine ⟨⟨?_, ?_⟩, by unfold Counts; decide +kernel, by unfold Counts; decide +kernel, ⟨?_, ?_, ?_, ?_⟩, ?_, ?_, ?_, ?_⟩
  · simp only [exBin, exMap, List.pairwise_cons, List.mem_singleton, forall_eq, List.not_mem_nil, false_imp_iff, implies_true,
      List.Pairwise.nil, and_true]
    unfold Before; decide +kernel
  · intro f hf
    have : f = ⟨0x10, [⟨0, 4, true, false⟩, ⟨4, 4, true, false⟩, ⟨8, 4, false, true⟩]⟩ ∨ f = ⟨0x20, [⟨0, 4, true, false⟩, ⟨4, 4, false, false⟩]⟩ := by
      simpa [exBin, exMap] using hf
    rcases this with rfl | rfl
    · exact ⟨by unfold FnOk; decide +kernel, _, _, rfl, rfl⟩
    · exact ⟨by unfold FnOk; decide +kernel, _, _, rfl, rfl⟩
  · intro f o ho
    have : f = 0 ∨ f = 1 := by
      rcases f with _ | _ | f
      · exact .inl rfl
      · exact .inr rfl
      · simp [outOf, exBinary, exBin, exMap] at ho
    rcases this with rfl | rfl
    · cases ho; decide +kernel
    · cases ho; decide +kernel
  · intro f o ho
    have : f = 0 ∨ f = 1 := by
      rcases f with _ | _ | f
      · exact .inl rfl
      · exact .inr rfl
      · simp [outOf, exBinary, exBin, exMap] at ho
    rcases this with rfl | rfl
    · cases ho; decide +kernel
    · cases ho; decide +kernel
  · intro h; cases h
  · intro f x hx; cases hx
  · have hsel : select exConfig.uniq exConfig.text exConfig.filterText exBinary.bin (some (endpoints exBrs exFts)) = [0, 1] := by decide +kernel
    unfold mapperOf
    rw [hsel]
    have : build exBinary.bin.fns [0, 1] = some exMap := hbuild
    rw [this]
    rfl
  · intro hr
    have hg : (buildGraph exConfig exMap (sectionOf exBin) exBrs exFts).map Option.isSome = some true := by decide +kernel
    obtain ⟨st, _, ⟨_, h⟩ | ⟨h, _⟩⟩ := buildGraph_spec (by decide) hbuild exConfig (sectionOf exBin) exBrs exFts
    · rw [h] at hg; cases hg
    · exact h hr
  · exact ⟨0, ⟨0, 0⟩, rfl, rfl, .inl ⟨((0x23, 0x10), 7), by decide, 3, .inr (by decide +kernel)⟩⟩
  · exact ⟨3, ⟨1, 0⟩, rfl, rfl, .inl ⟨((0x23, 0x10), 7), by decide, 0, .inl (by decide +kernel)⟩⟩

end Verif.Propeller

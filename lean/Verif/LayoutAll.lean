import Verif.Layout

/-! # C33: `CodeLayout::OrderAll`, from the CFGs to the emitted layout (llvm_propeller_code_layout.cc)

Integers are unbounded; scores and densities are exact. -/
namespace Verif.Layout
open Verif Verif.Chain Verif.Cluster

/-- The chains that the cluster builder takes over. -/
def chainInfos (st : State) : List ChainInfo := st.chains.map fun c => ⟨c, nodesOf st c, (st.C c).size, (st.C c).freq⟩

/-- The chains of all CFGs (llvm_propeller_code_layout.cc:100-117). -/
def allChains (k : Weights) (G : Prog) (o : Opts) (cs : List Cfg) : Option (List ChainInfo) :=
  if o.inter = true then (buildChains (getEdgeScore k G.size) G o cs).map chainInfos
  else gather (fun c => (buildChains (getEdgeScore k G.size) G o [c]).map chainInfos) cs

/-- Adds the score of an edge, by the addresses of its blocks (llvm_propeller_code_layout.cc:50-54, 62-64); `none`: `at`
throws. -/
def addScore (sc : Edge → Int → Rat) (G : Prog) (addr : Nat → Option Nat) (acc : Rat) (e : Edge) : Option Rat :=
  (addr e.sink).bind fun (t : Nat) => (addr e.src).map fun (s : Nat) => acc + sc e ((t : Int) - s - G.size e.src)

/-- The scores of one CFG (llvm_propeller_code_layout.cc:47-66); `multi`: there are several. -/
def cfgScore (sc : Edge → Int → Rat) (G : Prog) (addr : Nat → Option Nat) (multi : Bool) (c : Cfg) : Option CFGScore :=
  ((G.edges.filter fun e => decide (G.fn e.src = c.fn) && decide (G.fn e.sink = c.fn)).foldlM
    (fun acc e => if e.weight = 0 ∨ e.kind = .ret then some acc else addScore sc G addr acc e) 0).bind fun intra =>
  (if multi = true then
    (G.edges.filter fun e => decide (G.fn e.src = c.fn) && !decide (G.fn e.sink = c.fn)).foldlM
      (fun acc e => if e.weight = 0 ∨ e.kind = .ret ∨ e.interSection = true then some acc else addScore sc G addr acc e) 0
    else some 0).map fun inter => ⟨intra, inter⟩

/-- `ComputeCfgScores` (llvm_propeller_code_layout.cc:43-69), as the map by function: `emplace` keeps the first. -/
def cfgScores (sc : Edge → Int → Rat) (G : Prog) (addr : Nat → Option Nat) (cs : List Cfg) : Option (OMap Nat CFGScore) :=
  cs.foldlM (fun m c => (cfgScore sc G addr (decide (1 < cs.length)) c).map fun s => OMap.emplace c.fn s m) []

/-- The addresses in the new layout (llvm_propeller_code_layout.cc:81-91). -/
def layoutAddrs (G : Prog) (order : List Nat) : OMap Nat Nat :=
  (order.foldl (fun (x : Nat × OMap Nat Nat) n => (x.1 + G.size n, OMap.emplace n x.1 x.2)) (0, [])).2

/-- `OrderAll` (llvm_propeller_code_layout.cc:98-200); `addr`: `addr()` of the blocks; `ccc`, `thr`: the options of the
clustering. -/
def orderAll (k : Weights) (G : Prog) (o : Opts) (ccc : Bool) (thr : Nat) (bbId addr : Nat → Nat) (cs : List Cfg) : Option (List FnInfo) :=
  (allChains k G o cs).bind fun chs => (buildClusters G ⟨o.inter, ccc, thr⟩ chs).bind fun cl =>
    (cfgScores (getEdgeScore k G.size) G (fun n => some (addr n)) cs).bind fun orig =>
    (cfgScores (getEdgeScore k G.size) G (layoutAddrs G (cl.flatMap fun c => c.chains.flatMap (·.nodes))).find? cs).bind fun opt =>
      emit G bbId orig.find? opt.find? (cl.flatMap fun c => c.chains.flatMap (·.nodes))

/-! ### Specification -/

/-- The CFGs are those of a section: branches stay within a function; edges that are not marked as leaving the section are
between the given functions. -/
structure Section (G : Prog) (cs : List Cfg) : Prop where
  src : ∀ e ∈ G.edges, ∀ c ∈ cs, G.fn e.src = c.fn → e.src ∈ c.nodes
  branch : ∀ e ∈ G.edges, e.weight ≠ 0 → e.kind = .branch → ∀ c ∈ cs, (e.src ∈ c.nodes ↔ e.sink ∈ c.nodes)
  inside : ∀ e ∈ G.edges, e.weight ≠ 0 → e.interSection = false → ((∃ c ∈ cs, e.src ∈ c.nodes) ↔ ∃ c ∈ cs, e.sink ∈ c.nodes)

/-- Without inter-function layout: the first block of each function is its entry block, and not the target of a sole branch. -/
structure Entries (G : Prog) (cs : List Cfg) : Prop where
  first : ∀ c ∈ cs, ∃ n0 rest, c.nodes = n0 :: rest ∧ G.bbi n0 = 0 ∧ (∀ n ∈ rest, G.bbi n ≠ 0) ∧ ¬ SoleBranch G c n0

/-- The address of a block in a layout: the sizes of the blocks before it. -/
def pos (G : Prog) (order : List Nat) (n : Nat) : Nat := ((order.takeWhile fun m => !decide (m = n)).map G.size).sum

/-- The score of some edges, at given addresses. -/
def scoreAt (sc : Edge → Int → Rat) (G : Prog) (at_ : Nat → Nat) (es : List Edge) : Rat :=
  (es.map fun e => sc e ((at_ e.sink : Int) - at_ e.src - G.size e.src)).sum

/-- The score of a function: of the edges within it, and of those that leave it for functions of the section. -/
def fnScore (sc : Edge → Int → Rat) (G : Prog) (at_ : Nat → Nat) (multi : Bool) (f : Nat) : CFGScore where
  intra := scoreAt sc G at_ (G.edges.filter fun e => decide (G.fn e.src = f ∧ G.fn e.sink = f ∧ e.weight ≠ 0 ∧ e.kind ≠ .ret))
  inter := if multi = true then scoreAt sc G at_ (G.edges.filter fun e =>
    decide (G.fn e.src = f ∧ G.fn e.sink ≠ f ∧ e.weight ≠ 0 ∧ e.kind ≠ .ret ∧ e.interSection = false)) else 0

/-! ### Proofs -/

variable {k : Weights} {G : Prog} {o : Opts} {cs : List Cfg}

theorem calcFreq_pos {es : List Edge} {e : Edge} (he : e ∈ es) (hw : e.weight ≠ 0) (hr : e.kind ≠ .ret) :
    calcFreq es e.src ≠ 0 ∧ calcFreq es e.sink ≠ 0 := by
  have hv : shouldVisit { inter := true } true { e with interSection := false } = true := by
    simp [shouldVisit, hw, hr]
  have key : ∀ n, calcFreq (es.map fun e => { e with interSection := false }) n = calcFreq es n := by
    intro n
    simp [calcFreq, List.filter_map, List.map_map, Function.comp_def]
  have := calcFreq_visited (es := es.map fun e => { e with interSection := false }) (List.mem_map.2 ⟨e, he, rfl⟩) hv
  rw [key, key] at this
  exact this

theorem wanted_of {e : Edge} (hf : Fits G cs) (he : e ∈ G.edges) (hw : e.weight ≠ 0) (hr : e.kind ≠ .ret) {n : Nat}
    (hn : n = e.src ∨ n = e.sink) {c : Cfg} (hc : c ∈ cs) (hnc : n ∈ c.nodes) : n ∈ wanted G o c := by
  obtain ⟨f1, f2⟩ := calcFreq_pos he hw hr
  rw [mem_wanted]
  have := hf.fn c hc n hnc
  refine ⟨hnc, ⟨e, he, ?_⟩, fun _ => .inl ?_⟩
  · rcases hn with rfl | rfl
    exacts [.inl this, .inr this]
  · rcases hn with rfl | rfl
    exacts [f1, f2]

theorem Section.enclosed (h : Section G cs) : Enclosed G o cs := ⟨h.branch, fun e he hw _ hs _ _ => h.inside e he hw hs⟩

theorem enclosed_one (h : Section G cs) {c : Cfg} (hc : c ∈ cs) : Enclosed G o [c] :=
  ⟨fun e he hw hk d hd => by rw [List.mem_singleton] at hd; subst hd; exact h.branch e he hw hk d hc,
   fun e he hw hk hs hi hl => absurd hl (by simp)⟩

/-- The chains as the cluster builder needs them. -/
structure ChainsOk (G : Prog) (o : Opts) (cs : List Cfg) (chs : List ChainInfo) : Prop where
  nodes : (chs.flatMap (·.nodes)).Perm (cs.flatMap (wanted G o))
  ids : (chs.map (·.id)).Nodup
  ne : ∀ c ∈ chs, c.nodes ≠ []
  /-- without inter-function layout, a chain is a function, entry first -/
  entry : o.inter = false → Entries G cs → (∀ c ∈ chs, ∃ n0 t, c.nodes = n0 :: t ∧ G.bbi n0 = 0 ∧
    (∀ n ∈ t, G.bbi n ≠ 0 ∧ G.fn n = G.fn n0)) ∧ chs.Pairwise fun a b => ∀ x ∈ a.nodes, ∀ y ∈ b.nodes, G.fn x ≠ G.fn y

theorem chainInfos_ids {cs : List Cfg} {sc : Edge → Int → Rat} {st : State} (b : BuildOk sc G o cs st) :
    ((chainInfos st).map (·.id)) = st.chains ∧ (∀ x ∈ (chainInfos st).map (·.id), x ∈ cs.flatMap (wanted G o)) ∧
    (chainInfos st).flatMap (·.nodes) = allNodes st := by
  have e : (chainInfos st).map (·.id) = st.chains := by
    unfold chainInfos; rw [List.map_map]; exact List.map_id _
  refine ⟨e, fun x hx => ?_, ?_⟩
  · rw [e] at hx; exact b.nodes.mem_iff.1 (b.named x hx)
  · unfold chainInfos; rw [List.flatMap_map]; rfl

theorem allChains_ok (hf : Fits G cs) (hs : Section G cs) (hin : ∀ c ∈ cs, c.initial = [])
    (hfn : (cs.map (·.fn)).Nodup)
    (hhot : ∀ c ∈ cs, o.reorderHot = false → cfgHot G c = true → c.nodes.filter (isHot G o c) ≠ []) :
    ∃ chs, allChains k G o cs = some chs ∧ ChainsOk G o cs chs := by
  unfold allChains
  cases hi : o.inter with
  | true =>
    obtain ⟨st, e, _, _, _, _, b⟩ := buildChains_ok k hf hs.enclosed hin hhot
    rw [if_pos rfl, e, Option.map_some]
    obtain ⟨h1, h2, h3⟩ := chainInfos_ids b
    refine ⟨_, rfl, by rw [h3]; exact b.nodes, by rw [h1]; exact b.good.wf.live, ?_, fun h => by rw [hi] at h; cases h⟩
    intro c hc
    unfold chainInfos at hc
    obtain ⟨d, hd, rfl⟩ := List.mem_map.1 hc
    exact nodesOf_ne b.good.wf hd
  | false =>
    rw [if_neg (by simp)]
    have key : ∀ l : List Cfg, (∀ c ∈ l, c ∈ cs) → (l.map (·.fn)).Nodup → (l.flatMap (·.nodes)).Nodup →
        ∃ chs, gather (fun c => (buildChains (getEdgeScore k G.size) G o [c]).map chainInfos) l = some chs ∧ ChainsOk G o l chs ∧
          ∀ c ∈ chs, c.id ∈ l.flatMap (wanted G o) := by
      intro l
      induction l with
      | nil =>
        intro _ _ _
        exact ⟨[], rfl, ⟨by simp, by simp, by simp, fun _ _ => ⟨by simp, by simp⟩⟩, by simp⟩
      | cons c t ih =>
        intro hl hn hnd
        rw [List.map_cons, List.nodup_cons] at hn
        have hn0 := hn.1
        rw [List.flatMap_cons, List.nodup_append] at hnd
        have hc := hl c (by simp)
        obtain ⟨ct, et, ok, hid⟩ := ih (fun x hx => hl x (by simp [hx])) hn.2 hnd.2.1
        have hin' : ∀ d ∈ [c], d.initial = [] := fun d hd => by rw [List.mem_singleton] at hd; subst hd; exact hin d hc
        have hhot' : ∀ d ∈ [c], o.reorderHot = false → cfgHot G d = true → d.nodes.filter (isHot G o d) ≠ [] := fun d hd => by
          rw [List.mem_singleton] at hd; subst hd; exact hhot d hc
        obtain ⟨st, e, _, _, _, _, b⟩ := buildChains_ok k (fits_one hf hc) (enclosed_one (o := o) hs hc) hin' hhot'
        obtain ⟨h1, h2, h3⟩ := chainInfos_ids b
        have hmem : ∀ d, ∀ x ∈ wanted G o d, x ∈ d.nodes := fun d x hx => ((mem_wanted d x).1 hx).1
        have hcn : ∀ x ∈ chainInfos st, ∀ y ∈ x.nodes, y ∈ c.nodes := by
          intro x hx y hy
          have hm : y ∈ (chainInfos st).flatMap (·.nodes) := List.mem_flatMap.2 ⟨x, hx, hy⟩
          rw [h3, b.nodes.mem_iff] at hm
          exact hmem c y (by simpa using hm)
        refine ⟨chainInfos st ++ ct, ?_, ⟨?_, ?_, ?_, ?_⟩, ?_⟩
        · simp only [gather]
          rw [e, Option.map_some, Option.bind_some, et, Option.map_some]
        · rw [List.flatMap_append, h3, List.flatMap_cons]
          have := b.nodes
          simp only [List.flatMap_cons, List.flatMap_nil, List.append_nil] at this
          exact this.append ok.nodes
        · rw [List.map_append, List.nodup_append]
          refine ⟨by rw [h1]; exact b.good.wf.live, ok.ids, ?_⟩
          intro x hx y hy hxy
          subst hxy
          have hx' := h2 x hx
          simp only [List.flatMap_cons, List.flatMap_nil, List.append_nil] at hx'
          obtain ⟨z, hz, rfl⟩ := List.mem_map.1 hy
          obtain ⟨d, hd, hzd⟩ := List.mem_flatMap.1 (hid z hz)
          exact hnd.2.2 _ (hmem c _ hx') _ (List.mem_flatMap.2 ⟨d, hd, hmem d _ hzd⟩) rfl
        · intro x hx
          rcases List.mem_append.1 hx with hx | hx
          · unfold chainInfos at hx
            obtain ⟨d, hd, rfl⟩ := List.mem_map.1 hx
            exact nodesOf_ne b.good.wf hd
          · exact ok.ne x hx
        · intro _ hent
          obtain ⟨e1, e2⟩ := ok.entry hi ⟨fun d hd => hent.first d (by simp [hd])⟩
          obtain ⟨n0, rest, hnodes, h0, hrest, hbr⟩ := hent.first c (by simp)
          have hone : ∀ x ∈ chainInfos st, ∃ t, x.nodes = n0 :: t ∧ ∀ n ∈ t, n ∈ rest := by
            intro x hx
            unfold chainInfos at hx
            obtain ⟨d, hd, rfl⟩ := List.mem_map.1 hx
            have hne := nodesOf_ne b.good.wf hd
            -- the function is hot, for it has a chain
            have hhc : cfgHot G c = true := by
              by_contra hcold
              have hw : wanted G o c = [] := by unfold wanted; rw [if_pos (by simpa using hcold)]
              have hm : ∀ y ∈ nodesOf st d, False := by
                intro y hy
                have : y ∈ allNodes st := mem_allNodes.2 ⟨d, hd, hy⟩
                rw [b.nodes.mem_iff] at this
                simp [hw] at this
              cases hnn : nodesOf st d with
              | nil => exact hne hnn
              | cons y _ => exact hm y (by rw [hnn]; simp)
            obtain ⟨st', t, e', hrows, hperm⟩ := entry_first k hnodes h0 hrest (fits_one hf hc) (enclosed_one (o := o) hs hc)
              (hin c hc) hi hhc hbr
            rw [e] at e'; cases e'
            have : nodesOf st d ∈ rowsOf st := List.mem_map.2 ⟨d, hd, rfl⟩
            rw [hrows, List.mem_singleton] at this
            refine ⟨t, this, fun n hn => ?_⟩
            have hnc : n ∈ c.nodes := hmem c n (hperm.mem_iff.1 (by simp [hn]))
            rw [hnodes] at hnc
            rcases List.mem_cons.1 hnc with rfl | h
            · exfalso
              have hnd' : (n :: t).Nodup := hperm.nodup_iff.2 (by
                unfold wanted
                split
                · simp
                · split
                  · exact hnd.1.sublist List.filter_sublist
                  · exact hnd.1)
              exact (List.nodup_cons.1 hnd').1 hn
            · exact h
          refine ⟨?_, ?_⟩
          · intro x hx
            rcases List.mem_append.1 hx with hx | hx
            · obtain ⟨t, e1, e2⟩ := hone x hx
              refine ⟨n0, t, e1, h0, fun n hn => ⟨hrest n (e2 n hn), ?_⟩⟩
              rw [hf.fn c hc n (by rw [hnodes]; simp [e2 n hn]), hf.fn c hc n0 (by rw [hnodes]; simp)]
            · exact e1 x hx
          · rw [List.pairwise_append]
            refine ⟨?_, e2, ?_⟩
            · have : (chainInfos st).length ≤ 1 := by unfold chainInfos; rw [List.length_map]; exact b.one rfl
              cases hcs : chainInfos st with
              | nil => simp
              | cons a u =>
                rw [hcs] at this
                cases u with
                | nil => simp
                | cons _ _ => simp at this
            · intro x hx y hy n hn m hm he
              rw [hf.fn c hc n (hcn x hx n hn)] at he
              have hm' : m ∈ ct.flatMap (·.nodes) := List.mem_flatMap.2 ⟨y, hy, hm⟩
              rw [ok.nodes.mem_iff] at hm'
              obtain ⟨d, hd, hmd⟩ := List.mem_flatMap.1 hm'
              rw [hf.fn d (hl d (by simp [hd])) m (hmem d m hmd)] at he
              exact hn0 (he ▸ List.mem_map.2 ⟨d, hd, rfl⟩)
        · intro x hx
          rw [List.flatMap_cons]
          rcases List.mem_append.1 hx with hx | hx
          · have := h2 x.id (List.mem_map.2 ⟨x, hx, rfl⟩)
            simp only [List.flatMap_cons, List.flatMap_nil, List.append_nil] at this
            exact List.mem_append_left _ this
          · exact List.mem_append_right _ (hid x hx)
    obtain ⟨chs, e, ok, _⟩ := key cs (fun _ h => h) hfn hf.once
    exact ⟨chs, e, ok⟩

theorem ChainsOk.input {chs : List ChainInfo} (ok : ChainsOk G o cs chs) (hf : Fits G cs) (hs : Section G cs) {p : COpts} (hp : p.inter = o.inter)
    (hent : o.inter = false → p.ccc = true → Entries G cs) : Input G p chs := by
  have hwn : ∀ n, n ∈ chs.flatMap (·.nodes) ↔ ∃ c ∈ cs, n ∈ wanted G o c := by
    intro n; rw [ok.nodes.mem_iff, List.mem_flatMap]
  have hnd : (cs.flatMap (wanted G o)).Nodup := by
    refine hf.once.sublist ?_
    generalize cs = l
    induction l with
    | nil => simp
    | cons a t ih =>
      rw [List.flatMap_cons, List.flatMap_cons]
      refine List.Sublist.append ?_ ih
      unfold wanted
      split
      · simp
      · split
        · exact List.filter_sublist
        · exact List.Sublist.refl _
  refine ⟨ok.ids, ok.nodes.nodup_iff.2 hnd, ok.ne, ?_, ?_⟩
  · intro e he hk hsink
    simp only [counted, Bool.and_eq_true, decide_eq_true_eq, Bool.not_eq_true'] at hk
    rw [hwn] at hsink ⊢
    obtain ⟨c, hc, hn⟩ := hsink
    obtain ⟨d, hd, hnd⟩ := (hs.inside e he hk.1.1 hk.2).2 ⟨c, hc, ((mem_wanted c _).1 hn).1⟩
    exact ⟨d, hd, wanted_of hf he hk.1.1 hk.1.2 (.inl rfl) hd hnd⟩
  · intro hi hcc c hc n hn
    rw [hp] at hi
    obtain ⟨n0, t, e, h0, _⟩ := (ok.entry hi (hent hi hcc)).1 c hc
    rw [e] at hn
    cases hn
    simp [Prog.nodes, h0]

/-! ### Scores -/

theorem foldScore {sc : Edge → Int → Rat} {addr : Nat → Option Nat} {at_ : Nat → Nat} (skip : Edge → Bool) : ∀ (es : List Edge) (acc : Rat),
    (∀ e ∈ es, skip e = false → addr e.sink = some (at_ e.sink) ∧ addr e.src = some (at_ e.src)) →
    es.foldlM (fun acc e => if skip e = true then some acc else addScore sc G addr acc e) acc =
      some (acc + scoreAt sc G at_ (es.filter fun e => !skip e)) := by
  intro es
  induction es with
  | nil => intro acc _; simp [scoreAt]
  | cons e t ih =>
    intro acc h
    rw [List.foldlM_cons]
    cases hk : skip e with
    | true =>
      rw [if_pos rfl]
      refine (ih acc fun x hx => h x (by simp [hx])).trans ?_
      simp [hk]
    | false =>
      rw [if_neg (by simp)]
      obtain ⟨h1, h2⟩ := h e (by simp) hk
      unfold addScore
      rw [h1, Option.bind_some, h2, Option.map_some]
      refine (ih _ fun x hx => h x (by simp [hx])).trans ?_
      simp [hk, scoreAt, add_assoc]

theorem cfgScore_ok {sc : Edge → Int → Rat} {addr : Nat → Option Nat} {at_ : Nat → Nat} (multi : Bool) (c : Cfg)
    (h : ∀ e ∈ G.edges, e.weight ≠ 0 → e.kind ≠ .ret → G.fn e.src = c.fn → (G.fn e.sink = c.fn ∨ (multi = true ∧ e.interSection = false)) →
      addr e.sink = some (at_ e.sink) ∧ addr e.src = some (at_ e.src)) :
    cfgScore sc G addr multi c = some (fnScore sc G at_ multi c.fn) := by
  unfold cfgScore
  have h1 := foldScore (G := G) (sc := sc) (addr := addr) (at_ := at_) (fun e => decide (e.weight = 0 ∨ e.kind = .ret))
    (G.edges.filter fun e => decide (G.fn e.src = c.fn) && decide (G.fn e.sink = c.fn)) 0 (by
      intro e he hk
      simp only [decide_eq_false_iff_not, not_or] at hk
      simp only [List.mem_filter, Bool.and_eq_true, decide_eq_true_eq] at he
      exact h e he.1 hk.1 hk.2 he.2.1 (.inl he.2.2))
  simp only [decide_eq_true_eq] at h1
  rw [h1, Option.bind_some]
  have e1 : ((G.edges.filter fun e => decide (G.fn e.src = c.fn) && decide (G.fn e.sink = c.fn)).filter
      fun e => !decide (e.weight = 0 ∨ e.kind = .ret)) =
      G.edges.filter fun e => decide (G.fn e.src = c.fn ∧ G.fn e.sink = c.fn ∧ e.weight ≠ 0 ∧ e.kind ≠ .ret) := by
    rw [List.filter_filter]
    refine List.filter_congr fun e _ => ?_
    rw [Bool.eq_iff_iff]
    simp only [Bool.and_eq_true, Bool.not_eq_true', decide_eq_false_iff_not, decide_eq_true_eq, not_or]
    tauto
  rw [e1]
  cases multi with
  | false => simp [fnScore]
  | true =>
    have h2 := foldScore (G := G) (sc := sc) (addr := addr) (at_ := at_) (fun e => decide (e.weight = 0 ∨ e.kind = .ret ∨ e.interSection = true))
      (G.edges.filter fun e => decide (G.fn e.src = c.fn) && !decide (G.fn e.sink = c.fn)) 0 (by
        intro e he hk
        simp only [decide_eq_false_iff_not, not_or] at hk
        simp only [List.mem_filter, Bool.and_eq_true, decide_eq_true_eq] at he
        exact h e he.1 hk.1 hk.2.1 he.2.1 (.inr ⟨rfl, by simpa using hk.2.2⟩))
    simp only [decide_eq_true_eq] at h2
    rw [if_pos rfl, h2, Option.map_some]
    have e2 : ((G.edges.filter fun e => decide (G.fn e.src = c.fn) && !decide (G.fn e.sink = c.fn)).filter
        fun e => !decide (e.weight = 0 ∨ e.kind = .ret ∨ e.interSection = true)) =
        G.edges.filter fun e => decide (G.fn e.src = c.fn ∧ G.fn e.sink ≠ c.fn ∧ e.weight ≠ 0 ∧ e.kind ≠ .ret ∧ e.interSection = false) := by
      rw [List.filter_filter]
      refine List.filter_congr fun e _ => ?_
      rw [Bool.eq_iff_iff]
      simp only [Bool.and_eq_true, Bool.not_eq_true', decide_eq_false_iff_not, decide_eq_true_eq, not_or, Bool.not_eq_true]
      tauto
    rw [e2]
    simp [fnScore]

theorem cfgScores_ok {sc : Edge → Int → Rat} {addr : Nat → Option Nat} (F : Nat → CFGScore)
    (h : ∀ c ∈ cs, cfgScore sc G addr (decide (1 < cs.length)) c = some (F c.fn)) :
    ∃ m, cfgScores sc G addr cs = some m ∧ ∀ f, OMap.find? m f = if f ∈ cs.map (·.fn) then some (F f) else none := by
  unfold cfgScores
  have key : ∀ l : List Cfg, (∀ c ∈ l, c ∈ cs) → ∃ m, l.foldlM (fun m c => (cfgScore sc G addr (decide (1 < cs.length)) c).map fun s =>
      OMap.emplace c.fn s m) [] = some m ∧ OMap.Sorted m ∧ ∀ f, OMap.find? m f = if f ∈ l.map (·.fn) then some (F f) else none := by
    intro l
    refine List.reverseRecOn l ?_ ?_
    · intro _; exact ⟨[], rfl, OMap.sorted_nil, fun f => by simp; rfl⟩
    · intro t c ih hl
      obtain ⟨m, e, hm, hfind⟩ := ih fun x hx => hl x (by simp [hx])
      refine ⟨_, by rw [foldlM_snoc, e, Option.bind_some, h c (hl c (by simp))]; rfl, hm.upsert _ _, fun f => ?_⟩
      rw [OMap.find?_upsert hm, hfind, hfind]
      by_cases hf : f = c.fn
      · subst hf
        by_cases hm' : c.fn ∈ t.map (·.fn)
        · simp [hm']
        · simp [hm']
      · simp [hf]
  obtain ⟨m, e, _, hf⟩ := key cs fun _ h => h
  exact ⟨m, e, hf⟩

theorem takeWhile_mem {l r : List Nat} {n : Nat} (h : n ∈ l) :
    (l ++ r).takeWhile (fun m => !decide (m = n)) = l.takeWhile (fun m => !decide (m = n)) := by
  induction l with
  | nil => cases h
  | cons a t ih =>
    rw [List.cons_append, List.takeWhile_cons, List.takeWhile_cons]
    by_cases ha : a = n
    · simp [ha]
    · rcases List.mem_cons.1 h with rfl | h
      · exact absurd rfl ha
      · simp [ha, ih h]

theorem takeWhile_not_mem {l r : List Nat} {n : Nat} (h : n ∉ l) :
    (l ++ r).takeWhile (fun m => !decide (m = n)) = l ++ r.takeWhile (fun m => !decide (m = n)) := by
  induction l with
  | nil => rfl
  | cons a t ih =>
    rw [List.mem_cons, not_or] at h
    rw [List.cons_append, List.takeWhile_cons, if_pos (by simpa using fun e => h.1 e.symm), ih h.2]
    rfl

/-- Addresses in the new layout are right. -/
theorem layoutAddrs_ok (G : Prog) (order : List Nat) (n : Nat) :
    OMap.find? (layoutAddrs G order) n = if n ∈ order then some (pos G order n) else none := by
  have key : ∀ l : List Nat, ∃ m, l.foldl (fun (x : Nat × OMap Nat Nat) n => (x.1 + G.size n, OMap.emplace n x.1 x.2)) (0, []) =
      ((l.map G.size).sum, m) ∧ OMap.Sorted m ∧ ∀ n, OMap.find? m n = if n ∈ l then some (pos G l n) else none := by
    intro l
    refine List.reverseRecOn l ?_ ?_
    · exact ⟨[], rfl, OMap.sorted_nil, fun n => by simp; rfl⟩
    · intro t a ih
      obtain ⟨m, e, hm, hf⟩ := ih
      refine ⟨OMap.emplace a (t.map G.size).sum m, ?_, hm.upsert _ _, fun n => ?_⟩
      · rw [List.foldl_append, e]; simp
      · unfold OMap.emplace
        rw [OMap.find?_upsert hm, hf, hf]
        by_cases hn : n ∈ t
        · have : pos G (t ++ [a]) n = pos G t n := by unfold pos; rw [takeWhile_mem hn]
          rw [this]
          by_cases hna : n = a
          · subst hna; simp [hn]
          · simp [hn, hna]
        · by_cases hna : n = a
          · subst hna
            have : pos G (t ++ [n]) n = (t.map G.size).sum := by unfold pos; rw [takeWhile_not_mem hn]; simp
            simp [hn, this]
          · simp [hn, hna]
  obtain ⟨m, e, _, hf⟩ := key order
  unfold layoutAddrs
  rw [e]
  exact hf n

/-! ### The whole -/

/-- An order is cut into runs in one way only. -/
theorem Runs.unique {order : List Nat} {B B' : List (List Nat)} (h : Runs G order B) (h' : Runs G order B') : B = B' := by
  have key : ∀ (B B' : List (List Nat)) (order : List Nat), Runs G order B → Runs G order B' → B = B' := by
    intro B
    induction B with
    | nil =>
      intro B' order h h'
      cases B' with
      | nil => rfl
      | cons b t =>
        have e := h'.all
        rw [← h.all, List.flatten_cons, List.flatten_nil, List.append_eq_nil_iff] at e
        exact absurd e.1 (h'.ne b (by simp))
    | cons b t ih =>
      intro B' order h h'
      cases B' with
      | nil =>
        have e := h.all
        rw [← h'.all, List.flatten_cons, List.flatten_nil, List.append_eq_nil_iff] at e
        exact absurd e.1 (h.ne b (by simp))
      | cons b' t' =>
        -- neither can go on where the other is cut
        have main : ∀ (b b' : List Nat) (t t' : List (List Nat)), Runs G order (b :: t) → Runs G order (b' :: t') → ∀ r, b' = b ++ r → r = [] := by
          intro b b' t t' h h' r hr
          by_contra hne
          obtain ⟨y, r, rfl⟩ := List.exists_cons_of_ne_nil hne
          have e : b ++ t.flatten = b' ++ t'.flatten := by
            have := h.all.trans h'.all.symm
            simpa using this
          rw [hr, List.append_assoc, List.append_cancel_left_eq] at e
          cases t with
          | nil => simp at e
          | cons c u =>
            have hc := h.ne c (by simp)
            obtain ⟨z, c', rfl⟩ := List.exists_cons_of_ne_nil hc
            simp only [List.flatten_cons, List.cons_append, List.cons.injEq] at e
            obtain ⟨rfl, _⟩ := e
            have hb := h.ne b (by simp)
            have hcut := h.cut
            rw [List.isChain_cons_cons] at hcut
            have hrun := h'.run b' (by simp)
            rw [hr, List.isChain_append] at hrun
            cases hl : b.getLast? with
            | none => exact hb (List.getLast?_eq_none_iff.1 hl)
            | some x => exact hcut.1 x hl z (by simp) (hrun.2.2 x hl z (by simp))
        have e : b ++ t.flatten = b' ++ t'.flatten := by
          have := h.all.trans h'.all.symm
          simpa using this
        have hbb : b = b' := by
          rcases List.append_eq_append_iff.1 e with ⟨r, hr, _⟩ | ⟨r, hr, _⟩
          · have := main b b' t t' h h' r hr
            rw [hr, this, List.append_nil]
          · have := main b' b t' t h' h r hr
            rw [hr, this, List.append_nil]
        subst hbb
        rw [List.append_cancel_left_eq] at e
        have tl : ∀ t : List (List Nat), Runs G order (b :: t) → Runs G t.flatten t := fun t h =>
          ⟨rfl, fun x hx => h.ne x (by simp [hx]), fun x hx => h.run x (by simp [hx]), by
            have := h.cut
            cases t with
            | nil => simp
            | cons _ _ => rw [List.isChain_cons_cons] at this; exact this.2⟩
        rw [ih t' t.flatten (tl t h) (e ▸ tl t' h')]
  exact key B B' order h h'

/-- **C33: `OrderAll` fails no check, and ends with a layout of exactly the wanted blocks, as `Emitted` says; the scores that
are reported are those of the original and of the new addresses.** -/
theorem orderAll_ok (k : Weights) (ccc : Bool) (thr : Nat) (bbId addr : Nat → Nat) (hf : Fits G cs) (hs : Section G cs)
    (hin : ∀ c ∈ cs, c.initial = []) (hfn : (cs.map (·.fn)).Nodup)
    (hhot : ∀ c ∈ cs, o.reorderHot = false → cfgHot G c = true → c.nodes.filter (isHot G o c) ≠ [])
    (hent : o.inter = false → ccc = true → Entries G cs) :
    ∃ order B is, orderAll k G o ccc thr bbId addr cs = some is ∧ order.Perm (cs.flatMap (wanted G o)) ∧ order.Nodup ∧ Runs G order B ∧
      Emitted G bbId (fun f => if f ∈ cs.map (·.fn) then some (fnScore (getEdgeScore k G.size) G addr (decide (1 < cs.length)) f) else none)
        (fun f => if f ∈ cs.map (·.fn) then some (fnScore (getEdgeScore k G.size) G (pos G order) (decide (1 < cs.length)) f) else none)
        order B is ∧
      (o.inter = false → Entries G cs → ∀ i ∈ is, ∃ c n0 t, i.clusters = [c] ∧ c.blocks = n0 :: t ∧ G.bbi n0 = 0) := by
  obtain ⟨chs, e1, ok⟩ := allChains_ok (k := k) (o := o) hf hs hin hfn hhot
  have hinp := ok.input hf hs (p := ⟨o.inter, ccc, thr⟩) rfl hent
  obtain ⟨cl, e2, hperm, _⟩ := buildClusters_ok hinp
  generalize hord : (cl.flatMap fun c => c.chains.flatMap (·.nodes)) = order
  have hflat : order = (cl.flatMap (·.chains)).flatMap (·.nodes) := by rw [← hord, List.flatMap_assoc]
  have hop : order.Perm (cs.flatMap (wanted G o)) := by
    rw [hflat]; exact (hperm.flatMap_right _).trans ok.nodes
  have hon : order.Nodup := by
    rw [hflat]; exact (hperm.flatMap_right _).nodup_iff.2 hinp.nodes
  have hplaced : ∀ c ∈ cs, ∀ e ∈ G.edges, e.weight ≠ 0 → e.kind ≠ .ret → G.fn e.src = c.fn →
      (G.fn e.sink = c.fn ∨ (decide (1 < cs.length) = true ∧ e.interSection = false)) → e.src ∈ order ∧ e.sink ∈ order := by
    intro c hc e he hw hr h1 h2
    have hsd := hs.src e he c hc h1
    obtain ⟨d', hd', hsd'⟩ : ∃ d ∈ cs, e.sink ∈ d.nodes := by
      rcases h2 with h2 | h2
      · exact ⟨c, hc, (hf.ends c hc e he h1 h2).2⟩
      · exact (hs.inside e he hw h2.2).1 ⟨c, hc, hsd⟩
    exact ⟨hop.mem_iff.2 (List.mem_flatMap.2 ⟨c, hc, wanted_of hf he hw hr (.inl rfl) hc hsd⟩),
      hop.mem_iff.2 (List.mem_flatMap.2 ⟨d', hd', wanted_of hf he hw hr (.inr rfl) hd' hsd'⟩)⟩
  obtain ⟨mo, e3, hmo⟩ := cfgScores_ok (sc := getEdgeScore k G.size) (G := G) (addr := fun n => some (addr n))
    (fnScore (getEdgeScore k G.size) G addr (decide (1 < cs.length)))
    (fun c _ => cfgScore_ok (at_ := addr) _ c fun e _ _ _ _ _ => ⟨rfl, rfl⟩)
  obtain ⟨mp, e4, hmp⟩ := cfgScores_ok (sc := getEdgeScore k G.size) (G := G) (addr := (layoutAddrs G order).find?)
    (fnScore (getEdgeScore k G.size) G (pos G order) (decide (1 < cs.length)))
    (fun c hc => cfgScore_ok (at_ := pos G order) _ c fun e he hw hr h1 h2 => by
      obtain ⟨p1, p2⟩ := hplaced c hc e he hw hr h1 h2
      rw [layoutAddrs_ok, layoutAddrs_ok, if_pos p1, if_pos p2]
      exact ⟨rfl, rfl⟩)
  have hmo' : mo.find? = fun f => if f ∈ cs.map (·.fn) then some (fnScore (getEdgeScore k G.size) G addr (decide (1 < cs.length)) f) else none :=
    funext hmo
  have hmp' : mp.find? = fun f => if f ∈ cs.map (·.fn) then
      some (fnScore (getEdgeScore k G.size) G (pos G order) (decide (1 < cs.length)) f) else none := funext hmp
  have hfns : ∀ n ∈ order, G.fn n ∈ cs.map (·.fn) := by
    intro n hn
    obtain ⟨c, hc, hnc⟩ := List.mem_flatMap.1 (hop.mem_iff.1 hn)
    rw [hf.fn c hc n ((mem_wanted c n).1 hnc).1]
    exact List.mem_map.2 ⟨c, hc, rfl⟩
  obtain ⟨B, is, hr, e5, hem⟩ := emit_ok (G := G) bbId (orig := mo.find?) (opt := mp.find?) (order := order) (by
    intro n hn
    rw [hmo, hmp, if_pos (hfns n hn), if_pos (hfns n hn)]
    exact ⟨rfl, rfl⟩)
  refine ⟨order, B, is, ?_, hop, hon, hr, by rw [← hmo', ← hmp']; exact hem, ?_⟩
  · unfold orderAll
    rw [e1, Option.bind_some, e2, Option.bind_some, e3, Option.bind_some, hord, e4, Option.bind_some, e5]
  · intro hi hents i hii
    obtain ⟨en1, en2⟩ := ok.entry hi hents
    -- the chains are the runs
    have hchm : ∀ c ∈ cl.flatMap (·.chains), c ∈ chs := fun c hc => hperm.mem_iff.1 hc
    have hpw : (cl.flatMap (·.chains)).Pairwise fun a b => ∀ x ∈ a.nodes, ∀ y ∈ b.nodes, G.fn x ≠ G.fn y :=
      hperm.symm.pairwise en2 (by intro a b hab x hx y hy he; exact hab y hy x hx he.symm)
    have hrows : Runs G order ((cl.flatMap (·.chains)).map (·.nodes)) := by
      refine ⟨by rw [hflat, List.flatMap_def (f := fun c : ChainInfo => c.nodes)], ?_, ?_, ?_⟩
      · intro b hb
        obtain ⟨c, hc, rfl⟩ := List.mem_map.1 hb
        exact ok.ne c (hchm c hc)
      · intro b hb
        obtain ⟨c, hc, rfl⟩ := List.mem_map.1 hb
        obtain ⟨n0, t, e, _, ht⟩ := en1 c (hchm c hc)
        rw [e]
        have : ∀ (t : List Nat) (a f : Nat), G.fn a = f → (∀ n ∈ t, G.bbi n ≠ 0 ∧ G.fn n = f) → (a :: t).IsChain (Together G) := by
          intro t
          induction t with
          | nil => intro a f _ _; simp
          | cons b t ih =>
            intro a f ha h
            rw [List.isChain_cons_cons]
            obtain ⟨h1, h2⟩ := h b (by simp)
            exact ⟨⟨ha.trans h2.symm, h1⟩, ih b f h2 fun n hn => h n (by simp [hn])⟩
        exact this t n0 _ rfl ht
      · rw [List.isChain_map]
        refine List.Pairwise.isChain (hpw.imp ?_)
        intro a b hab x hx y hy hto
        exact hab x (List.mem_of_getLast? hx) y (List.mem_of_mem_head? hy) hto.1
    have hB := hr.unique hrows
    -- so each function has one
    have hne : i.clusters ≠ [] := by
      intro hnil
      have hfi : i.fn ∈ order.map G.fn := (hem.fns _).1 (List.mem_map.2 ⟨i, hii, rfl⟩)
      obtain ⟨n, hn, hfn'⟩ := List.mem_map.1 hfi
      rw [← hr.all] at hn
      obtain ⟨b, hb, hnb⟩ := List.mem_flatten.1 hn
      obtain ⟨j, hj⟩ := List.mem_iff_getElem?.1 hb
      have : (⟨j, b⟩ : BBCluster) ∈ runsOf G B i.fn := by
        unfold runsOf
        refine List.mem_map.2 ⟨(b, j), ?_, rfl⟩
        rw [List.mem_filter]
        refine ⟨List.mem_zipIdx_iff_getElem?.2 hj, ?_⟩
        simp only [decide_eq_true_eq]
        rw [run_fn (hr.run b hb) n hnb, hfn']
      rw [← (hem.clusters i hii).mem_iff, hnil] at this
      cases this
    have hlen : (runsOf G B i.fn).length ≤ 1 := by
      have hpB : B.Pairwise fun a b => ∀ x ∈ a, ∀ y ∈ b, G.fn x ≠ G.fn y := by
        rw [hB, List.pairwise_map]; exact hpw
      unfold runsOf
      rw [List.length_map]
      have hz : B.zipIdx.Pairwise fun a b => ∀ x ∈ a.1, ∀ y ∈ b.1, G.fn x ≠ G.fn y := by
        have : (B.zipIdx.map Prod.fst).Pairwise fun a b => ∀ x ∈ a, ∀ y ∈ b, G.fn x ≠ G.fn y := by
          rw [List.zipIdx_map_fst]; exact hpB
        rwa [List.pairwise_map] at this
      have hz' := hz.filter fun x => decide (x.1.head?.map G.fn = some i.fn)
      generalize hL : (B.zipIdx.filter fun x => decide (x.1.head?.map G.fn = some i.fn)) = L at hz'
      cases L with
      | nil => simp
      | cons a t =>
        cases t with
        | nil => simp
        | cons b t =>
          exfalso
          have ha : a ∈ B.zipIdx.filter fun x => decide (x.1.head?.map G.fn = some i.fn) := by rw [hL]; simp
          have hb : b ∈ B.zipIdx.filter fun x => decide (x.1.head?.map G.fn = some i.fn) := by rw [hL]; simp
          simp only [List.mem_filter, decide_eq_true_eq] at ha hb
          obtain ⟨x, hx, hfx⟩ := Option.map_eq_some_iff.1 ha.2
          obtain ⟨y, hy, hfy⟩ := Option.map_eq_some_iff.1 hb.2
          rw [List.pairwise_cons] at hz'
          exact hz'.1 b (by simp) x (List.mem_of_mem_head? hx) y (List.mem_of_mem_head? hy) (hfx.trans hfy.symm)
    have hlen' : i.clusters.length ≤ 1 := by rw [(hem.clusters i hii).length_eq]; exact hlen
    cases hcl : i.clusters with
    | nil => exact absurd hcl hne
    | cons c t =>
      rw [hcl] at hlen'
      have ht : t = [] := by
        cases t with
        | nil => rfl
        | cons _ _ => simp at hlen'
      subst ht
      have hcm : c ∈ runsOf G B i.fn := (hem.clusters i hii).mem_iff.1 (by rw [hcl]; simp)
      unfold runsOf at hcm
      obtain ⟨x, hx, rfl⟩ := List.mem_map.1 hcm
      rw [List.mem_filter] at hx
      have hb : x.1 ∈ B := (List.mem_zipIdx hx.1).2.2 ▸ List.getElem_mem _
      rw [hB] at hb
      obtain ⟨d, hd, hdx⟩ := List.mem_map.1 hb
      obtain ⟨n0, t, e, h0, _⟩ := en1 d (hchm d hd)
      exact ⟨_, n0, t, rfl, by rw [← hdx, e], h0⟩

/-! ### Examples -/

example : Section exTwo exTwoCfgs := ⟨by decide, by decide, by decide⟩
example : Entries exTwo exTwoCfgs := by
  refine ⟨fun c hc => ?_⟩
  simp only [exTwoCfgs, List.mem_cons, List.not_mem_nil, or_false] at hc
  rcases hc with rfl | rfl
  · refine ⟨0, [1, 2], rfl, by decide, by decide, ?_⟩
    rintro ⟨a, _, h⟩
    have : ((exTwo.edges.filter fun e => decide (exTwo.fn e.src = 7 ∧ exTwo.fn e.sink = 7 ∧ e.weight ≠ 0 ∧ e.kind = .branch ∧
      e.sink = 0)).map fun e => (e.src, e.sink)) = [] := by decide
    rw [this] at h; cases h
  · refine ⟨3, [4], rfl, by decide, by decide, ?_⟩
    rintro ⟨a, _, h⟩
    have : ((exTwo.edges.filter fun e => decide (exTwo.fn e.src = 8 ∧ exTwo.fn e.sink = 8 ∧ e.weight ≠ 0 ∧ e.kind = .branch ∧
      e.sink = 3)).map fun e => (e.src, e.sink)) = [] := by decide
    rw [this] at h; cases h

/-- One function after the other. -/
example : (orderAll {} exTwo {} true 1000 id (fun n => 10 * n) exTwoCfgs).map (·.map fun i => (i.fn, i.clusters, i.cold)) =
    some [(7, [⟨0, [0, 2, 1]⟩], 0), (8, [⟨1, [3, 4]⟩], 1)] := by decide +kernel
/-- Functions are cut, and clusters sorted by their first block. -/
example : (orderAll {} exTwo { inter := true } true 1000 id (fun n => 10 * n) exTwoCfgs).map (·.map fun i => (i.fn, i.clusters, i.cold)) =
    some [(7, [⟨1, [0, 2]⟩, ⟨0, [1]⟩], 0), (8, [⟨2, [3, 4]⟩], 1)] := by decide +kernel

end Verif.Layout

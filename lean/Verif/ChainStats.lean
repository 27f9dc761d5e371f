import Verif.ChainBuildProps
import Mathlib.Algebra.BigOperators.Group.List.Basic

/-! The statistics that the chain builder keeps (llvm_propeller_statistics.h 20-48), over the builder of C31. -/

namespace Verif.Chain
open Verif

/-- `n_single_node_chains`, `n_multi_node_chains`, and the merge orders counted in `n_assemblies_by_merge_order`, in order. -/
structure Stats where
  single : Nat := 0
  multi : Nat := 0
  orders : List Order := []

section
variable (sc : Edge → Int → Rat) (G : Prog) (o : Opts) (multi : Bool)

/-- `MergeChains(NodeChainAssembly)` with its counter (llvm_propeller_node_chain_builder.cc:457-467). -/
def mergeAsmC (x : (State × Queue) × List Order) (a : Asm) : Option ((State × Queue) × List Order) :=
  (mergeAsm sc G o multi x.1 a).map fun y => (y, x.2 ++ [a.ord])

/-- `buildLoop` with the counter. -/
def buildLoopC : Nat → (State × Queue) × List Order → Option ((State × Queue) × List Order)
  | fuel, x =>
    match x.1.2.best with
    | none => some x
    | some a =>
      match fuel with
      | 0 => none
      | fuel + 1 => (mergeAsmC sc G o multi x a).bind (buildLoopC fuel)

/-- `mergeRight` with the counter (llvm_propeller_node_chain_builder.cc:446-455). -/
def mergeRightC (x : (State × Queue) × List Order) (l r : Nat) : Option ((State × Queue) × List Order) :=
  (buildAsm G.nodes sc o false x.1.1 l r .SU).bind fun a => a.bind (mergeAsmC sc G o multi x)

/-- `coalesce` with the counter. -/
def coalesceC (x : (State × Queue) × List Order) : Option ((State × Queue) × List Order) :=
  match isort (fun a b => !coalesceLt G x.1.1 b a) x.1.1.chains with
  | [] => some x
  | c :: t => (c :: t).foldlM (fun x d => if d = c then some x else mergeRightC sc G o multi x c d) x

/-- When `InitNodeChains` runs a builder for one function (llvm_propeller_node_chain_builder.cc:245-253). -/
def nested (multi : Bool) (c : Cfg) : Bool :=
  cfgHot G c && o.inter && multi && decide (1 < (c.nodes.filter G.lp).length) && hotLp G c

/-- `BuildChains` with the statistics: `AddNewChain` counts the chain by its nodes (here taken from the state after `InitNodeChains`); the
nested builders count in the same statistics (`CreateNodeChainBuilder(…, stats_)`). -/
def buildC (sub : Cfg → Option (List (List Nat) × Stats)) (cs : List Cfg) : Option (State × Stats) :=
  (initChains G o (fun c => (sub c).map (·.1)) cs).bind fun st0 =>
  (initEdges sc G o (decide (1 < cs.length)) st0).bind fun st =>
  (initAsms sc G o (decide (1 < cs.length)) st).bind fun q =>
  (buildLoopC sc G o (decide (1 < cs.length)) st.chains.length ((st, q), [])).bind fun x =>
  (if cs.length = 1 then coalesceC sc G o (decide (1 < cs.length)) x else some x).map fun x =>
    let subs := (cs.filter (nested G o (decide (1 < cs.length)))).map fun c => ((sub c).map (·.2)).getD {}
    (x.1.1,
      { single := (subs.map (·.single)).sum + (st0.chains.filter fun c => decide ((nodesOf st0 c).length = 1)).length
        multi := (subs.map (·.multi)).sum + (st0.chains.filter fun c => !decide ((nodesOf st0 c).length = 1)).length
        orders := (subs.map (·.orders)).flatten ++ x.2 })

/-- The builder with its recursion and statistics. -/
def buildChainsC (cs : List Cfg) : Option (State × Stats) :=
  buildC sc G o (fun c => (buildC sc G o (fun _ => none) [c]).map fun x => (rowsOf x.1, x.2)) cs

end

/-! ### Proofs -/

variable {sc : Edge → Int → Rat} {E : List Edge} {G : Prog} {o : Opts} {multi : Bool}

theorem mergeAsmC_count {x y : (State × Queue) × List Order} {a : Asm} (h : Inv sc G o multi E x.1) (ha : CanMerge G.nodes sc E o x.1.1 a)
    (he : mergeAsm sc G o multi x.1 a = some y.1) (hy : mergeAsmC sc G o multi x a = some y) :
    Inv sc G o multi E y.1 ∧ y.1.1.chains = x.1.1.chains.erase a.u ∧ y.1.1.chains.length + y.2.length = x.1.1.chains.length + x.2.length := by
  obtain ⟨x', e, i, hch, _⟩ := mergeAsm_ok h ha
  rw [e] at he
  have he : x' = y.1 := by simpa using he
  subst he
  refine ⟨i, hch, ?_⟩
  rw [mergeAsmC, e] at hy
  have hy2 : x.2 ++ [a.ord] = y.2 := by
    have := congrArg (Option.map Prod.snd) hy
    simpa using this
  rw [hch, List.length_erase_of_mem ha.u, ← hy2]
  have := List.length_pos_of_mem ha.u
  simp; omega

/-- The loop with the counter does what the loop does, and the counter goes up by one when a chain goes. -/
theorem buildLoopC_spec : ∀ (fuel : Nat) (x : (State × Queue) × List Order), Inv sc G o multi E x.1 →
    ∀ y, buildLoop sc G o multi fuel x.1 = some y → ∃ l, buildLoopC sc G o multi fuel x = some (y, l) ∧ Inv sc G o multi E y ∧
      y.1.chains.length + l.length = x.1.1.chains.length + x.2.length := by
  intro fuel
  induction fuel with
  | zero =>
    intro x h y hy
    rw [buildLoop] at hy
    rw [buildLoopC]
    cases hb : x.1.2.best with
    | none =>
      rw [hb] at hy
      have : x.1 = y := by simpa using hy
      subst this
      exact ⟨x.2, rfl, h, rfl⟩
    | some a => rw [hb] at hy; simp at hy
  | succ k ih =>
    intro x h y hy
    rw [buildLoop] at hy
    rw [buildLoopC]
    cases hb : x.1.2.best with
    | none =>
      rw [hb] at hy
      have : x.1 = y := by simpa using hy
      subst this
      exact ⟨x.2, rfl, h, rfl⟩
    | some a =>
      rw [hb] at hy
      simp only at hy ⊢
      have ha := (h.queue a (best_ok hb)).toCanMerge
      obtain ⟨x', e, _⟩ := mergeAsm_ok h ha
      rw [e, Option.bind_some] at hy
      have ec : mergeAsmC sc G o multi x a = some (x', x.2 ++ [a.ord]) := by rw [mergeAsmC, e]; rfl
      obtain ⟨i, _, hc⟩ := mergeAsmC_count h ha e ec
      obtain ⟨l, el, il, hl⟩ := ih (x', x.2 ++ [a.ord]) i y hy
      exact ⟨l, by rw [ec]; exact el, il, hl.trans hc⟩

theorem coalesceC_spec (x : (State × Queue) × List Order) (h : Inv sc G o multi E x.1) (y : State × Queue)
    (hy : coalesce sc G o multi x.1 = some y) : ∃ l, coalesceC sc G o multi x = some (y, l) ∧
      y.1.chains.length + l.length = x.1.1.chains.length + x.2.length := by
  have hperm := isort_perm (fun a b => !coalesceLt G x.1.1 b a) x.1.1.chains
  unfold coalesce at hy
  unfold coalesceC
  cases hl : isort (fun a b => !coalesceLt G x.1.1 b a) x.1.1.chains with
  | nil =>
    rw [hl] at hy
    have : x.1 = y := by simpa using hy
    subst this
    exact ⟨x.2, rfl, rfl⟩
  | cons c t =>
    rw [hl] at hy hperm
    have hnd := hperm.nodup_iff.2 h.good.wf.live
    have key : ∀ (l : List Nat) (x : (State × Queue) × List Order), Inv sc G o multi E x.1 → x.1.1.chains.Perm (c :: l) → (c :: l).Nodup →
        l.foldlM (fun x d => if d = c then some x else mergeRight sc G o multi x c d) x.1 = some y →
        ∃ m, l.foldlM (fun x d => if d = c then some x else mergeRightC sc G o multi x c d) x = some (y, m) ∧
          y.1.chains.length + m.length = x.1.1.chains.length + x.2.length := by
      intro l
      induction l with
      | nil =>
        intro x _ _ _ hy
        have : x.1 = y := by simpa using hy
        subst this
        exact ⟨x.2, rfl, rfl⟩
      | cons d l ih =>
        intro x hx hp hnd hy
        have hc : c ∈ x.1.1.chains := hp.mem_iff.2 (by simp)
        have hd : d ∈ x.1.1.chains := hp.mem_iff.2 (by simp)
        have hcd : c ≠ d := fun he => (List.nodup_cons.1 hnd).1 (by simp [he])
        have hord : OrdOk .SU x.1.1 c := fun p hp => by cases hp
        obtain ⟨g, a, _, ea, h1, _⟩ := buildAsm_ok (o := o) hx.good hc hd hcd hord false
        rw [List.foldlM_cons, if_neg (Ne.symm hcd)] at hy
        cases a with
        | none => rw [mergeRight, ea] at hy; simp at hy
        | some a =>
          obtain ⟨rfl, _, _, hcm⟩ := h1 a rfl
          have ha := hcm rfl
          obtain ⟨x', e, _⟩ := mergeAsm_ok hx ha
          have er : mergeRight sc G o multi x.1 c d = some x' := by rw [mergeRight, ea]; exact e
          have ec : mergeAsmC sc G o multi x ⟨c, d, .SU, g⟩ = some (x', x.2 ++ [.SU]) := by
            rw [mergeAsmC, e]; rfl
          obtain ⟨i, hch, hcnt⟩ := mergeAsmC_count hx ha e ec
          rw [er] at hy
          have hp1 : x'.1.chains.Perm (c :: l) := by
            rw [hch]
            refine (hp.erase d).trans ?_
            rw [List.erase_cons_tail (by simpa using hcd), List.erase_cons_head]
          have hnd1 : (c :: l).Nodup := by
            rw [List.nodup_cons] at hnd ⊢
            exact ⟨fun h => hnd.1 (by simp [h]), (List.nodup_cons.1 hnd.2).2⟩
          obtain ⟨m, em, hm⟩ := ih (x', x.2 ++ [.SU]) i hp1 hnd1 hy
          refine ⟨m, ?_, hm.trans hcnt⟩
          rw [List.foldlM_cons, if_neg (Ne.symm hcd), mergeRightC, ea]
          show ((some (Asm.mk c d .SU g)).bind (mergeAsmC sc G o multi x)).bind _ = _
          rw [Option.bind_some, ec]; exact em
    simp only at hy ⊢
    rw [List.foldlM_cons, if_pos rfl] at hy
    obtain ⟨m, em, hm⟩ := key t x h hperm.symm hnd hy
    exact ⟨m, by rw [List.foldlM_cons, if_pos rfl]; exact em, hm⟩

theorem split_count {α : Type} (l : List α) (p : α → Bool) : (l.filter p).length + (l.filter fun x => !p x).length = l.length := by
  induction l with
  | nil => rfl
  | cons a l ih => cases h : p a <;> simp [h] <;> omega

/-- The builder with the statistics does what the builder does; every merge that is counted takes one chain away. -/
theorem buildC_spec (hsc : ∀ e d, 0 ≤ sc e d) {cs : List Cfg} (hf : Fits G cs) (hcl : Enclosed G o cs)
    (sub : Cfg → Option (List (List Nat) × Stats)) (hsub : ∀ c ∈ cs, SubOk G o (fun c => (sub c).map (·.1)) c) (hin : ∀ c ∈ cs, c.initial = [])
    (hhot : ∀ c ∈ cs, o.reorderHot = false → cfgHot G c = true → c.nodes.filter (isHot G o c) ≠ []) :
    ∃ st S own, build sc G o (fun c => (sub c).map (·.1)) cs = some st ∧ buildC sc G o sub cs = some (st, S) ∧
      S.orders = (((cs.filter (nested G o (decide (1 < cs.length)))).map fun c => ((sub c).map (·.2)).getD {}).map (·.orders)).flatten ++ own ∧
      S.single + S.multi = (((cs.filter (nested G o (decide (1 < cs.length)))).map fun c => ((sub c).map (·.2)).getD {}).map
        fun s => s.single + s.multi).sum + own.length + st.chains.length := by
  obtain ⟨st0, st1, e0, e1, hcore, _, hgood, hperm⟩ := init_good (sc := sc) hf (fun e he hv hs => (hcl.visit he hv).1 hs) _ hsub hin hhot
  obtain ⟨q, eq, hinv⟩ := initAsms_ok hgood (mapped_of hf hcl hperm)
  obtain ⟨x, ex, _, px⟩ := buildLoop_ok _ _ hinv (le_refl _)
  obtain ⟨l, el, il, hl⟩ := buildLoopC_spec _ ((st1, q), []) hinv x ex
  have hfin : ∃ y m, (if cs.length = 1 then coalesce sc G o (decide (1 < cs.length)) x else some x) = some y ∧
      (if cs.length = 1 then coalesceC sc G o (decide (1 < cs.length)) (x, l) else some (x, l)) = some (y, m) ∧
      y.1.chains.length + m.length = x.1.chains.length + l.length := by
    by_cases h1 : cs.length = 1
    · obtain ⟨y, ey, _⟩ := coalesce_ok hsc il
      obtain ⟨m, em, hm⟩ := coalesceC_spec (x, l) il y ey
      exact ⟨y, m, by rw [if_pos h1]; exact ey, by rw [if_pos h1]; exact em, hm⟩
    · exact ⟨x, l, by rw [if_neg h1], by rw [if_neg h1], rfl⟩
  obtain ⟨y, m, ey, em, hm⟩ := hfin
  let subs := (cs.filter (nested G o (decide (1 < cs.length)))).map fun c => ((sub c).map (·.2)).getD {}
  refine ⟨y.1, { single := (subs.map (·.single)).sum + (st0.chains.filter fun c => decide ((nodesOf st0 c).length = 1)).length
                 multi := (subs.map (·.multi)).sum + (st0.chains.filter fun c => !decide ((nodesOf st0 c).length = 1)).length
                 orders := (subs.map (·.orders)).flatten ++ m }, m, ?_, ?_, rfl, ?_⟩
  · unfold build
    rw [e0, Option.bind_some, e1, Option.bind_some, eq, Option.bind_some, ex, Option.bind_some, ey, Option.map_some]
  · unfold buildC
    rw [e0, Option.bind_some, e1, Option.bind_some, eq, Option.bind_some, el, Option.bind_some, em, Option.map_some]
  · have hs := split_count st0.chains fun c => decide ((nodesOf st0 c).length = 1)
    have hc := congrArg List.length hcore.chains
    simp only [List.length_nil, Nat.add_zero] at hl
    have hadd : ∀ L : List Stats, (L.map fun s => s.single + s.multi).sum = (L.map (·.single)).sum + (L.map (·.multi)).sum := by
      intro L; induction L with
      | nil => rfl
      | cons s L ih => simp only [List.map_cons, List.sum_cons, ih]; omega
    rw [hadd]
    show (subs.map (·.single)).sum + (st0.chains.filter fun c => decide ((nodesOf st0 c).length = 1)).length +
      ((subs.map (·.multi)).sum + (st0.chains.filter fun c => !decide ((nodesOf st0 c).length = 1)).length) =
      (subs.map (·.single)).sum + (subs.map (·.multi)).sum + m.length + y.1.chains.length
    generalize (subs.map (·.single)).sum = p1
    generalize (subs.map (·.multi)).sum = p2
    omega

theorem build_congr {f g : Cfg → Option (List (List Nat))} {cs : List Cfg} (h : ∀ c ∈ cs, f c = g c) :
    build sc G o f cs = build sc G o g cs := by
  have hi : initChains G o f cs = initChains G o g cs := by
    unfold initChains
    generalize ({} : State) = s0
    have : ∀ (l : List Cfg) (s : State), (∀ c ∈ l, f c = g c) →
        l.foldlM (initCfg G o f (decide (1 < cs.length))) s = l.foldlM (initCfg G o g (decide (1 < cs.length))) s := by
      intro l; induction l with
      | nil => intro s _; rfl
      | cons c l ih =>
        intro s hl
        rw [List.foldlM_cons, List.foldlM_cons]
        have : initCfg G o f (decide (1 < cs.length)) s c = initCfg G o g (decide (1 < cs.length)) s c := by
          simp only [initCfg, hl c (by simp)]
        rw [this]
        congr 1
        funext s'
        exact ih s' (fun d hd => hl d (by simp [hd]))
    exact this cs s0 h
  unfold build
  rw [hi]

/-- **C109.** The chain builder with its statistics fails no check and returns what the builder of C31 returns; and the initial chains that it
counted are as many as the merges that it counted plus the chains returned plus one for each function whose chains were built beforehand. -/
theorem stats_conserved (k : Weights) {cs : List Cfg} (hf : Fits G cs) (hcl : Enclosed G o cs) (hin : ∀ c ∈ cs, c.initial = [])
    (hhot : ∀ c ∈ cs, o.reorderHot = false → cfgHot G c = true → c.nodes.filter (isHot G o c) ≠ []) :
    ∃ st S, buildChains (getEdgeScore k G.size) G o cs = some st ∧ buildChainsC (getEdgeScore k G.size) G o cs = some (st, S) ∧
      S.single + S.multi = S.orders.length + (rowsOf st).length + (cs.filter (nested G o (decide (1 < cs.length)))).length := by
  have hsc := getEdgeScore_nonneg k G.size
  -- the nested builders
  have hone : ∀ c ∈ cs, ∃ st S, build (getEdgeScore k G.size) G o (fun _ => none) [c] = some st ∧
      buildC (getEdgeScore k G.size) G o (fun _ => none) [c] = some (st, S) ∧ (rowsOf st).flatten.Perm (wanted G o c) ∧
      (rowsOf st).length ≤ 1 ∧ S.single + S.multi = S.orders.length + (rowsOf st).length := by
    intro c hc
    have hin' : ∀ d ∈ [c], d.initial = [] := fun d hd => by rw [List.mem_singleton] at hd; subst hd; exact hin d hc
    have hhot' : ∀ d ∈ [c], o.reorderHot = false → cfgHot G d = true → d.nodes.filter (isHot G o d) ≠ [] :=
      fun d hd => by rw [List.mem_singleton] at hd; subst hd; exact hhot d hc
    obtain ⟨st, S, own, e1, e2, e3, e4⟩ := buildC_spec hsc (fits_one hf hc) (hcl.one hc) (fun c => some ([wanted G o c], {}))
      (fun d _ => ⟨_, rfl, by simp⟩) hin' hhot'
    obtain ⟨_, _, st', _, _, e, b, _⟩ := build_ok hsc (fits_one hf hc) (hcl.one hc) (fun c => some [wanted G o c])
      (fun d _ => ⟨_, rfl, by simp⟩) hin' hhot'
    have hnone : ([c].filter (nested G o (decide (1 < [c].length)))) = [] := by simp [nested]
    rw [build_sub _ (fun _ => none)] at e1 e
    rw [e] at e1
    have hst : st' = st := by simpa using e1
    subst hst
    have e2' : buildC (getEdgeScore k G.size) G o (fun _ => none) [c] = some (st', S) := by
      rw [← e2]
      have hi : initChains G o (fun c => Option.map (·.1) ((fun _ => none : Cfg → Option (List (List Nat) × Stats)) c)) [c] =
          initChains G o (fun c => Option.map (·.1) ((fun c => some ([wanted G o c], ({} : Stats))) c)) [c] := by
        simp [initChains, initCfg]
      unfold buildC
      rw [hi, hnone]
      rfl
    refine ⟨st', S, e, e2', ?_, ?_, ?_⟩
    · have : (rowsOf st').flatten = allNodes st' := by rw [rowsOf, allNodes, List.flatMap_def]
      rw [this]; simpa using b.nodes
    · rw [rowsOf, List.length_map]; exact b.one rfl
    · rw [hnone] at e3 e4
      simp only [List.map_nil, List.flatten_nil, List.nil_append, List.sum_nil, Nat.zero_add] at e3 e4
      rw [e4, e3, rowsOf, List.length_map]
  have hsubok : ∀ c ∈ cs, SubOk G o (fun c => ((buildC (getEdgeScore k G.size) G o (fun _ => none) [c]).map fun x => (rowsOf x.1, x.2)).map (·.1)) c := by
    intro c hc
    obtain ⟨st, S, _, e2, hp, _⟩ := hone c hc
    exact ⟨⟨rowsOf st, by simp only [e2, Option.map_some], hp⟩⟩
  obtain ⟨st, S, own, e1, e2, e3, e4⟩ := buildC_spec hsc hf hcl _ hsubok hin hhot
  refine ⟨st, S, ?_, e2, ?_⟩
  · rw [← e1]
    refine build_congr fun c hc => ?_
    obtain ⟨st, S, h1, h2, _⟩ := hone c hc
    simp only [h1, h2, Option.map_some]
  · rw [e4, e3, rowsOf, List.length_map]
    have hL : ∀ l : List Cfg, (∀ c ∈ l, c ∈ cs ∧ nested G o (decide (1 < cs.length)) c = true) →
        ((l.map fun c => (((buildC (getEdgeScore k G.size) G o (fun _ => none) [c]).map fun x => (rowsOf x.1, x.2)).map (·.2)).getD {}).map
          fun s => s.single + s.multi).sum =
        (((l.map fun c => (((buildC (getEdgeScore k G.size) G o (fun _ => none) [c]).map fun x => (rowsOf x.1, x.2)).map (·.2)).getD {}).map
          (·.orders)).flatten).length + l.length := by
      intro l; induction l with
      | nil => intro _; rfl
      | cons c l ih =>
        intro h
        obtain ⟨hc, hn⟩ := h c (by simp)
        obtain ⟨st, S, _, h2, hp, h1, hS⟩ := hone c hc
        have hpos : (rowsOf st).length ≠ 0 := by
          intro h0
          rw [List.length_eq_zero_iff.1 h0] at hp
          have hw : wanted G o c = [] := by simpa using hp.symm.eq_nil
          simp only [nested, Bool.and_eq_true] at hn
          have hh := hn.1.1.1.1
          obtain ⟨n, hnn, hlp⟩ := List.any_eq_true.1 hn.2
          simp only [wanted, hh, Bool.true_eq_false, if_false] at hw
          split at hw
          · have : n ∈ c.nodes.filter (isHot G o c) := by
              refine List.mem_filter.2 ⟨hnn, ?_⟩
              simp only [Bool.and_eq_true] at hlp
              simp only [isHot, hlp.2, Bool.true_or]
            rw [hw] at this; cases this
          · rw [hw] at hnn; cases hnn
        have ih := ih fun d hd => h d (by simp [hd])
        simp only [List.map_cons, List.sum_cons, List.flatten_cons, List.length_append, List.length_cons, ih, h2, Option.map_some,
          Option.getD_some]
        omega
    rw [hL _ fun c hc => List.mem_filter.1 hc, List.length_append]
    omega

/-! ### Concrete cases -/

/-- Two single-node chains and one of two nodes; two merges; one chain. -/
theorem ex_stats : (buildChainsC exScore exProg {} [exCfg]).map (fun x => (rowsOf x.1, x.2.single, x.2.multi, x.2.orders.length)) =
    some ([[0, 1, 2, 3]], 2, 1, 2) := by decide +kernel

/-- Two functions, the first with two landing pads, one of them hot. -/
def exPads : Prog where
  size := fun n => n + 3
  fn := fun n => if n < 4 then 7 else 8
  bbi := fun n => if n < 4 then n else n - 4
  lp := fun n => n == 2 || n == 3
  edges := [⟨0, 1, 5, .branch, false⟩, ⟨0, 2, 2, .branch, false⟩, ⟨1, 4, 3, .call, false⟩, ⟨4, 5, 3, .branch, false⟩]

def exPadsCfgs : List Cfg := [⟨7, [0, 1, 2, 3], []⟩, ⟨8, [4, 5], []⟩]

example : Fits exPads exPadsCfgs := ⟨by decide, by decide, by decide⟩
example : Enclosed exPads { inter := true } exPadsCfgs := ⟨by decide, by decide⟩

/-- The first function's chains are built beforehand; the statistics count them too. -/
theorem ex_nested : (exPadsCfgs.filter (nested exPads { inter := true } true)).map (·.fn) = [7] ∧
    (buildChainsC (getEdgeScore {} exPads.size) exPads { inter := true } exPadsCfgs).map
      (fun x => (rowsOf x.1, x.2.single, x.2.multi, x.2.orders.length)) = some ([[0, 1, 2, 3, 4, 5]], 4, 2, 4) := by decide +kernel

end Verif.Chain

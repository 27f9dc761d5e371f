import Verif.ChainScoreProps

/-! # C30: the recorded edges, scores and orders are right initially (`InitChainEdges`), and after any sequence of merges
with predicted gains -/
namespace Verif.Chain
open Verif

variable {P : Nodes} {sc : Edge → Int → Rat} {st : State}

theorem filter_snoc {α : Type} (p : α → Bool) (l : List α) (a : α) :
    (l ++ [a]).filter p = l.filter p ++ if p a = true then [a] else [] := by
  rw [List.filter_append]
  cases h : p a <;> simp [h]

/-- One edge. -/
theorem initEdge_ok (w : WF P st) {D : List Edge} (h : EdgesOk D st) {e : Edge} {c : Nat} (hc : chainOf st e.src = some c)
    (hk : e.sink ∈ allNodes st) : ∃ st', initEdge c st e = some st' ∧ SameCore st st' ∧ EdgesOk (D ++ [e]) st' := by
  have hcl := (chainOf_iff w _ _).1 hc
  obtain ⟨d, hdl, hdn⟩ := mem_allNodes.1 hk
  have hd : chainOf st e.sink = some d := (chainOf_iff w _ _).2 ⟨hdl, hdn⟩
  obtain ⟨b, hb, hbe⟩ := bundleOf_of_chainOf w hc
  obtain ⟨b', hb', hbk⟩ := bundleOf_of_chainOf w hd
  have hL : ∃ o1, st.L e.src = some (b, o1) := by
    unfold bundleOf at hbe
    rcases Option.eq_none_or_eq_some (st.L e.src) with hl | ⟨⟨x, y⟩, hl⟩
    · rw [hl] at hbe; cases hbe
    · rw [hl] at hbe; cases hbe; exact ⟨y, hl⟩
  have hL' : ∃ o2, st.L e.sink = some (b', o2) := by
    unfold bundleOf at hbk
    rcases Option.eq_none_or_eq_some (st.L e.sink) with hl | ⟨⟨x, y⟩, hl⟩
    · rw [hl] at hbk; cases hbk
    · rw [hl] at hbk; cases hbk; exact ⟨y, hl⟩
  obtain ⟨o1, hL⟩ := hL
  obtain ⟨o2, hL'⟩ := hL'
  have hends : ∀ x ∈ D ++ [e], x.src ∈ allNodes st ∧ x.sink ∈ allNodes st := by
    intro x hx
    rcases List.mem_append.1 hx with hx | hx
    · exact h.ends x hx
    · rw [List.mem_singleton] at hx; subst hx
      exact ⟨mem_allNodes.2 ⟨c, hcl⟩, hk⟩
  have hbc : (st.B b').chain = d := (w.placed d hdl).chain b' hb'
  unfold initEdge
  rw [hL, hL']
  simp only
  by_cases hbb : b = b'
  · rw [if_pos hbb]
    have hcd : c = d := by subst hbb; exact w.bundle_chain hcl.1 hdl hb hb'
    refine ⟨st, rfl, SameCore.refl st, h.maps, hends, ?_, ?_⟩
    · intro x hx y hy hxy
      rw [filter_snoc, if_neg, List.append_nil]
      · exact h.inter x hx y hy hxy
      · simp only [hc, hd, Bool.and_eq_true, decide_eq_true_eq, Option.some.injEq]
        omega
    · intro x hx y hy
      rw [filter_snoc, if_neg, List.append_nil]
      · exact h.intra x hx y hy
      · simp only [hbe, hbk, hbb, Bool.and_eq_true, decide_eq_true_eq]
        rintro ⟨h1, _, h2⟩; exact h2 h1
  · rw [if_neg hbb, hbc]
    by_cases hdc : d = c
    · rw [if_pos hdc]
      have hpush : pushIntra st e = pushed st [e] := pushAll_eq [e] st
      have hcore := pushed_core st [e]
      rw [hpush]
      refine ⟨_, rfl, hcore, ⟨⟨h.maps.reps.sorted, h.maps.reps.nodup⟩, h.maps.keys, h.maps.inn⟩, ?_, ?_, ?_⟩
      · intro x hx; rw [hcore.allNodes]; exact hends x hx
      · intro x hx y hy hxy
        simp only [hcore.chainOf]
        rw [filter_snoc, if_neg, List.append_nil]
        · exact h.inter x hx y hy hxy
        · simp only [hc, hd, Bool.and_eq_true, decide_eq_true_eq, Option.some.injEq]
          omega
      · intro x hx y hy
        simp only [hcore.chainOf, hcore.bundleOf]
        rw [filter_snoc]
        show ((st.B y).outs ++ [e].filter fun e => decide (bundleOf st e.src = some y)).Perm _
        refine (h.intra x hx y hy).append (List.Perm.of_eq ?_)
        by_cases hy' : b = y
        · subst hy'
          have hxc : x = c := w.bundle_chain hx hcl.1 hy hb
          subst hxc
          have : ¬ b' = b := fun h => hbb h.symm
          simp [hbe, hbk, hd, hdc, this]
        · simp [hbe, hy']
    · rw [if_neg hdc]
      have hcd : c ≠ d := fun h => hdc h.symm
      have mv := moveEdges_moved h.maps.reps [e] hcd (fun hs => (h.maps.inn d hdl c).2 ⟨hcl.1, hs⟩)
      refine ⟨_, rfl, mv.core, ⟨mv.reps, ?_, ?_⟩, ?_, ?_, ?_⟩
      · intro x hx y hy
        rw [mv.core.chains] at hx ⊢
        rw [mv.out] at hy
        split at hy
        · rename_i hxy; rw [hxy.1, hxy.2]; exact ⟨hdl, hcd⟩
        · exact h.maps.keys x hx y hy
      · intro y hy x
        rw [mv.core.chains] at hy ⊢
        rw [mv.inn, mv.out, h.maps.inn y hy x]
        split
        · rename_i hxy; simp [hxy, hcl.1]
        · rename_i hxy; simp [hxy]
      · intro x hx; rw [mv.core.allNodes]; exact hends x hx
      · intro x hx y hy hxy
        rw [mv.core.chains] at hx hy
        simp only [mv.core.chainOf]
        rw [filter_snoc, mv.out]
        by_cases hcy : x = c ∧ y = d
        · obtain ⟨rfl, rfl⟩ := hcy
          rw [if_pos ⟨rfl, rfl⟩, if_pos (by simp [hc, hd])]
          exact (h.inter x hx y hy hxy).append_right _
        · rw [if_neg hcy, if_neg, List.append_nil]
          · exact h.inter x hx y hy hxy
          · simp only [hc, hd, Bool.and_eq_true, decide_eq_true_eq, Option.some.injEq]
            rintro ⟨rfl, rfl⟩; exact hcy ⟨rfl, rfl⟩
      · intro x hx y hy
        rw [mv.core.chains] at hx
        rw [mv.core.bundles] at hy
        simp only [mv.core.chainOf, mv.core.bundleOf]
        rw [filter_snoc, if_neg, List.append_nil, mv.B]
        · exact h.intra x hx y hy
        · simp only [hbe, hd, Bool.and_eq_true, decide_eq_true_eq, Option.some.injEq]
          rintro ⟨rfl, rfl, _⟩
          exact hcd (w.bundle_chain hcl.1 hdl hb hy)

/-- All edges of a chain. -/
theorem initEdges_chain (w : WF P st) {c : Nat} : ∀ (es D : List Edge) (st1 : State), SameCore st st1 → EdgesOk D st1 →
    (∀ e ∈ es, chainOf st e.src = some c ∧ e.sink ∈ allNodes st) →
    ∃ st', es.foldlM (initEdge c) st1 = some st' ∧ SameCore st st' ∧ EdgesOk (D ++ es) st'
  | [], D, st1, hc, h, _ => ⟨st1, rfl, hc, by simpa using h⟩
  | e :: t, D, st1, hc, h, he => by
    obtain ⟨h1, h2⟩ := he e (by simp)
    obtain ⟨st2, e2, c2, k2⟩ := initEdge_ok (hc.wf w) h (e := e) (c := c) (by rw [hc.chainOf]; exact h1) (by rw [hc.allNodes]; exact h2)
    obtain ⟨st', e', c', k'⟩ := initEdges_chain w t (D ++ [e]) st2 (hc.trans c2) k2 fun x hx => he x (List.mem_cons_of_mem _ hx)
    refine ⟨st', ?_, c', by simpa using k'⟩
    rw [List.foldlM_cons, e2]; exact e'

/-- Each edge leaves one node. -/
theorem outEdges_perm (G : Prog) (n : Nat) : (outEdges G n).Perm (G.edges.filter fun e => decide (e.src = n)) := by
  unfold outEdges
  refine (filter_or_perm _ _ _ ?_).trans (List.Perm.of_eq (List.filter_congr ?_))
  · intro e _ he
    simp only [Bool.and_eq_true, decide_eq_true_eq] at he
    simp [he.1, he.2]
  · intro e _
    rw [← Bool.and_or_distrib_left]
    by_cases hf : G.fn e.sink = G.fn n <;> simp [hf]

/-- Specification: the edges that take part in the layout of the given nodes. -/
def visited (G : Prog) (o : Opts) (multi : Bool) (ns : List Nat) : List Edge :=
  G.edges.filter fun e => decide (e.src ∈ ns) && shouldVisit o multi e

theorem visited_perm (G : Prog) (o : Opts) (multi : Bool) {ns : List Nat} (hnd : ns.Nodup) :
    ((ns.flatMap (outEdges G)).filter (shouldVisit o multi)).Perm (visited G o multi ns) := by
  have h1 : (ns.flatMap (outEdges G)).Perm (ns.flatMap fun n => G.edges.filter fun e => decide (some e.src = some n) && true) := by
    refine List.Perm.flatMap_left _ fun n _ => (outEdges_perm G n).trans (List.Perm.of_eq (List.filter_congr fun e _ => ?_))
    simp
  refine ((h1.trans (flatMap_filter_perm G.edges (fun e => some e.src) (fun _ => true) ns hnd)).filter _).trans ?_
  rw [List.filter_filter]
  refine List.Perm.of_eq (List.filter_congr fun e _ => ?_)
  rw [Bool.and_comm]
  simp

theorem edgesOk_perm {E E' : List Edge} (h : EdgesOk E st) (p : E.Perm E') : EdgesOk E' st :=
  ⟨h.maps, fun e he => h.ends e (p.mem_iff.2 he), fun c hc d hd hcd => (h.inter c hc d hd hcd).trans (p.filter _),
    fun c hc b hb => (h.intra c hc b hb).trans (p.filter _)⟩

/-- Each chain is one bundle. -/
def OneBundle (st : State) : Prop := ∀ c ∈ st.chains, (st.C c).bundles.length = 1

/-- **`InitChainEdges` records every visited edge where it belongs, and the scores of the initial layout.** -/
theorem initEdges_ok {G : Prog} (o : Opts) (multi : Bool) (w : WF G.nodes st) (h0 : EdgesOk [] st) (h1 : OneBundle st)
    (hv : ∀ e ∈ visited G o multi (allNodes st), e.sink ∈ allNodes st) :
    ∃ st', initEdges sc G o multi st = some st' ∧ SameCore st st' ∧ EdgesOk (visited G o multi (allNodes st)) st' ∧
      ScoresOk G.nodes sc (visited G o multi (allNodes st)) st' ∧ OutsSorted st' := by
  have key : ∀ (todo done : List Nat), done ++ todo = st.chains → ∀ (D : List Edge) (st1 : State), SameCore st st1 →
      EdgesOk D st1 → D.Perm ((done.flatMap fun c => ((nodesOf st c).flatMap (outEdges G))).filter (shouldVisit o multi)) →
      ∃ st' D', todo.foldlM (fun st c =>
        (((nodesOf st c).flatMap (outEdges G)).filter (shouldVisit o multi)).foldlM (initEdge c) st) st1 = some st' ∧
        SameCore st st' ∧ EdgesOk D' st' ∧
        D'.Perm ((st.chains.flatMap fun c => ((nodesOf st c).flatMap (outEdges G))).filter (shouldVisit o multi)) := by
    intro todo
    induction todo with
    | nil =>
      intro done hd D st1 hc h hp
      rw [List.append_nil] at hd
      rw [hd] at hp
      exact ⟨st1, D, rfl, hc, h, hp⟩
    | cons c t ih =>
      intro done hd D st1 hc h hp
      have hcm : c ∈ st.chains := by rw [← hd]; simp
      obtain ⟨st2, e2, c2, k2⟩ := initEdges_chain w (c := c) (((nodesOf st c).flatMap (outEdges G)).filter (shouldVisit o multi))
        D st1 hc h (fun e he => by
          simp only [List.mem_filter, List.mem_flatMap] at he
          obtain ⟨⟨n, hn, hne⟩, hvis⟩ := he
          have := (outEdges_perm G n).mem_iff.1 hne
          simp only [List.mem_filter, decide_eq_true_eq] at this
          have hsrc : e.src ∈ nodesOf st c := by rw [this.2]; exact hn
          refine ⟨(chainOf_iff w _ _).2 ⟨hcm, hsrc⟩, hv e ?_⟩
          simp only [visited, List.mem_filter, Bool.and_eq_true, decide_eq_true_eq]
          exact ⟨this.1, mem_allNodes.2 ⟨c, hcm, hsrc⟩, hvis⟩)
      obtain ⟨st', D', e', c', k', p'⟩ := ih (done ++ [c]) (by simpa using hd) _ st2 c2 k2 (by
        rw [List.flatMap_append, List.filter_append]
        refine hp.append ?_
        simp)
      refine ⟨st', D', ?_, c', k', p'⟩
      rw [List.foldlM_cons, hc.nodesOf, e2]; exact e'
  obtain ⟨st1, D, e1, c1, k1, p1⟩ := key st.chains [] rfl [] st (SameCore.refl st) h0 (by simp)
  have pE : D.Perm (visited G o multi (allNodes st)) := by
    refine p1.trans ?_
    rw [← List.flatMap_assoc]
    exact visited_perm G o multi w.once
  have k := edgesOk_perm k1 pE
  have w1 := c1.wf w
  unfold initEdges
  rw [e1]
  simp only [Option.map_some]
  refine ⟨_, rfl, ?_, ?_, ?_, ?_⟩
  · refine c1.trans ⟨rfl, rfl, rfl, fun b => ⟨rfl, rfl, rfl, rfl, rfl, rfl⟩, fun c => ?_⟩
    simp only
    split <;> exact ⟨rfl, rfl, rfl, rfl⟩
  all_goals
    generalize hst : ({ st1 with C := fun c => if c ∈ st1.chains then { st1.C c with score := computeScore G.nodes sc st1 c } else st1.C c } : State) = st2
    have cc : SameCore st1 st2 := by
      rw [← hst]
      refine ⟨rfl, rfl, rfl, fun b => ⟨rfl, rfl, rfl, rfl, rfl, rfl⟩, fun c => ?_⟩
      simp only
      split <;> exact ⟨rfl, rfl, rfl, rfl⟩
    have hB : st2.B = st1.B := by rw [← hst]
    have hm : ∀ c, (st2.C c).interOut = (st1.C c).interOut ∧ (st2.C c).interIn = (st1.C c).interIn := by
      intro c; rw [← hst]; simp only; split <;> exact ⟨rfl, rfl⟩
    have hsc : ∀ c ∈ st1.chains, (st2.C c).score = computeScore G.nodes sc st1 c := by
      intro c hc; rw [← hst]; simp only [if_pos hc]
    have ho : ∀ c d, outTo st2 c d = outTo st1 c d := fun c d => by rw [outTo, (hm c).1]; rfl
    clear hst
  · refine ⟨⟨⟨fun c => ?_, fun c => ?_⟩, ?_, ?_⟩, ?_, ?_, ?_⟩
    · rw [(hm c).1]; exact k.maps.reps.sorted c
    · rw [(hm c).2]; exact k.maps.reps.nodup c
    · intro c hc d hd
      rw [cc.chains] at hc ⊢; rw [ho] at hd; exact k.maps.keys c hc d hd
    · intro d hd c
      rw [cc.chains] at hd ⊢; rw [ho, (hm d).2]; exact k.maps.inn d hd c
    · intro e he; rw [cc.allNodes]; exact k.ends e he
    · intro c hc d hd hcd
      rw [cc.chains] at hc hd; rw [ho]; simp only [cc.chainOf]; exact k.inter c hc d hd hcd
    · intro c hc b hb
      rw [cc.chains] at hc; rw [cc.bundles] at hb
      rw [hB]; simp only [cc.chainOf, cc.bundleOf]; exact k.intra c hc b hb
  · intro c hc
    rw [cc.chains] at hc
    rw [hsc c hc, cc.nodesOf]
    have hf : (visited G o multi (allNodes st)).filter (within st2 c) = (visited G o multi (allNodes st)).filter (within st1 c) :=
      List.filter_congr fun e _ => by simp only [within, cc.chainOf, cc.bundleOf]
    rw [hf, computeScore, ← sumOn_flatMap (f := fun e => sc e (distOf G.nodes st1 e)), sumOn_perm _ (outs_perm w1 k hc)]
    unfold layoutScore
    refine sumOn_congr fun e he => ?_
    simp only [within, List.mem_filter, Bool.and_eq_true, decide_eq_true_eq] at he
    rw [distOf_eq w1 hc he.2.1 he.2.2.1]
  · intro c hc b hb
    rw [cc.chains] at hc; rw [cc.bundles] at hb
    rw [hB]
    have : (st1.B b).outs = [] := by
      have hp := k.intra c hc b hb
      rw [List.eq_nil_iff_forall_not_mem]
      intro e he
      have he := hp.mem_iff.1 he
      simp only [List.mem_filter, Bool.and_eq_true, decide_eq_true_eq] at he
      obtain ⟨b', hb', hbe⟩ := bundleOf_of_chainOf w1 he.2.2.1
      have hl := h1 c (by rw [← c1.chains]; exact hc)
      rw [← c1.bundles] at hl
      obtain ⟨y, hy⟩ := List.length_eq_one_iff.1 hl
      rw [hy, List.mem_singleton] at hb hb'
      exact he.2.2.2 (by rw [hbe, hb, hb'])
    rw [this]; exact List.Pairwise.nil

/-! ### The initial chains -/

theorem edgesOk_nil {rs : List (List Nat × Bool)} (h : InitOk (P := P) rs st) : EdgesOk [] st := by
  have ho : ∀ c d, outTo st c d = none := fun c d => by rw [outTo, h.noOut]; rfl
  refine ⟨⟨⟨fun c => ?_, fun c => ?_⟩, ?_, ?_⟩, ?_, ?_, ?_⟩
  · rw [h.noOut]; exact List.Pairwise.nil
  · rw [h.noIn]; exact List.nodup_nil
  · intro c _ d hd; rw [ho] at hd; cases hd
  · intro d _ c; rw [h.noIn, ho]; simp
  · intro e he; cases he
  · intro c _ d _ _; rw [ho]; simp
  · intro c _ b _; rw [h.noEdges]; simp

theorem oneBundle_addChain {st st' : State} (h : OneBundle st) {r : List Nat × Bool} (hr : r.2 = false ∨ r.1.length ≤ 1)
    (he : addChain P st r = some st') : OneBundle st' := by
  obtain ⟨ns, f⟩ := r
  cases ns with
  | nil => unfold addChain at he; simp only [Option.some.injEq] at he; rw [← he]; exact h
  | cons n t =>
    unfold addChain at he
    simp only at he
    split at he
    · cases he
    · rename_i hn
      have hg : ∃ g, (if f = true then (n :: t).map ([·]) else [n :: t]) = [g] := by
        rcases hr with hr | hr
        · simp only at hr; subst hr; exact ⟨n :: t, by simp⟩
        · cases t with
          | nil => exact ⟨[n], by simp⟩
          | cons x y => simp at hr
      obtain ⟨g, hg⟩ := hg
      rw [hg] at he
      unfold addBundles at he
      split at he
      · cases he
      · unfold addBundles at he
        simp only [Option.some.injEq] at he
        rw [← he]
        intro c hc
        simp only at hc ⊢
        by_cases hcn : c = n
        · subst hcn; simp
        · rw [upd_ne _ _ hcn, upd_ne _ _ hcn]
          rcases List.mem_append.1 hc with hc | hc
          · exact h c hc
          · simp at hc; exact absurd hc hcn

theorem oneBundle_rows {G : Prog} : ∀ (rs : List (List Nat × Bool)) {st st' : State}, OneBundle st →
    (∀ r ∈ rs, r.2 = false ∨ r.1.length ≤ 1) → addRows G st rs = some st' → OneBundle st' := by
  intro rs
  induction rs with
  | nil => intro st st' h _ he; unfold addRows at he; simp only [List.foldlM_nil] at he; cases he; exact h
  | cons r t ih =>
    intro st st' h hr he
    unfold addRows at he
    rw [List.foldlM_cons] at he
    obtain ⟨st1, h1, h2⟩ := Option.bind_eq_some_iff.1 he
    exact ih (oneBundle_addChain h (hr r (by simp)) h1) (fun x hx => hr x (List.mem_cons_of_mem _ hx)) h2

theorem oneBundle_singles {G : Prog} : ∀ (ns : List Nat) {st st' : State}, OneBundle st →
    addSingles G ns st = some st' → OneBundle st' := by
  intro ns
  induction ns with
  | nil => intro st st' h he; unfold addSingles at he; simp only [List.foldlM_nil] at he; cases he; exact h
  | cons n t ih =>
    intro st st' h he
    unfold addSingles at he
    rw [List.foldlM_cons] at he
    obtain ⟨st1, h1, h2⟩ := Option.bind_eq_some_iff.1 he
    refine ih ?_ h2
    split at h1
    · cases h1; exact h
    · exact oneBundle_addChain h (.inr (by simp)) h1

theorem oneBundle_cfg {G : Prog} {o : Opts} {sub : Cfg → Option (List (List Nat))} {multi : Bool} {st st' : State} {c : Cfg}
    (h : OneBundle st) (hin : c.initial = []) (he : initCfg G o sub multi st c = some st') : OneBundle st' := by
  unfold initCfg at he
  split at he
  · cases he; exact h
  · split at he
    · obtain ⟨rs, _, h2⟩ := Option.bind_eq_some_iff.1 he
      exact oneBundle_rows _ h (by simp) h2
    · obtain ⟨st1, h1, h2⟩ := Option.bind_eq_some_iff.1 he
      have hst1 : OneBundle st1 := by
        split at h1
        · cases h1; exact h
        · exact oneBundle_addChain h (.inl rfl) h1
      split at h2
      · split at h2
        · cases h2
        · exact oneBundle_addChain hst1 (.inl rfl) h2
      · obtain ⟨st2, h3, h4⟩ := Option.bind_eq_some_iff.1 h2
        refine oneBundle_singles _ ?_ h4
        rw [if_neg (by simp [hin])] at h3
        obtain ⟨ps, _, h5⟩ := Option.bind_eq_some_iff.1 h3
        exact oneBundle_rows _ hst1 (by simp) h5

theorem oneBundle_init {G : Prog} {o : Opts} {sub : Cfg → Option (List (List Nat))} {cs : List Cfg} {st : State}
    (hin : ∀ c ∈ cs, c.initial = []) (he : initChains G o sub cs = some st) : OneBundle st := by
  unfold initChains at he
  generalize decide (1 < cs.length) = multi at he
  have : ∀ (cs : List Cfg) (st0 : State), OneBundle st0 → (∀ c ∈ cs, c.initial = []) →
      cs.foldlM (initCfg G o sub multi) st0 = some st → OneBundle st := by
    intro cs
    induction cs with
    | nil => intro st0 h _ he; simp only [List.foldlM_nil] at he; cases he; exact h
    | cons c t ih =>
      intro st0 h hin he
      rw [List.foldlM_cons] at he
      obtain ⟨st1, h1, h2⟩ := Option.bind_eq_some_iff.1 he
      exact ih st1 (oneBundle_cfg h (hin c (by simp)) h1) (fun x hx => hin x (List.mem_cons_of_mem _ hx)) h2
  exact this cs {} (fun c hc => by cases hc) hin he

/-- A node at either end of a visited edge has a nonzero frequency. -/
theorem calcFreq_visited {o : Opts} {multi : Bool} {es : List Edge} {e : Edge} (he : e ∈ es) (hv : shouldVisit o multi e = true) :
    calcFreq es e.src ≠ 0 ∧ calcFreq es e.sink ≠ 0 := by
  simp only [shouldVisit, Bool.and_eq_true, decide_eq_true_eq] at hv
  obtain ⟨⟨hw, hr⟩, _⟩ := hv
  have h2 : e.weight ≤ ((((es.filter fun x => decide (x.sink = e.sink)).filter fun x => decide (x.kind ≠ .ret)).map (·.weight)).sum) :=
    List.single_le_sum (by simp) _ (List.mem_map.2 ⟨e, by simp [he, hr], rfl⟩)
  refine ⟨?_, ?_⟩
  · by_cases hk : e.kind = .call
    · have hmax : ∀ (l : List Nat) (a x : Nat), x ∈ l → x ≤ l.foldl max a := by
        intro l
        induction l with
        | nil => intro a x hx; cases hx
        | cons y t ih =>
          intro a x hx
          rcases List.mem_cons.1 hx with rfl | hx
          · exact (le_max_right a x).trans (foldl_max_le t _)
          · exact ih _ x hx
      have h1 : e.weight ≤ ((((es.filter fun x => decide (x.src = e.src)).filter fun x => decide (x.kind = .call)).map (·.weight)).foldl max 0) :=
        hmax _ _ _ (List.mem_map.2 ⟨e, by simp [he, hk], rfl⟩)
      have : e.weight ≤ calcFreq es e.src := h1.trans ((le_max_left _ _).trans (le_max_left _ _))
      omega
    · have h1 : e.weight ≤ ((((es.filter fun x => decide (x.src = e.src)).filter fun x => decide (x.kind ≠ .call)).map (·.weight)).sum) :=
        List.single_le_sum (by simp) _ (List.mem_map.2 ⟨e, by simp [he, hk], rfl⟩)
      have : e.weight ≤ calcFreq es e.src := h1.trans ((le_max_left _ _).trans (le_max_right _ _))
      omega
  · have : e.weight ≤ calcFreq es e.sink := h2.trans ((le_max_right _ _).trans (le_max_right _ _))
    omega

/-- Visited edges stay among the given functions (calls are visited only if all functions are given). -/
def Closed (G : Prog) (o : Opts) (cs : List Cfg) : Prop :=
  ∀ e ∈ G.edges, shouldVisit o (decide (1 < cs.length)) e = true → (∃ c ∈ cs, e.src ∈ c.nodes) → ∃ c ∈ cs, e.sink ∈ c.nodes

/-- Both ends of a visited edge are placed. -/
theorem wanted_visited {G : Prog} {o : Opts} {cs : List Cfg} (hf : Fits G cs) {e : Edge} (he : e ∈ G.edges) {multi : Bool}
    (hv : shouldVisit o multi e = true) {n : Nat} (hn : n = e.src ∨ n = e.sink) {c : Cfg} (hc : c ∈ cs) (hnc : n ∈ c.nodes) :
    n ∈ wanted G o c := by
  obtain ⟨f1, f2⟩ := calcFreq_visited he hv
  rw [mem_wanted]
  refine ⟨hnc, ⟨e, he, ?_⟩, fun _ => .inl ?_⟩
  · have := hf.fn c hc n hnc
    rcases hn with rfl | rfl
    · exact .inl this
    · exact .inr this
  · rcases hn with rfl | rfl
    exacts [f1, f2]

/-- Everything the builder records about chains, edges, scores and their order is right. -/
structure Good (P : Nodes) (sc : Edge → Int → Rat) (E : List Edge) (st : State) : Prop where
  wf : WF P st
  edges : EdgesOk E st
  scores : ScoresOk P sc E st
  sorted : OutsSorted st

/-- All visited edges, over all given functions. -/
def visitedIn (G : Prog) (o : Opts) (cs : List Cfg) : List Edge :=
  G.edges.filter fun e => decide (e.src ∈ cs.flatMap (·.nodes)) && shouldVisit o (decide (1 < cs.length)) e

/-- `InitNodeChains` and `InitChainEdges` together. -/
theorem init_good {G : Prog} {o : Opts} {cs : List Cfg} (hf : Fits G cs) (hcl : Closed G o cs) (sub : Cfg → Option (List (List Nat)))
    (hsub : ∀ c ∈ cs, SubOk G o sub c) (hin : ∀ c ∈ cs, c.initial = [])
    (hhot : ∀ c ∈ cs, o.reorderHot = false → cfgHot G c = true → c.nodes.filter (isHot G o c) ≠ []) :
    ∃ st0 st, initChains G o sub cs = some st0 ∧ initEdges sc G o (decide (1 < cs.length)) st0 = some st ∧
      SameCore st0 st ∧ OneBundle st ∧ Good G.nodes sc (visitedIn G o cs) st ∧ (allNodes st).Perm (cs.flatMap (wanted G o)) := by
  obtain ⟨rows, st0, e, i, _, p0⟩ := initChains_spec (o := o) hf sub hsub hin hhot
  have hone := oneBundle_init hin e
  have hE : visited G o (decide (1 < cs.length)) (allNodes st0) = visitedIn G o cs := by
    refine List.filter_congr fun x hx => ?_
    by_cases hv : shouldVisit o (decide (1 < cs.length)) x = true
    · simp only [hv, Bool.and_true]
      rw [Bool.eq_iff_iff, decide_eq_true_eq, decide_eq_true_eq, p0.mem_iff]
      simp only [List.mem_flatMap]
      constructor
      · rintro ⟨c, hc, h⟩; exact ⟨c, hc, ((mem_wanted c _).1 h).1⟩
      · rintro ⟨c, hc, h⟩; exact ⟨c, hc, wanted_visited hf hx hv (.inl rfl) hc h⟩
    · rw [Bool.eq_false_of_not_eq_true hv, Bool.and_false, Bool.and_false]
  obtain ⟨st, e1, c1, k1, k2, k3⟩ := initEdges_ok (sc := sc) o (decide (1 < cs.length)) i.wf (edgesOk_nil i) hone (by
    rw [hE]
    intro x hx
    simp only [visitedIn, List.mem_filter, Bool.and_eq_true, decide_eq_true_eq, List.mem_flatMap] at hx
    obtain ⟨hx, hs, hv⟩ := hx
    obtain ⟨c, hc, hk⟩ := hcl x hx hv hs
    exact p0.mem_iff.2 (List.mem_flatMap.2 ⟨c, hc, wanted_visited hf hx hv (.inr rfl) hc hk⟩))
  rw [hE] at k1 k2
  refine ⟨st0, st, e, e1, c1, ?_, ⟨c1.wf i.wf, k1, k2, k3⟩, ?_⟩
  · intro c hc; rw [c1.chains] at hc; rw [c1.bundles]; exact hone c hc
  · rw [c1.allNodes]; exact p0

/-! ### Any sequence of merges -/

/-- `n` merges, each of two live chains with the gain that was predicted for it (a splitting order with predicted gain 0 is
never used, `error_on_zero_score_gain`). -/
inductive Built (P : Nodes) (sc : Edge → Int → Rat) (o : Opts) : Nat → State → State → Prop
  | refl (st : State) : Built P sc o 0 st st
  | step {n : Nat} {st st1 st2 : State} (s u : Nat) (ord : Order) (g : Rat) : Built P sc o n st st1 →
      s ∈ st1.chains → u ∈ st1.chains → s ≠ u → OrdOk ord st1 s → scoreGain P sc ord st1 s u = some g →
      (g ≠ 0 ∨ ord = .SU) → merge P sc o ord g st1 s u = some st2 → Built P sc o (n + 1) st st2

/-- One such merge. -/
theorem good_step {E : List Edge} {o : Opts} (h : Good P sc E st) {s u : Nat} (hs : s ∈ st.chains) (hu : u ∈ st.chains)
    (hne : s ≠ u) {ord : Order} (ho : OrdOk ord st s) {g : Rat} (hg : scoreGain P sc ord st s u = some g)
    (hgo : g ≠ 0 ∨ ord = .SU) :
    ∃ st', merge P sc o ord g st s u = some st' ∧ Good P sc E st' ∧ st'.chains = st.chains.erase u ∧
      nodesOf st' s = nodesIn st.B (mergedBundles ord st s u) ∧
      (∀ c ∈ st.chains, c ≠ s → c ≠ u → nodesOf st' c = nodesOf st c) ∧ (allNodes st').Perm (allNodes st) ∧
      (∀ c, c ≠ s → (st'.C c).bundles = (st.C c).bundles ∧ (st'.C c).freq = (st.C c).freq ∧ (st'.C c).size = (st.C c).size) := by
  obtain ⟨g', hg', hex⟩ := scoreGain_exact (sc := sc) h.wf h.edges h.sorted hs hu hne ho
  rw [hg] at hg'; cases hg'
  obtain ⟨st', e, w, k1, k2, k3, hch, hn, hno, hp, _, hC⟩ := merge_ok sc o h.wf h.edges h.scores h.sorted hs hu hne ord g (by
    rw [h.scores s hs, h.scores u hu]; exact hex hgo)
  refine ⟨st', e, ⟨w, k1, k2, k3⟩, hch, hn, hno, hp, fun c hc => ?_⟩
  have := hC c hc
  rw [this]; exact ⟨rfl, rfl, rfl⟩

/-- **C30: along any sequence of merges, from the initial chains of any functions, the score of each chain stays the true
score of its layout; each predicted gain is the difference it makes; and no check fails.** -/
theorem built_good {E : List Edge} {o : Opts} {n : Nat} {st st' : State} (h : Good P sc E st) (hb : Built P sc o n st st') :
    Good P sc E st' ∧ (allNodes st').Perm (allNodes st) ∧ st'.chains.length + n = st.chains.length := by
  induction hb with
  | refl st => exact ⟨h, List.Perm.refl _, rfl⟩
  | @step n st st1 st2 s u ord g _ hs hu hne ho hg hgo hm ih =>
    obtain ⟨ih1, ih2, ih3⟩ := ih h
    obtain ⟨st', e, g', hch, _, _, hp, _⟩ := good_step (o := o) ih1 hs hu hne ho hg hgo
    rw [hm] at e; cases e
    refine ⟨g', hp.trans ih2, ?_⟩
    rw [hch, List.length_erase_of_mem hu]
    have := List.length_pos_of_mem hu
    omega

end Verif.Chain

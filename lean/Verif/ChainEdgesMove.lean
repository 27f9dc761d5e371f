import Verif.ChainEdges

/-! # C30: what `MergeChainEdges` does to the recorded edges -/
namespace Verif.Chain
open Verif

/-- Two states that differ only in recorded edges and scores. -/
structure SameCore (st st' : State) : Prop where
  chains : st'.chains = st.chains
  L : st'.L = st.L
  nb : st'.nb = st.nb
  B : ∀ b, (st'.B b).nodes = (st.B b).nodes ∧ (st'.B b).chain = (st.B b).chain ∧ (st'.B b).idx = (st.B b).idx ∧
    (st'.B b).off = (st.B b).off ∧ (st'.B b).size = (st.B b).size ∧ (st'.B b).freq = (st.B b).freq
  C : ∀ c, (st'.C c).fnIdx = (st.C c).fnIdx ∧ (st'.C c).bundles = (st.C c).bundles ∧ (st'.C c).size = (st.C c).size ∧
    (st'.C c).freq = (st.C c).freq

theorem SameCore.refl (st : State) : SameCore st st :=
  ⟨rfl, rfl, rfl, fun _ => ⟨rfl, rfl, rfl, rfl, rfl, rfl⟩, fun _ => ⟨rfl, rfl, rfl, rfl⟩⟩

theorem SameCore.trans {st st1 st2 : State} (h : SameCore st st1) (k : SameCore st1 st2) : SameCore st st2 := by
  refine ⟨k.chains.trans h.chains, k.L.trans h.L, k.nb.trans h.nb, fun b => ?_, fun c => ?_⟩
  · obtain ⟨h1, h2, h3, h4, h5, h6⟩ := h.B b
    obtain ⟨k1, k2, k3, k4, k5, k6⟩ := k.B b
    exact ⟨k1.trans h1, k2.trans h2, k3.trans h3, k4.trans h4, k5.trans h5, k6.trans h6⟩
  · obtain ⟨h1, h2, h3, h4⟩ := h.C c
    obtain ⟨k1, k2, k3, k4⟩ := k.C c
    exact ⟨k1.trans h1, k2.trans h2, k3.trans h3, k4.trans h4⟩

variable {st st' : State}

theorem SameCore.bundles (h : SameCore st st') (c : Nat) : (st'.C c).bundles = (st.C c).bundles := (h.C c).2.1
theorem SameCore.nodes (h : SameCore st st') (b : Nat) : (st'.B b).nodes = (st.B b).nodes := (h.B b).1
theorem SameCore.nodesIn (h : SameCore st st') (l : List Nat) : nodesIn st'.B l = nodesIn st.B l :=
  nodesIn_congr fun b _ => h.nodes b
theorem SameCore.nodesOf (h : SameCore st st') (c : Nat) : nodesOf st' c = nodesOf st c := by
  rw [Chain.nodesOf, Chain.nodesOf, h.bundles, h.nodesIn]
theorem SameCore.allNodes (h : SameCore st st') : allNodes st' = allNodes st := by
  rw [Chain.allNodes, Chain.allNodes, h.chains]
  exact List.flatMap_congr fun c _ => h.nodesOf c
theorem SameCore.bundleOf (h : SameCore st st') (n : Nat) : bundleOf st' n = bundleOf st n := by
  rw [Chain.bundleOf, Chain.bundleOf, h.L]
theorem SameCore.chainOf (h : SameCore st st') (n : Nat) : chainOf st' n = chainOf st n := by
  rw [Chain.chainOf, Chain.chainOf, h.L]
  congr 1; funext p; rw [(h.B _).2.1]
theorem SameCore.offOf (h : SameCore st st') (n : Nat) : offOf st' n = offOf st n := by
  rw [Chain.offOf, Chain.offOf, h.L]
  congr 2; funext p; rw [(h.B _).2.2.2.1]
theorem SameCore.sinkIdx (h : SameCore st st') (e : Edge) : sinkIdx st' e = sinkIdx st e := by
  rw [Chain.sinkIdx, Chain.sinkIdx, h.L]
  congr 2; funext p; rw [(h.B _).2.2.1]

theorem SameCore.wf {P : Nodes} (h : SameCore st st') (w : WF P st) : WF P st' := by
  refine ⟨⟨?_, ?_, ?_, ?_, ?_, ?_, ?_, ?_, ?_⟩, ?_⟩
  · rw [h.chains]; exact w.live
  · rw [h.allNodes]; exact w.once
  · intro c hc b hb
    rw [h.chains] at hc; rw [h.bundles] at hb
    have k := w.bundle c hc b hb
    refine ⟨?_, ?_, ?_, ?_⟩
    · rw [h.nodes]; exact k.ne
    · rw [h.nodes, ← k.size, (h.B _).2.2.2.2.1]
    · rw [h.nodes, ← k.freq, (h.B _).2.2.2.2.2]
    · intro j n hj
      rw [h.nodes] at hj ⊢; rw [h.L]; exact k.loc j n hj
  · intro c hc
    rw [h.chains] at hc; rw [h.bundles]
    have k := w.placed c hc
    refine ⟨fun b hb => ?_, fun i b hb => ?_, fun i b hb => ?_⟩
    · rw [(h.B _).2.1]; exact k.chain b hb
    · rw [(h.B _).2.2.1]; exact k.idx i b hb
    · rw [h.nodesIn, ← k.off i b hb, (h.B _).2.2.2.1]
  · intro c hc; rw [h.chains] at hc; rw [h.nodesOf, ← w.size c hc, (h.C _).2.2.1]
  · intro c hc; rw [h.chains] at hc; rw [h.nodesOf, ← w.freq c hc, (h.C _).2.2.2]
  · intro c hc f hf n hn
    rw [h.chains] at hc; rw [h.nodesOf] at hn; rw [(h.C _).1] at hf
    exact w.fnIdx c hc f hf n hn
  · intro c hc b hb
    rw [h.chains] at hc; rw [h.bundles] at hb; rw [h.nb]; exact w.fresh c hc b hb
  · intro n b o' hl
    rw [h.allNodes]; rw [h.L] at hl; exact w.loc n b o' hl
  · intro c hc; rw [h.chains] at hc; rw [h.bundles]; exact w.ne c hc

/-! ### Moving edges -/

/-- State after edges were pushed to their source bundles. -/
def pushed (st : State) (es : List Edge) : State :=
  { st with B := fun b => { st.B b with outs := (st.B b).outs ++ es.filter fun e => decide (bundleOf st e.src = some b) } }

theorem pushAll_eq (es : List Edge) : ∀ st : State, es.foldl pushIntra st = pushed st es := by
  induction es with
  | nil => intro st; simp [pushed]
  | cons e t ih =>
    intro st
    rw [List.foldl_cons, ih]
    unfold pushIntra
    split
    · rename_i b off hL
      unfold pushed
      congr 1
      funext x
      have hbo : bundleOf st e.src = some b := by rw [bundleOf, hL]; rfl
      have hbs : ∀ (B' : Nat → Bundle) n, bundleOf { st with B := B' } n = bundleOf st n := fun _ _ => rfl
      simp only [hbs]
      by_cases hx : x = b
      · subst hx; simp [hbo]
      · have hx' : ¬ b = x := fun h => hx h.symm
        simp [upd_ne _ _ hx, hbo, hx']
    · rename_i hL
      unfold pushed
      congr 1
      funext x
      rw [List.filter_cons_of_neg]
      simp [bundleOf, hL]

theorem find?_addOut {m : OMap Nat (List Edge)} (hm : OMap.Sorted m) (d : Nat) (es : List Edge) (x : Nat) :
    OMap.find? (addOut m d es) x = if x = d then some ((OMap.find? m d).getD [] ++ es) else OMap.find? m x := by
  rw [addOut, OMap.find?_upsert hm]

theorem sorted_addOut {m : OMap Nat (List Edge)} (hm : OMap.Sorted m) (d : Nat) (es : List Edge) :
    OMap.Sorted (addOut m d es) := hm.upsert _ _

theorem mem_insertKey {l : List Nat} {x y : Nat} : y ∈ insertKey l x ↔ y ∈ l ∨ y = x := by
  unfold insertKey; split
  · constructor
    · exact .inl
    · rintro (h | rfl)
      · exact h
      · assumption
  · simp

theorem nodup_insertKey {l : List Nat} (h : l.Nodup) (x : Nat) : (insertKey l x).Nodup := by
  unfold insertKey; split
  · exact h
  · rw [List.nodup_append]; refine ⟨h, by simp, ?_⟩
    rintro a ha b hb rfl
    simp at hb; subst hb; contradiction

/-- Edges of `c` to `d` recorded in the chains. -/
def outTo (st : State) (c d : Nat) : Option (List Edge) := OMap.find? (st.C c).interOut d

/-- Sorted maps, sets without repetition. -/
structure Reps (st : State) : Prop where
  sorted : ∀ c, OMap.Sorted (st.C c).interOut
  nodup : ∀ d, (st.C d).interIn.Nodup

theorem pushed_core (st : State) (es : List Edge) : SameCore st (pushed st es) :=
  ⟨rfl, rfl, rfl, fun _ => ⟨rfl, rfl, rfl, rfl, rfl, rfl⟩, fun _ => ⟨rfl, rfl, rfl, rfl⟩⟩

/-- What `move_edges` between two different chains does. -/
structure Moved (st : State) (es : List Edge) (f t : Nat) (st' : State) : Prop where
  core : SameCore st st'
  B : st'.B = st.B
  score : ∀ c, (st'.C c).score = (st.C c).score
  reps : Reps st'
  out : ∀ c d, outTo st' c d = if c = f ∧ d = t then some ((outTo st f t).getD [] ++ es) else outTo st c d
  inn : ∀ c d, c ∈ (st'.C d).interIn ↔ c ∈ (st.C d).interIn ∨ (c = f ∧ d = t)

theorem moveEdges_moved (r : Reps st) (es : List Edge) {f t : Nat} (hft : f ≠ t)
    (hin : (outTo st f t).isSome = true → f ∈ (st.C t).interIn) : Moved st es f t (moveEdges st es f t) := by
  unfold moveEdges
  rw [if_neg hft]
  split
  · rename_i hs
    refine ⟨⟨rfl, rfl, rfl, fun _ => ⟨rfl, rfl, rfl, rfl, rfl, rfl⟩, fun c => ?_⟩, rfl, fun c => ?_, ⟨fun c => ?_, fun c => ?_⟩,
      fun c d => ?_, fun c d => ?_⟩
    · by_cases hc : c = f
      · subst hc; simp
      · simp [upd_ne _ _ hc]
    · by_cases hc : c = f
      · subst hc; simp
      · simp [upd_ne _ _ hc]
    · by_cases hc : c = f
      · subst hc; simpa using sorted_addOut (r.sorted c) t es
      · simpa [upd_ne _ _ hc] using r.sorted c
    · by_cases hc : c = f
      · subst hc; simpa using r.nodup c
      · simpa [upd_ne _ _ hc] using r.nodup c
    · by_cases hc : c = f
      · subst hc; simp only [outTo, upd_same, find?_addOut (r.sorted c), true_and]
      · simp [outTo, upd_ne _ _ hc, hc]
    · have : c ∈ (st.C d).interIn ↔ c ∈ (st.C d).interIn ∨ (c = f ∧ d = t) := by
        constructor
        · exact .inl
        · rintro (h | ⟨rfl, rfl⟩)
          · exact h
          · exact hin hs
      rw [← this]
      by_cases hd : d = f
      · subst hd; simp
      · simp [upd_ne _ _ hd]
  · refine ⟨⟨rfl, rfl, rfl, fun _ => ⟨rfl, rfl, rfl, rfl, rfl, rfl⟩, fun c => ?_⟩, rfl, fun c => ?_, ⟨fun c => ?_, fun c => ?_⟩,
      fun c d => ?_, fun c d => ?_⟩
    · by_cases hct : c = t
      · subst hct; simp
      · by_cases hc : c = f
        · subst hc; simp [upd_ne _ _ hct]
        · simp [upd_ne _ _ hc, upd_ne _ _ hct]
    · by_cases hct : c = t
      · subst hct; simp
      · by_cases hc : c = f
        · subst hc; simp [upd_ne _ _ hct]
        · simp [upd_ne _ _ hc, upd_ne _ _ hct]
    · by_cases hct : c = t
      · subst hct; simpa using r.sorted c
      · by_cases hc : c = f
        · subst hc; simpa [upd_ne _ _ hct] using sorted_addOut (r.sorted c) t es
        · simpa [upd_ne _ _ hc, upd_ne _ _ hct] using r.sorted c
    · by_cases hct : c = t
      · subst hct; simpa using nodup_insertKey (r.nodup c) f
      · by_cases hc : c = f
        · subst hc; simpa [upd_ne _ _ hct] using r.nodup c
        · simpa [upd_ne _ _ hc, upd_ne _ _ hct] using r.nodup c
    · by_cases hct : c = t
      · subst hct; simp [outTo, Ne.symm hft]
      · by_cases hc : c = f
        · subst hc; simp only [outTo, upd_ne _ _ hct, upd_same, find?_addOut (r.sorted c), true_and]
        · simp [outTo, upd_ne _ _ hc, upd_ne _ _ hct, hc]
    · by_cases hdt : d = t
      · subst hdt; simp [mem_insertKey]
      · by_cases hd : d = f
        · subst hd; simp [upd_ne _ _ hdt, hft]
        · simp [upd_ne _ _ hd, upd_ne _ _ hdt, hdt]

/-- Two optional lists of edges, joined. -/
def comb (a b : Option (List Edge)) : Option (List Edge) :=
  if a.isSome || b.isSome then some (a.getD [] ++ b.getD []) else none

theorem comb_isSome (a b : Option (List Edge)) : (comb a b).isSome = (a.isSome || b.isSome) := by
  unfold comb; cases a <;> cases b <;> rfl
theorem comb_getD (a b : Option (List Edge)) : (comb a b).getD [] = a.getD [] ++ b.getD [] := by
  unfold comb; cases a <;> cases b <;> rfl
@[simp] theorem comb_none (a : Option (List Edge)) : comb a none = a := by
  unfold comb; cases a <;> simp

theorem find?_snoc {m : OMap Nat (List Edge)} {p : Nat × List Edge} (h : OMap.Sorted (m ++ [p])) (x : Nat) :
    OMap.find? (m ++ [p]) x = if x = p.1 then some p.2 else OMap.find? m x := by
  by_cases hx : x = p.1
  · subst hx
    rw [if_pos rfl]
    exact OMap.find?_some_of_mem h (by simp)
  · rw [if_neg hx]
    clear h
    induction m with
    | nil => simp [OMap.find?, hx]
    | cons a t ih => simp only [List.cons_append, OMap.find?, ih]

/-- State in the first loop, after the keys of `done`. -/
structure Loop1 (s u : Nat) (st : State) (done : OMap Nat (List Edge)) (st' : State) : Prop where
  core : SameCore st st'
  score : ∀ c, (st'.C c).score = (st.C c).score
  reps : Reps st'
  outs : ∀ b, (st'.B b).outs = (st.B b).outs ++
    ((OMap.find? done s).getD []).filter fun e => decide (bundleOf st e.src = some b)
  out : ∀ c d, outTo st' c d = if c = s ∧ d ≠ s then comb (outTo st s d) (OMap.find? done d) else outTo st c d
  inn : ∀ c d, c ∈ (st'.C d).interIn ↔
    if (OMap.find? done d).isSome = true then (c ≠ u ∧ c ∈ (st.C d).interIn) ∨ (c = s ∧ d ≠ s) else c ∈ (st.C d).interIn

theorem loop1 {s u : Nat} (hsu : s ≠ u) (r : Reps st)
    (hin : ∀ d, (outTo st s d).isSome = true → s ∈ (st.C d).interIn) :
    ∀ (done : OMap Nat (List Edge)), OMap.Sorted done → (∀ p ∈ done, p.1 ≠ u) →
      ∃ st', done.foldlM (mergeOut s u) st = some st' ∧ Loop1 s u st done st' := by
  intro done
  induction done using List.reverseRecOn with
  | nil =>
    intro _ _
    refine ⟨st, rfl, SameCore.refl st, fun _ => rfl, r, fun b => ?_, fun c d => ?_, fun c d => ?_⟩
    · simp [OMap.find?]
    · simp only [OMap.find?, comb_none]
      split
      · rename_i h; rw [h.1]
      · rfl
    · simp [OMap.find?]
  | append_singleton done p ih =>
    intro hso hku
    obtain ⟨st1, e1, i⟩ := ih (List.pairwise_append.1 hso).1 (fun q hq => hku q (List.mem_append_left _ hq))
    obtain ⟨d, es⟩ := p
    have hdu : d ≠ u := hku (d, es) (by simp)
    have hnd : OMap.find? done d = none := by
      cases hf : OMap.find? done d with
      | none => rfl
      | some v =>
        have := (List.pairwise_append.1 hso).2.2 (d, v) (OMap.mem_of_find?_some hf) (d, es) (by simp)
        exact absurd this (by simp)
    rw [foldlM_snoc, e1]
    show ∃ st', mergeOut s u st1 (d, es) = some st' ∧ _
    unfold mergeOut
    rw [if_neg hdu]
    refine ⟨_, rfl, ?_⟩
    by_cases hds : d = s
    · subst hds
      have hmv : moveEdges st1 es d d = pushed st1 es := by unfold moveEdges; rw [if_pos rfl, pushAll_eq]
      simp only [hmv]
      refine ⟨i.core.trans ((pushed_core st1 es).trans ⟨rfl, rfl, rfl, fun _ => ⟨rfl, rfl, rfl, rfl, rfl, rfl⟩, fun c => ?_⟩),
        fun c => ?_, ⟨fun c => ?_, fun c => ?_⟩, fun b => ?_, fun c x => ?_, fun c x => ?_⟩
      · by_cases hc : c = d
        · subst hc; simp
        · simp [upd_ne _ _ hc]
      · rw [← i.score c]
        by_cases hc : c = d
        · subst hc; simp [pushed]
        · simp [upd_ne _ _ hc, pushed]
      · by_cases hc : c = d
        · subst hc; simpa [pushed] using i.reps.sorted c
        · simpa [upd_ne _ _ hc, pushed] using i.reps.sorted c
      · by_cases hc : c = d
        · subst hc; simpa [pushed] using (i.reps.nodup c).erase u
        · simpa [upd_ne _ _ hc, pushed] using i.reps.nodup c
      · rw [find?_snoc hso, if_pos rfl]
        show (st1.B b).outs ++ _ = _
        rw [i.outs b, hnd]
        simp only [Option.getD_none, List.filter_nil, List.append_nil, Option.getD_some]
        congr 2; funext e; rw [i.core.bundleOf]
      · have h1 : outTo { pushed st1 es with C := upd (pushed st1 es).C d { (pushed st1 es).C d with
            interIn := ((pushed st1 es).C d).interIn.erase u } } c x = outTo st1 c x := by
          by_cases hc : c = d
          · subst hc; simp [outTo, pushed]
          · simp [upd_ne _ _ hc, outTo, pushed]
        rw [h1, i.out]
        by_cases hx : c = d ∧ x ≠ d
        · rw [if_pos hx, if_pos hx, find?_snoc hso, if_neg hx.2]
        · rw [if_neg hx, if_neg hx]
      · rw [find?_snoc hso]
        by_cases hx : x = d
        · subst hx
          simp only [upd_same, if_true, Option.isSome_some]
          rw [show ((pushed st1 es).C x).interIn = (st1.C x).interIn from rfl, (i.reps.nodup x).mem_erase_iff, i.inn c x, hnd]
          simp
        · simp only [upd_ne _ _ hx, if_neg hx]
          exact i.inn c x
    · have hmv := moveEdges_moved i.reps es (f := s) (t := d) (fun h => hds h.symm) (by
        rw [i.out, if_pos ⟨rfl, hds⟩, hnd, comb_none, i.inn, hnd]
        exact hin d)
      generalize moveEdges st1 es s d = st2 at hmv ⊢
      refine ⟨i.core.trans (hmv.core.trans ⟨rfl, rfl, rfl, fun _ => ⟨rfl, rfl, rfl, rfl, rfl, rfl⟩, fun c => ?_⟩),
        fun c => ?_, ⟨fun c => ?_, fun c => ?_⟩, fun b => ?_, fun c x => ?_, fun c x => ?_⟩
      · by_cases hc : c = d
        · subst hc; simp
        · simp [upd_ne _ _ hc]
      · rw [← i.score c, ← hmv.score c]
        by_cases hc : c = d
        · subst hc; simp
        · simp [upd_ne _ _ hc]
      · by_cases hc : c = d
        · subst hc; simpa using hmv.reps.sorted c
        · simpa [upd_ne _ _ hc] using hmv.reps.sorted c
      · by_cases hc : c = d
        · subst hc; simpa using (hmv.reps.nodup c).erase u
        · simpa [upd_ne _ _ hc] using hmv.reps.nodup c
      · rw [find?_snoc hso, if_neg (fun h => hds h.symm)]
        show (st2.B b).outs = _
        rw [hmv.B, i.outs b]
      · have h1 : outTo { st2 with C := upd st2.C d { st2.C d with interIn := (st2.C d).interIn.erase u } } c x =
            outTo st2 c x := by
          by_cases hc : c = d
          · subst hc; simp [outTo]
          · simp [upd_ne _ _ hc, outTo]
        rw [h1, hmv.out, i.out, i.out, if_pos (⟨rfl, hds⟩ : s = s ∧ d ≠ s), hnd, comb_none, find?_snoc hso]
        by_cases hx : x = d
        · subst hx
          by_cases hc : c = s
          · subst hc; simp [hds, comb]
          · simp [hc]
        · simp [hx]
      · rw [find?_snoc hso]
        by_cases hx : x = d
        · subst hx
          simp only [upd_same, if_true, Option.isSome_some]
          rw [(hmv.reps.nodup x).mem_erase_iff, hmv.inn, i.inn, hnd]
          simp only [Option.isSome_none, Bool.false_eq_true, if_false]
          constructor
          · rintro ⟨h1, h2 | h2⟩
            · exact .inl ⟨h1, h2⟩
            · exact .inr ⟨h2.1, hds⟩
          · rintro (h | h)
            · exact ⟨h.1, .inl h.2⟩
            · exact ⟨h.1 ▸ hsu, .inr ⟨h.1, trivial⟩⟩
        · simp only [upd_ne _ _ hx, if_neg hx]
          rw [hmv.inn, i.inn]
          simp [hx]

/-- State in the second loop, after the chains of `done`. -/
structure Loop2 (s u : Nat) (st : State) (done : List Nat) (st' : State) : Prop where
  core : SameCore st st'
  score : ∀ c, (st'.C c).score = (st.C c).score
  reps : Reps st'
  outs : ∀ b, (st'.B b).outs = (st.B b).outs ++
    (if s ∈ done then (outTo st s u).getD [] else []).filter fun e => decide (bundleOf st e.src = some b)
  out : ∀ c d, outTo st' c d =
    if c ∈ done then
      if d = u then none
      else if d = s ∧ c ≠ s then comb (outTo st c s) (outTo st c u)
      else outTo st c d
    else outTo st c d
  inn : ∀ c d, c ∈ (st'.C d).interIn ↔ c ∈ (st.C d).interIn ∨ (d = s ∧ c ∈ done ∧ c ≠ s)

theorem loop2 {s u : Nat} (hsu : s ≠ u) (r : Reps st) :
    ∀ (done : List Nat), done.Nodup → (∀ c ∈ done, c ≠ u ∧ (outTo st c u).isSome = true ∧
      ((outTo st c s).isSome = true → c ∈ (st.C s).interIn)) →
      ∃ st', done.foldlM (mergeIn s u) st = some st' ∧ Loop2 s u st done st' := by
  intro done
  induction done using List.reverseRecOn with
  | nil =>
    intro _ _
    exact ⟨st, rfl, SameCore.refl st, fun _ => rfl, r, fun b => by simp, fun c d => by simp, fun c d => by simp⟩
  | append_singleton done x ih =>
    intro hnd hk
    have hx : x ∉ done := fun h => (List.nodup_append.1 hnd).2.2 x h x (by simp) rfl
    obtain ⟨st1, e1, i⟩ := ih (List.nodup_append.1 hnd).1 (fun q hq => hk q (List.mem_append_left _ hq))
    obtain ⟨hxu, hxs, hin⟩ := hk x (by simp)
    obtain ⟨es, hes⟩ := Option.isSome_iff_exists.1 hxs
    have hes1 : outTo st1 x u = some es := by rw [i.out, if_neg hx, hes]
    rw [foldlM_snoc, e1]
    show ∃ st', mergeIn s u st1 x = some st' ∧ _
    unfold mergeIn
    rw [if_neg hxu, show OMap.find? (st1.C x).interOut u = some es from hes1]
    refine ⟨_, rfl, ?_⟩
    by_cases hs : x = s
    · subst hs
      have hmv : moveEdges st1 es x x = pushed st1 es := by unfold moveEdges; rw [if_pos rfl, pushAll_eq]
      simp only [hmv]
      refine ⟨i.core.trans ((pushed_core st1 es).trans ⟨rfl, rfl, rfl, fun _ => ⟨rfl, rfl, rfl, rfl, rfl, rfl⟩, fun c => ?_⟩),
        fun c => ?_, ⟨fun c => ?_, fun c => ?_⟩, fun b => ?_, fun c d => ?_, fun c d => ?_⟩
      · by_cases hc : c = x
        · subst hc; simp
        · simp [upd_ne _ _ hc]
      · rw [← i.score c]
        by_cases hc : c = x
        · subst hc; simp [pushed]
        · simp [upd_ne _ _ hc, pushed]
      · by_cases hc : c = x
        · subst hc; simpa [pushed] using (i.reps.sorted c).erase u
        · simpa [upd_ne _ _ hc, pushed] using i.reps.sorted c
      · by_cases hc : c = x
        · subst hc; simpa [pushed] using i.reps.nodup c
        · simpa [upd_ne _ _ hc, pushed] using i.reps.nodup c
      · show (st1.B b).outs ++ _ = _
        rw [i.outs b, if_neg hx, hes]
        simp only [List.filter_nil, List.append_nil, Option.getD_some, List.mem_append, List.mem_singleton, or_true, if_true]
        congr 2; funext e; rw [i.core.bundleOf]
      · by_cases hc : c = x
        · subst hc
          have h1 : outTo { pushed st1 es with C := upd (pushed st1 es).C c { (pushed st1 es).C c with
            interOut := OMap.erase u ((pushed st1 es).C c).interOut } } c d = if d = u then none else outTo st1 c d := by
            simp only [outTo, upd_same]
            exact OMap.find?_erase (i.reps.sorted c) u d
          rw [h1, i.out, if_neg hx]
          simp
        · have h1 : outTo { pushed st1 es with C := upd (pushed st1 es).C x { (pushed st1 es).C x with
            interOut := OMap.erase u ((pushed st1 es).C x).interOut } } c d = outTo st1 c d := by
            simp [outTo, upd_ne _ _ hc, pushed]
          rw [h1, i.out]
          simp [hc]
      · have h1 : (upd (pushed st1 es).C x { (pushed st1 es).C x with
            interOut := OMap.erase u ((pushed st1 es).C x).interOut } d).interIn = (st1.C d).interIn := by
          by_cases hd : d = x
          · subst hd; simp [pushed]
          · simp [upd_ne _ _ hd, pushed]
        show c ∈ (upd (pushed st1 es).C x _ d).interIn ↔ _
        rw [h1, i.inn]
        simp only [List.mem_append, List.mem_singleton]
        constructor
        · rintro (h | h)
          · exact .inl h
          · exact .inr ⟨h.1, .inl h.2.1, h.2.2⟩
        · rintro (h | ⟨h1, h2 | h2, h3⟩)
          · exact .inl h
          · exact .inr ⟨h1, h2, h3⟩
          · exact absurd h2 h3
    · have hmv := moveEdges_moved i.reps es (f := x) (t := s) hs (by
        rw [i.out, if_neg hx, i.inn]
        exact fun h => .inl (hin h))
      generalize moveEdges st1 es x s = st2 at hmv ⊢
      refine ⟨i.core.trans (hmv.core.trans ⟨rfl, rfl, rfl, fun _ => ⟨rfl, rfl, rfl, rfl, rfl, rfl⟩, fun c => ?_⟩),
        fun c => ?_, ⟨fun c => ?_, fun c => ?_⟩, fun b => ?_, fun c d => ?_, fun c d => ?_⟩
      · by_cases hc : c = x
        · subst hc; simp
        · simp [upd_ne _ _ hc]
      · rw [← i.score c, ← hmv.score c]
        by_cases hc : c = x
        · subst hc; simp
        · simp [upd_ne _ _ hc]
      · by_cases hc : c = x
        · subst hc; simpa using (hmv.reps.sorted c).erase u
        · simpa [upd_ne _ _ hc] using hmv.reps.sorted c
      · by_cases hc : c = x
        · subst hc; simpa using hmv.reps.nodup c
        · simpa [upd_ne _ _ hc] using hmv.reps.nodup c
      · show (st2.B b).outs = _
        rw [hmv.B, i.outs b]
        simp [Ne.symm hs]
      · by_cases hc : c = x
        · subst hc
          have h1 : outTo { st2 with C := upd st2.C c { st2.C c with interOut := OMap.erase u (st2.C c).interOut } } c d =
              if d = u then none else outTo st2 c d := by
            simp only [outTo, upd_same]
            exact OMap.find?_erase (hmv.reps.sorted c) u d
          rw [h1, hmv.out, i.out, i.out, if_neg hx, if_neg hx]
          by_cases hdu : d = u
          · simp [hdu]
          · by_cases hds : d = s
            · subst hds; simp [hdu, hs, comb, hes]
            · simp [hdu, hds]
        · have h1 : outTo { st2 with C := upd st2.C x { st2.C x with interOut := OMap.erase u (st2.C x).interOut } } c d =
              outTo st2 c d := by
            simp [outTo, upd_ne _ _ hc]
          rw [h1, hmv.out, if_neg (fun h => hc h.1), i.out]
          simp [hc]
      · have h1 : (upd st2.C x { st2.C x with interOut := OMap.erase u (st2.C x).interOut } d).interIn = (st2.C d).interIn := by
          by_cases hd : d = x
          · subst hd; simp
          · simp [upd_ne _ _ hd]
        show c ∈ (upd st2.C x _ d).interIn ↔ _
        rw [h1, hmv.inn, i.inn]
        simp only [List.mem_append, List.mem_singleton]
        constructor
        · rintro ((h | h) | h)
          · exact .inl h
          · exact .inr ⟨h.1, .inl h.2.1, h.2.2⟩
          · exact .inr ⟨h.2, .inr h.1, h.1 ▸ hs⟩
        · rintro (h | ⟨h1, h2 | h2, h3⟩)
          · exact .inl (.inl h)
          · exact .inl (.inr ⟨h1, h2, h3⟩)
          · exact .inr ⟨h2, h1⟩

/-- The maps of edges between live chains are consistent. -/
structure MapsOk (st : State) : Prop where
  reps : Reps st
  keys : ∀ c ∈ st.chains, ∀ d, (outTo st c d).isSome = true → d ∈ st.chains ∧ c ≠ d
  inn : ∀ d ∈ st.chains, ∀ c, c ∈ (st.C d).interIn ↔ c ∈ st.chains ∧ (outTo st c d).isSome = true

/-- What `MergeChainEdges` does: no check fails; edges to or from `u` become edges to or from `s`; edges between the two
chains go to the bundles. -/
structure Joined (st : State) (s u : Nat) (st' : State) : Prop where
  core : SameCore st st'
  score : ∀ c, (st'.C c).score = (st.C c).score
  reps : Reps st'
  outU : ∀ d, outTo st' u d = outTo st u d
  innU : ∀ c, c ∈ (st'.C u).interIn ↔ c ∈ (st.C u).interIn
  outs : ∀ b, (st'.B b).outs = (st.B b).outs ++ ((outTo st u s).getD [] ++ (outTo st s u).getD []).filter fun e =>
    decide (bundleOf st e.src = some b)
  out : ∀ c ∈ st.chains, c ≠ u → ∀ d, outTo st' c d =
    if d = u then none
    else if c = s then comb (outTo st s d) (if d = s then none else outTo st u d)
    else if d = s then comb (outTo st c s) (outTo st c u)
    else outTo st c d
  keys : ∀ c ∈ st.chains, c ≠ u → ∀ d, (outTo st' c d).isSome = true → d ∈ st.chains ∧ d ≠ u ∧ c ≠ d
  inn : ∀ d ∈ st.chains, d ≠ u → ∀ c, c ∈ (st'.C d).interIn ↔ (c ∈ st.chains ∧ c ≠ u) ∧ (outTo st' c d).isSome = true

theorem mergeEdges_joined {s u : Nat} (m : MapsOk st) (hs : s ∈ st.chains) (hu : u ∈ st.chains) (hsu : s ≠ u) :
    ∃ st', mergeEdges st s u = some st' ∧ Joined st s u st' := by
  have hsin : ∀ d, (outTo st s d).isSome = true → s ∈ (st.C d).interIn := fun d h =>
    (m.inn d (m.keys s hs d h).1 s).2 ⟨hs, h⟩
  obtain ⟨st1, e1, i1⟩ := loop1 hsu m.reps hsin (st.C u).interOut (m.reps.sorted u) (fun p hp he => by
    have := (m.keys u hu p.1 (by rw [outTo, OMap.find?_some_of_mem (m.reps.sorted u) hp]; rfl)).2
    exact this he.symm)
  have hone : ∀ d, OMap.find? (st.C u).interOut d = outTo st u d := fun d => rfl
  have huu : outTo st u u = none := by
    cases h : outTo st u u with
    | none => rfl
    | some v => exact absurd rfl (m.keys u hu u (by rw [h]; rfl)).2
  have hss : outTo st s s = none := by
    cases h : outTo st s s with
    | none => rfl
    | some v => exact absurd rfl (m.keys s hs s (by rw [h]; rfl)).2
  have hinu : (st1.C u).interIn.Nodup := i1.reps.nodup u
  have hmu : ∀ c, c ∈ (st1.C u).interIn ↔ c ∈ st.chains ∧ (outTo st c u).isSome = true := fun c => by
    rw [i1.inn, hone, huu]; simp only [Option.isSome_none, Bool.false_eq_true, if_false]; exact m.inn u hu c
  have hou : ∀ c, outTo st1 c u = outTo st c u := fun c => by
    rw [i1.out, hone, huu, comb_none]
    split
    · rename_i h; rw [h.1]
    · rfl
  have hins : ∀ c, c ∈ (st1.C s).interIn ↔ c ≠ u ∧ c ∈ st.chains ∧ (outTo st c s).isSome = true := fun c => by
    rw [i1.inn, hone, m.inn s hs]
    split
    · simp
    · rename_i h
      constructor
      · rintro ⟨h1, h2⟩
        exact ⟨fun he => h (he ▸ h2), h1, h2⟩
      · exact fun h => h.2
  obtain ⟨st2, e2, i2⟩ := loop2 (st := st1) hsu i1.reps (st1.C u).interIn hinu (fun c hc => by
      have := (hmu c).1 hc
      have hcu := (m.keys c this.1 u this.2).2
      refine ⟨hcu, by rw [hou]; exact this.2, fun h => ?_⟩
      rw [i1.out, if_neg (by simp)] at h
      exact (hins c).2 ⟨hcu, this.1, h⟩)
  have hout : ∀ c ∈ st.chains, c ≠ u → ∀ d, outTo st2 c d =
      if d = u then none
      else if c = s then comb (outTo st s d) (if d = s then none else outTo st u d)
      else if d = s then comb (outTo st c s) (outTo st c u)
      else outTo st c d := by
    intro c hc hcu d
    rw [i2.out]
    by_cases hdu : d = u
    · subst hdu
      simp only [if_true]
      split
      · rfl
      · rename_i h
        rw [hou]
        rw [hmu] at h
        cases ho : outTo st c d with
        | none => rfl
        | some v => exact absurd ⟨hc, by rw [ho]; rfl⟩ h
    · simp only [if_neg hdu]
      by_cases hcs : c = s
      · subst hcs
        simp only [ne_eq, not_true_eq_false, and_false, if_false, ite_self, if_true]
        rw [i1.out, hone]
        by_cases hds : d = c
        · subst hds; simp
        · simp [hds]
      · have hx : ∀ x, outTo st1 c x = outTo st c x := fun x => by
          rw [i1.out, if_neg (fun h => hcs h.1)]
        simp only [hx, if_neg hcs]
        by_cases hds : d = s
        · subst hds
          simp only [ne_eq, hcs, not_false_eq_true, and_self, if_true]
          split
          · rfl
          · rename_i h
            rw [hmu] at h
            cases ho : outTo st c u with
            | none => simp
            | some v => exact absurd ⟨hc, by rw [ho]; rfl⟩ h
        · simp [hds]
  have hoU : ∀ d, outTo st2 u d = outTo st u d := fun d => by
    rw [i2.out, if_neg (by rw [hmu, huu]; simp), i1.out, if_neg (fun h => hsu h.1.symm)]
  have hiU : ∀ c, c ∈ (st2.C u).interIn ↔ c ∈ (st.C u).interIn := fun c => by
    rw [i2.inn, hmu, m.inn u hu]
    constructor
    · rintro (h | ⟨h, _⟩)
      · exact h
      · exact absurd h.symm hsu
    · exact fun h => .inl h
  refine ⟨st2, ?_, i1.core.trans i2.core, fun c => (i2.score c).trans (i1.score c), i2.reps, hoU, hiU, fun b => ?_, hout, ?_, ?_⟩
  · unfold mergeEdges
    rw [e1]; exact e2
  · rw [i2.outs, i1.outs, hone, hou, List.filter_append, List.append_assoc]
    congr 2
    have : (if s ∈ (st1.C u).interIn then (outTo st s u).getD [] else []) = (outTo st s u).getD [] := by
      split
      · rfl
      · rename_i h
        rw [hmu] at h
        cases ho : outTo st s u with
        | none => rfl
        | some v => exact absurd ⟨hs, by rw [ho]; rfl⟩ h
    rw [this]
    congr 1; funext e; rw [i1.core.bundleOf]
  · intro c hc hcu d hd
    rw [hout c hc hcu] at hd
    split at hd
    · cases hd
    · rename_i hdu
      split at hd
      · rename_i hcs
        subst hcs
        rw [comb_isSome, Bool.or_eq_true] at hd
        rcases hd with hd | hd
        · have := m.keys c hc d hd
          exact ⟨this.1, hdu, this.2⟩
        · split at hd
          · cases hd
          · rename_i hds
            exact ⟨(m.keys u hu d hd).1, hdu, fun h => hds h.symm⟩
      · split at hd
        · rename_i hcs hds
          subst hds
          exact ⟨hs, hdu, hcs⟩
        · have := m.keys c hc d hd
          exact ⟨this.1, hdu, this.2⟩
  · intro d hd hdu c
    have hL1 : c ∈ (st2.C d).interIn ↔ c ∈ (st1.C d).interIn ∨ (d = s ∧ c ∈ st.chains ∧ (outTo st c u).isSome = true ∧ c ≠ s) := by
      rw [i2.inn, hmu]
      simp only [and_assoc]
    rw [hL1]
    by_cases hds : d = s
    · subst hds
      rw [hins]
      constructor
      · rintro (⟨h1, h2, h3⟩ | ⟨_, h2, h3, h4⟩)
        · refine ⟨⟨h2, h1⟩, ?_⟩
          rw [hout c h2 h1, if_neg hdu]
          split
          · rename_i hc
            subst hc; rw [hss] at h3; cases h3
          · rw [if_pos rfl, comb_isSome, h3]; rfl
        · have hcu := (m.keys c h2 u h3).2
          refine ⟨⟨h2, hcu⟩, ?_⟩
          rw [hout c h2 hcu, if_neg hdu, if_neg h4, if_pos rfl, comb_isSome, h3, Bool.or_true]
      · rintro ⟨⟨h1, h2⟩, h3⟩
        rw [hout c h1 h2, if_neg hdu] at h3
        split at h3
        · rename_i hc; subst hc; rw [hss] at h3; simp at h3
        · rename_i hc
          rw [if_pos rfl, comb_isSome, Bool.or_eq_true] at h3
          rcases h3 with h3 | h3
          · exact .inl ⟨h2, h1, h3⟩
          · exact .inr ⟨rfl, h1, h3, hc⟩
    · rw [i1.inn, hone, m.inn d hd]
      simp only [hds, false_and, or_false]
      have hcs : ∀ c, c ∈ st.chains → c ≠ u → c ≠ s → outTo st2 c d = outTo st c d := fun c h1 h2 h3 => by
        rw [hout c h1 h2, if_neg hdu, if_neg h3, if_neg hds]
      have hs2 : outTo st2 s d = comb (outTo st s d) (outTo st u d) := by
        rw [hout s hs hsu, if_neg hdu, if_pos rfl, if_neg hds]
      split
      · rename_i hud
        constructor
        · rintro (⟨h1, h2, h3⟩ | ⟨h1, _⟩)
          · refine ⟨⟨h2, h1⟩, ?_⟩
            by_cases hc : c = s
            · subst hc; rw [hs2, comb_isSome, h3]; rfl
            · rw [hcs c h2 h1 hc]; exact h3
          · subst h1
            exact ⟨⟨hs, hsu⟩, by rw [hs2, comb_isSome, hud, Bool.or_true]⟩
        · rintro ⟨⟨h1, h2⟩, h3⟩
          by_cases hc : c = s
          · exact .inr ⟨hc, hds⟩
          · rw [hcs c h1 h2 hc] at h3
            exact .inl ⟨h2, h1, h3⟩
      · rename_i hud
        have hud' : outTo st u d = none := by
          cases ho : outTo st u d with
          | none => rfl
          | some v => exact absurd (by rw [ho]; rfl) hud
        constructor
        · rintro ⟨h1, h2⟩
          have hcu : c ≠ u := fun he => hud (he ▸ h2)
          refine ⟨⟨h1, hcu⟩, ?_⟩
          by_cases hc : c = s
          · subst hc; rw [hs2, comb_isSome, h2]; rfl
          · rw [hcs c h1 hcu hc]; exact h2
        · rintro ⟨⟨h1, h2⟩, h3⟩
          by_cases hc : c = s
          · subst hc; rw [hs2, hud', comb_none] at h3; exact ⟨h1, h3⟩
          · rw [hcs c h1 h2 hc] at h3; exact ⟨h1, h3⟩

end Verif.Chain

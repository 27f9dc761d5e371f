import Verif.ChainEdgesMove
import Mathlib.Tactic.Linarith
import Mathlib.Tactic.Abel

/-! # C30: recorded edges and scores are those of the layout, after any merge -/
namespace Verif.Chain
open Verif

section
variable {P : Nodes} {st : State}

theorem chainOf_iff (w : WF P st) (n c : Nat) : chainOf st n = some c ↔ c ∈ st.chains ∧ n ∈ nodesOf st c := by
  constructor
  · intro h
    rw [chainOf, Option.map_eq_some_iff] at h
    obtain ⟨⟨b, off⟩, hl, hc⟩ := h
    obtain ⟨c', hc', hn⟩ := mem_allNodes.1 (w.loc n b off hl)
    obtain ⟨b', hb', hn'⟩ := mem_nodesIn.1 hn
    obtain ⟨j, hj⟩ := List.mem_iff_getElem?.1 hn'
    have := (w.bundle c' hc' b' hb').loc j n hj
    rw [hl] at this; cases this
    have : c' = c := by rw [← hc]; exact ((w.placed c' hc').chain b hb').symm
    subst this; exact ⟨hc', hn⟩
  · rintro ⟨hc, hn⟩
    obtain ⟨b, hb, hn⟩ := mem_nodesIn.1 hn
    obtain ⟨j, hj⟩ := List.mem_iff_getElem?.1 hn
    rw [chainOf, (w.bundle c hc b hb).loc j n hj]
    show some (st.B b).chain = _
    rw [(w.placed c hc).chain b hb]

theorem bundleOf_iff (w : WF P st) {c b : Nat} (hc : c ∈ st.chains) (hb : b ∈ (st.C c).bundles) (n : Nat) :
    bundleOf st n = some b ↔ n ∈ (st.B b).nodes := by
  constructor
  · intro h
    rw [bundleOf, Option.map_eq_some_iff] at h
    obtain ⟨⟨b1, off⟩, hl, hc1⟩ := h
    simp only at hc1; subst hc1
    obtain ⟨c', hc', hn⟩ := mem_allNodes.1 (w.loc n b1 off hl)
    obtain ⟨b', hb', hn'⟩ := mem_nodesIn.1 hn
    obtain ⟨j, hj⟩ := List.mem_iff_getElem?.1 hn'
    have := (w.bundle c' hc' b' hb').loc j n hj
    rw [hl] at this; cases this
    exact hn'
  · intro hn
    obtain ⟨j, hj⟩ := List.mem_iff_getElem?.1 hn
    rw [bundleOf, (w.bundle c hc b hb).loc j n hj]; rfl

theorem chainOf_of_bundleOf (w : WF P st) {c b n : Nat} (hc : c ∈ st.chains) (hb : b ∈ (st.C c).bundles)
    (h : bundleOf st n = some b) : chainOf st n = some c :=
  (chainOf_iff w n c).2 ⟨hc, mem_nodesIn.2 ⟨b, hb, (bundleOf_iff w hc hb n).1 h⟩⟩

theorem bundleOf_of_chainOf (w : WF P st) {c n : Nat} (h : chainOf st n = some c) :
    ∃ b ∈ (st.C c).bundles, bundleOf st n = some b := by
  obtain ⟨hc, hn⟩ := (chainOf_iff w n c).1 h
  obtain ⟨b, hb, hn⟩ := mem_nodesIn.1 hn
  exact ⟨b, hb, (bundleOf_iff w hc hb n).2 hn⟩

theorem WF.bundles_nodup (w : WF P st) {c : Nat} (hc : c ∈ st.chains) : (st.C c).bundles.Nodup :=
  nodup_of_nodesIn (fun b hb => (w.bundle c hc b hb).ne) (w.toWF0.nodup hc)

end

/-! ### Lists -/

theorem filter_or_perm {α : Type} (l : List α) (p q : α → Bool) (h : ∀ a ∈ l, p a = true → q a = false) :
    (l.filter p ++ l.filter q).Perm (l.filter fun a => p a || q a) := by
  induction l with
  | nil => simp
  | cons a t ih =>
    have iht := ih fun x hx => h x (List.mem_cons_of_mem _ hx)
    cases hp : p a with
    | true =>
      have hq := h a (by simp) hp
      simp only [List.filter_cons, hp, hq, Bool.true_or, if_true, Bool.false_eq_true, if_false, List.cons_append]
      exact iht.cons a
    | false =>
      cases hq : q a with
      | true =>
        simp only [List.filter_cons, hp, hq, Bool.false_or, if_true, Bool.false_eq_true, if_false]
        exact List.perm_middle.trans (iht.cons a)
      | false =>
        simp only [List.filter_cons, hp, hq, Bool.false_or, Bool.false_eq_true, if_false]
        exact iht

theorem flatMap_filter_perm {α : Type} (l : List α) (f : α → Option Nat) (r : α → Bool) : ∀ ps : List Nat, ps.Nodup →
    (ps.flatMap fun p => l.filter fun a => decide (f a = some p) && r a).Perm
      (l.filter fun a => decide (∃ p ∈ ps, f a = some p) && r a) := by
  intro ps
  induction ps with
  | nil => intro _; simp
  | cons p t ih =>
    intro h
    obtain ⟨h1, h2⟩ := List.nodup_cons.1 h
    rw [List.flatMap_cons]
    refine ((ih h2).append_left _).trans ((filter_or_perm l _ _ ?_).trans ?_)
    · intro a _ ha
      simp only [Bool.and_eq_true, decide_eq_true_eq] at ha
      simp only [Bool.and_eq_false_imp, decide_eq_true_eq]
      rintro ⟨p', hp', he⟩
      rw [ha.1] at he; cases he; exact absurd hp' h1
    · refine List.Perm.of_eq (List.filter_congr fun a _ => ?_)
      rw [← Bool.and_or_distrib_right]
      congr 1
      simp [Bool.decide_or]

theorem sumOn_perm {α : Type} (f : α → Rat) {l l' : List α} (h : l.Perm l') : sumOn f l = sumOn f l' := (h.map f).sum_eq
theorem sumOn_append {α : Type} (f : α → Rat) (l l' : List α) : sumOn f (l ++ l') = sumOn f l + sumOn f l' := by
  simp [sumOn]
theorem sumOn_nil {α : Type} (f : α → Rat) : sumOn f [] = 0 := rfl
theorem sumOn_cons {α : Type} (f : α → Rat) (a : α) (l : List α) : sumOn f (a :: l) = f a + sumOn f l := by
  simp [sumOn]
theorem sumOn_flatMap {α β : Type} (f : β → Rat) (g : α → List β) (l : List α) :
    sumOn f (l.flatMap g) = sumOn (fun a => sumOn f (g a)) l := by
  induction l with
  | nil => rfl
  | cons a t ih => rw [List.flatMap_cons, sumOn_append, sumOn_cons, ih]
theorem sumOn_congr {α : Type} {f g : α → Rat} {l : List α} (h : ∀ a ∈ l, f a = g a) : sumOn f l = sumOn g l := by
  rw [sumOn, sumOn, List.map_congr_left h]
theorem sumOn_split {α : Type} (f : α → Rat) (p : α → Bool) (l : List α) :
    sumOn f l = sumOn f (l.filter p) + sumOn f (l.filter fun a => !p a) := by
  induction l with
  | nil => simp [sumOn]
  | cons a t ih =>
    rw [sumOn_cons, ih]
    cases hp : p a
    · simp only [List.filter_cons, hp, Bool.false_eq_true, if_false, Bool.not_false, if_true, sumOn_cons]; ring
    · simp only [List.filter_cons, hp, Bool.not_true, if_true, Bool.false_eq_true, if_false, sumOn_cons]; ring
theorem sumOn_sub {α : Type} (f g : α → Rat) (l : List α) : sumOn f l - sumOn g l = sumOn (fun a => f a - g a) l := by
  induction l with
  | nil => simp [sumOn]
  | cons a t ih => rw [sumOn_cons, sumOn_cons, sumOn_cons, ← ih]; ring

/-! ### The invariant -/

/-- The edges `E` are recorded where they run: between chains, or in the bundle of their source. -/
structure EdgesOk (E : List Edge) (st : State) : Prop where
  maps : MapsOk st
  ends : ∀ e ∈ E, e.src ∈ allNodes st ∧ e.sink ∈ allNodes st
  inter : ∀ c ∈ st.chains, ∀ d ∈ st.chains, c ≠ d → ((outTo st c d).getD []).Perm
    (E.filter fun e => decide (chainOf st e.src = some c) && decide (chainOf st e.sink = some d))
  intra : ∀ c ∈ st.chains, ∀ b ∈ (st.C c).bundles, (st.B b).outs.Perm
    (E.filter fun e => decide (bundleOf st e.src = some b) &&
      (decide (chainOf st e.sink = some c) && decide (bundleOf st e.sink ≠ some b)))

variable {P : Nodes} {st : State} {E : List Edge}

/-- The recorded edges within chains are sorted by the place of their sink (`SortIntraChainEdges`). -/
def OutsSorted (st : State) : Prop :=
  ∀ c ∈ st.chains, ∀ b ∈ (st.C c).bundles, (st.B b).outs.Pairwise fun e e' => sinkIdx st e ≤ sinkIdx st e'

/-- Everything `mergeNodes` does to bundles. -/
theorem mergeNodes_groups (w : WF P st) {s u : Nat} (hs : s ∈ st.chains) (hu : u ∈ st.chains) (hne : s ≠ u)
    (rb : Bool) (o : Order) :
    ∃ parts : Nat → List Nat,
      ((mergeNodes P rb o st s u).C s).bundles.flatMap parts = mergedBundles o st s u ∧
      (∀ b ∈ ((mergeNodes P rb o st s u).C s).bundles, (parts b).head? = some b ∧
        ((mergeNodes P rb o st s u).B b).nodes = nodesIn st.B (parts b) ∧
        ((mergeNodes P rb o st s u).B b).outs = (parts b).flatMap fun p => (st.B p).outs) ∧
      (∀ b, b ∉ mergedBundles o st s u → (mergeNodes P rb o st s u).B b = st.B b) ∧
      (∀ n, n ∉ nodesIn st.B (mergedBundles o st s u) → (mergeNodes P rb o st s u).L n = st.L n) := by
  have hperm : (mergedBundles o st s u).Perm ((st.C s).bundles ++ (st.C u).bundles) := slices_perm o _ _
  have hmem : ∀ b, b ∈ mergedBundles o st s u ↔ b ∈ (st.C s).bundles ∨ b ∈ (st.C u).bundles := fun b => by
    rw [hperm.mem_iff, List.mem_append]
  have hnp : (nodesIn st.B (mergedBundles o st s u)).Perm (nodesOf st s ++ nodesOf st u) := by
    have := nodesIn_perm st.B hperm
    rwa [nodesIn_append] at this
  have hok : ∀ b ∈ mergedBundles o st s u, BundleOk P st.B st.L b := fun b hb => by
    rcases (hmem b).1 hb with hb | hb
    exacts [w.bundle s hs b hb, w.bundle u hu b hb]
  have hnd : (nodesIn st.B (mergedBundles o st s u)).Nodup := by
    have := (allNodes_perm st (w.split hs hu hne).1).nodup_iff.1 w.once
    simp only [List.flatMap_cons] at this
    rw [← List.append_assoc] at this
    exact (hnp.trans List.perm_append_comm).nodup_iff.2 (List.nodup_append.1 this).1
  obtain ⟨inv, _⟩ := mergeFold_inv P st.B st.L s rb (mergedBundles o st s u) hok hnd
  obtain ⟨parts, h1, h2⟩ := inv.group
  refine ⟨parts, ?_, ?_, inv.frame, inv.frameL⟩
  · rw [← h1]
    show List.flatMap parts (upd st.C s _ s).bundles = _
    rw [upd_same]; rfl
  · intro b hb
    have hb' : b ∈ ((mergedBundles o st s u).foldl (mergeStep P rb s) ⟨st.B, st.L, 0, 0, none, []⟩).merged := by
      replace hb : b ∈ (upd st.C s _ s).bundles := hb
      rw [upd_same] at hb; exact hb
    exact h2 b hb'

theorem mergeNodes_chainOf (w : WF P st) {s u : Nat} (hs : s ∈ st.chains) (hu : u ∈ st.chains) (hne : s ≠ u)
    (rb : Bool) (o : Order) (n : Nat) :
    chainOf (mergeNodes P rb o st s u) n = (chainOf st n).map fun c => if c = u then s else c := by
  obtain ⟨w2, hp, hns, hno⟩ := mergeNodes_spec w hs hu hne rb o
  have hch : (mergeNodes P rb o st s u).chains = st.chains.erase u := rfl
  have hin : n ∈ nodesOf (mergeNodes P rb o st s u) s ↔ n ∈ nodesOf st s ∨ n ∈ nodesOf st u := by
    rw [hns, mergedBundles, (nodesIn_perm st.B (slices_perm o (st.C s).bundles (st.C u).bundles)).mem_iff, nodesIn_append, List.mem_append]
    rfl
  rcases Option.eq_none_or_eq_some (chainOf st n) with h | ⟨c, h⟩
  · rw [h]
    rcases Option.eq_none_or_eq_some (chainOf (mergeNodes P rb o st s u) n) with h' | ⟨c, h'⟩
    · exact h'
    · obtain ⟨h1, h2⟩ := (chainOf_iff w2 n c).1 h'
      have : n ∈ allNodes st := hp.mem_iff.1 (mem_allNodes.2 ⟨c, h1, h2⟩)
      obtain ⟨d, hd, hn⟩ := mem_allNodes.1 this
      rw [(chainOf_iff w n d).2 ⟨hd, hn⟩] at h; cases h
  · rw [h]
    obtain ⟨hc, hn⟩ := (chainOf_iff w n c).1 h
    show _ = some (if c = u then s else c)
    rw [chainOf_iff w2, hch, w.live.mem_erase_iff]
    split
    · rename_i hcu; subst hcu
      exact ⟨⟨hne, hs⟩, hin.2 (.inr hn)⟩
    · rename_i hcu
      refine ⟨⟨hcu, hc⟩, ?_⟩
      by_cases hcs : c = s
      · subst hcs; exact hin.2 (.inl hn)
      · rw [hno c hc hcs hcu]; exact hn

/-- The state between merging the bundles and removing edges within bundles. -/
structure Merged (E : List Edge) (st : State) (s u : Nat) (st2 : State) (parts : Nat → List Nat) : Prop where
  wf : WF P st2
  chains : st2.chains = st.chains.erase u
  maps : MapsOk st2
  ends : ∀ e ∈ E, e.src ∈ allNodes st2 ∧ e.sink ∈ allNodes st2
  chainOf : ∀ n, chainOf st2 n = (chainOf st n).map fun c => if c = u then s else c
  inter : ∀ c ∈ st2.chains, ∀ d ∈ st2.chains, c ≠ d → ((outTo st2 c d).getD []).Perm
    (E.filter fun e => decide (Chain.chainOf st2 e.src = some c) && decide (Chain.chainOf st2 e.sink = some d))
  partsPerm : ((st2.C s).bundles.flatMap parts).Perm ((st.C s).bundles ++ (st.C u).bundles)
  partsHead : ∀ b ∈ (st2.C s).bundles, (parts b).head? = some b
  bundleS : ∀ b ∈ (st2.C s).bundles, ∀ n, bundleOf st2 n = some b ↔ ∃ p ∈ parts b, bundleOf st n = some p
  bundleX : ∀ n c, Chain.chainOf st n = some c → c ≠ s → c ≠ u → bundleOf st2 n = bundleOf st n
  intraS : ∀ b ∈ (st2.C s).bundles, (st2.B b).outs.Perm
    (E.filter fun e => decide (bundleOf st2 e.src = some b) &&
      (decide (Chain.chainOf st2 e.sink = some s) && decide (bundleOf st e.sink ≠ bundleOf st e.src)))
  intraX : ∀ c ∈ st2.chains, c ≠ s → ∀ b ∈ (st2.C c).bundles, (st2.B b).outs.Perm
    (E.filter fun e => decide (bundleOf st2 e.src = some b) &&
      (decide (Chain.chainOf st2 e.sink = some c) && decide (bundleOf st2 e.sink ≠ some b)))
  scoreX : ∀ c ∈ st2.chains, (st2.C c).score = (st.C c).score
  outsX : ∀ c ∈ st2.chains, c ≠ s → ∀ b ∈ (st2.C c).bundles, b ∈ (st.C c).bundles ∧ (st2.B b).outs = (st.B b).outs
  sinkX : ∀ e c, Chain.chainOf st e.sink = some c → c ≠ s → c ≠ u → sinkIdx st2 e = sinkIdx st e

theorem merged_of (w : WF P st) (h : EdgesOk E st) {s u : Nat} (hs : s ∈ st.chains) (hu : u ∈ st.chains) (hne : s ≠ u)
    {st1 : State} (j : Joined st s u st1) (rb : Bool) (o : Order) :
    ∃ parts, Merged (P := P) E st s u (mergeNodes P rb o st1 s u) parts := by
  have w1 := j.core.wf w
  have hs1 : s ∈ st1.chains := by rw [j.core.chains]; exact hs
  have hu1 : u ∈ st1.chains := by rw [j.core.chains]; exact hu
  obtain ⟨w2, hp, hns, hno⟩ := mergeNodes_spec w1 hs1 hu1 hne rb o
  obtain ⟨parts, g1, g2, g3, g4⟩ := mergeNodes_groups w1 hs1 hu1 hne rb o
  have hco := mergeNodes_chainOf w1 hs1 hu1 hne rb o
  generalize hst2 : mergeNodes P rb o st1 s u = st2 at *
  have hch : st2.chains = st.chains.erase u := by rw [← hst2, ← j.core.chains]; rfl
  have hC : ∀ c, c ≠ s → st2.C c = st1.C c := fun c hc => by rw [← hst2]; exact upd_ne _ _ hc
  have hout : ∀ c d, outTo st2 c d = outTo st1 c d := fun c d => by
    by_cases hc : c = s
    · subst hc; rw [← hst2]; simp [outTo, mergeNodes]
    · rw [outTo, hC c hc]; rfl
  have hinn : ∀ c, (st2.C c).interIn = (st1.C c).interIn := fun c => by
    by_cases hc : c = s
    · subst hc; rw [← hst2]; simp [mergeNodes]
    · rw [hC c hc]
  have hinO : ∀ c, (st2.C c).interOut = (st1.C c).interOut := fun c => by
    by_cases hc : c = s
    · subst hc; rw [← hst2]; simp [mergeNodes]
    · rw [hC c hc]
  have hscore : ∀ c, (st2.C c).score = (st1.C c).score := fun c => by
    by_cases hc : c = s
    · subst hc; rw [← hst2]; simp [mergeNodes]
    · rw [hC c hc]
  have hmemc : ∀ c, c ∈ st2.chains ↔ c ≠ u ∧ c ∈ st.chains := fun c => by rw [hch, w.live.mem_erase_iff]
  have hco' : ∀ n, chainOf st2 n = (chainOf st n).map fun c => if c = u then s else c := fun n => by
    rw [hco, j.core.chainOf]
  have hcos : ∀ n, chainOf st2 n = some s ↔ chainOf st n = some s ∨ chainOf st n = some u := fun n => by
    rw [hco']
    rcases Option.eq_none_or_eq_some (chainOf st n) with h | ⟨c, h⟩
    · simp [h]
    · rw [h]; simp only [Option.map_some, Option.some.injEq]
      split
      · rename_i hc; simp [hc]
      · rename_i hc; simp [hc]
  have hcox : ∀ n c, c ≠ s → c ≠ u → (chainOf st2 n = some c ↔ chainOf st n = some c) := fun n c h1 h2 => by
    rw [hco']
    rcases Option.eq_none_or_eq_some (chainOf st n) with h | ⟨d, h⟩
    · simp [h]
    · rw [h]; simp only [Option.map_some, Option.some.injEq]
      split
      · rename_i hc; subst hc
        constructor
        · intro h; exact absurd h.symm h1
        · intro h; exact absurd h.symm h2
      · exact Iff.rfl
  have hpp : ((st2.C s).bundles.flatMap parts).Perm ((st.C s).bundles ++ (st.C u).bundles) := by
    rw [g1, ← j.core.bundles s, ← j.core.bundles u]; exact slices_perm o _ _
  have hpart : ∀ b ∈ (st2.C s).bundles, ∀ p ∈ parts b, p ∈ (st.C s).bundles ∨ p ∈ (st.C u).bundles := fun b hb p hpb => by
    have := hpp.mem_iff.1 (List.mem_flatMap.2 ⟨b, hb, hpb⟩)
    exact List.mem_append.1 this
  have hs2 : s ∈ st2.chains := (hmemc s).2 ⟨hne, hs⟩
  have hbun : ∀ p, p ∈ (st.C s).bundles ∨ p ∈ (st.C u).bundles → ∀ n, bundleOf st n = some p ↔ n ∈ (st.B p).nodes := by
    rintro p (hp | hp) n
    · exact bundleOf_iff w hs hp n
    · exact bundleOf_iff w hu hp n
  have hbs : ∀ b ∈ (st2.C s).bundles, ∀ n, bundleOf st2 n = some b ↔ ∃ p ∈ parts b, bundleOf st n = some p := by
    intro b hb n
    rw [bundleOf_iff w2 hs2 hb, (g2 b hb).2.1, mem_nodesIn]
    constructor
    · rintro ⟨p, hp, hn⟩
      rw [j.core.nodes] at hn
      exact ⟨p, hp, (hbun p (hpart b hb p hp) n).2 hn⟩
    · rintro ⟨p, hp, hn⟩
      exact ⟨p, hp, by rw [j.core.nodes]; exact (hbun p (hpart b hb p hp) n).1 hn⟩
  have hbx : ∀ n c, chainOf st n = some c → c ≠ s → c ≠ u → bundleOf st2 n = bundleOf st n := by
    intro n c hc h1 h2
    have hnn : n ∉ nodesIn st1.B (mergedBundles o st1 s u) := by
      rw [mergedBundles, (nodesIn_perm st1.B (slices_perm o (st1.C s).bundles (st1.C u).bundles)).mem_iff, nodesIn_append, List.mem_append,
        j.core.bundles, j.core.bundles, j.core.nodesIn, j.core.nodesIn]
      obtain ⟨hc1, hc2⟩ := (chainOf_iff w n c).1 hc
      rintro (hn | hn)
      · exact h1 (w.disjoint hc1 hs hc2 hn)
      · exact h2 (w.disjoint hc1 hu hc2 hn)
    rw [bundleOf, g4 n hnn, j.core.L]; rfl
  have hLx : ∀ n c, chainOf st n = some c → c ≠ s → c ≠ u → st2.L n = st.L n := by
    intro n c hc h1 h2
    have hnn : n ∉ nodesIn st1.B (mergedBundles o st1 s u) := by
      rw [mergedBundles, (nodesIn_perm st1.B (slices_perm o (st1.C s).bundles (st1.C u).bundles)).mem_iff, nodesIn_append, List.mem_append,
        j.core.bundles, j.core.bundles, j.core.nodesIn, j.core.nodesIn]
      obtain ⟨hc1, hc2⟩ := (chainOf_iff w n c).1 hc
      rintro (hn | hn)
      · exact h1 (w.disjoint hc1 hs hc2 hn)
      · exact h2 (w.disjoint hc1 hu hc2 hn)
    rw [g4 n hnn, j.core.L]
  have hBx : ∀ c, c ∈ st.chains → c ≠ s → c ≠ u → ∀ b ∈ (st.C c).bundles, st2.B b = st1.B b := by
    intro c hc hcs hcu b hb
    refine g3 b ?_
    rw [mergedBundles, (slices_perm o (st1.C s).bundles (st1.C u).bundles).mem_iff, List.mem_append, j.core.bundles, j.core.bundles]
    rintro (hn | hn)
    · exact hcs (w.bundle_chain hc hs hb hn)
    · exact hcu (w.bundle_chain hc hu hb hn)
  have hempt : ∀ c, c ∈ st.chains → c ≠ s → c ≠ u → ∀ b ∈ (st.C c).bundles,
      ((outTo st u s).getD [] ++ (outTo st s u).getD []).filter (fun e => decide (bundleOf st e.src = some b)) = [] := by
    intro c hc' hcs hcu b hb'
    rw [List.filter_eq_nil_iff]
    intro e he
    simp only [decide_eq_true_eq]
    intro hbe
    have hx := chainOf_of_bundleOf w hc' hb' hbe
    rcases List.mem_append.1 he with he | he
    · have := (h.inter u hu s hs (Ne.symm hne)).mem_iff.1 he
      simp only [List.mem_filter, Bool.and_eq_true, decide_eq_true_eq, hx] at this
      exact hcu (Option.some.inj this.2.1)
    · have := (h.inter s hs u hu hne).mem_iff.1 he
      simp only [List.mem_filter, Bool.and_eq_true, decide_eq_true_eq, hx] at this
      exact hcs (Option.some.inj this.2.1)
  -- edges out of the bundles of the two chains, after the edges between the two were moved
  have hOut : ∀ p, p ∈ (st.C s).bundles ∨ p ∈ (st.C u).bundles → (st1.B p).outs.Perm
      (E.filter fun e => decide (bundleOf st e.src = some p) &&
        (decide (chainOf st2 e.sink = some s) && decide (bundleOf st e.sink ≠ bundleOf st e.src))) := by
    intro p hp
    rw [j.outs]
    have key : ∀ c d, c ∈ st.chains → d ∈ st.chains → c ≠ d → p ∈ (st.C c).bundles →
        (∀ n, chainOf st2 n = some s ↔ chainOf st n = some c ∨ chainOf st n = some d) →
        ((st.B p).outs ++ ((outTo st c d).getD [] ).filter fun e => decide (bundleOf st e.src = some p)).Perm
        (E.filter fun e => decide (bundleOf st e.src = some p) &&
          (decide (chainOf st2 e.sink = some s) && decide (bundleOf st e.sink ≠ bundleOf st e.src))) ∧
        ((outTo st d c).getD []).filter (fun e => decide (bundleOf st e.src = some p)) = [] := by
      intro c d hc hd hcd hpc hcs
      constructor
      · refine ((h.intra c hc p hpc).append ((h.inter c hc d hd hcd).filter _)).trans ?_
        rw [List.filter_filter]
        refine (filter_or_perm _ _ _ ?_).trans (List.Perm.of_eq (List.filter_congr ?_))
        · intro e _ he
          simp only [Bool.and_eq_true, decide_eq_true_eq] at he
          simp only [Bool.and_eq_false_imp, Bool.and_eq_true, decide_eq_true_eq, decide_eq_false_iff_not]
          intro _ _ h2
          rw [he.2.1] at h2; cases h2; exact hcd rfl
        · intro e _
          by_cases hb : bundleOf st e.src = some p
          · have hcc := chainOf_of_bundleOf w hc hpc hb
            simp only [hb, hcc, decide_true, Bool.true_and, hcs]
            by_cases h1 : chainOf st e.sink = some c
            · have : ¬ c = d := hcd
              simp [h1, this]
            · by_cases h2 : chainOf st e.sink = some d
              · have h3 : bundleOf st e.sink ≠ some p := fun hb' => h1 (chainOf_of_bundleOf w hc hpc hb')
                have h4 : ¬ d = c := fun h => hcd h.symm
                simp [h2, h3, h4]
              · simp [h1, h2]
          · simp [hb]
      · rw [List.filter_eq_nil_iff]
        intro e he
        have := (h.inter d hd c hc (Ne.symm hcd)).mem_iff.1 he
        simp only [List.mem_filter, Bool.and_eq_true, decide_eq_true_eq] at this
        simp only [decide_eq_true_eq]
        intro hb
        rw [chainOf_of_bundleOf w hc hpc hb] at this
        exact hcd (Option.some.inj this.2.1)
    rcases hp with hp | hp
    · obtain ⟨k1, k2⟩ := key s u hs hu hne hp hcos
      rw [List.filter_append, k2, List.nil_append]; exact k1
    · obtain ⟨k1, k2⟩ := key u s hu hs (Ne.symm hne) hp (fun n => (hcos n).trans Or.comm)
      rw [List.filter_append, k2, List.append_nil]; exact k1
  have hpnd : ((st2.C s).bundles.flatMap parts).Nodup := by
    refine hpp.nodup_iff.2 (List.nodup_append.2 ⟨w.bundles_nodup hs, w.bundles_nodup hu, ?_⟩)
    rintro a ha b hb rfl
    exact hne (w.bundle_chain hs hu ha hb)
  refine ⟨parts, w2, hch, ⟨⟨fun c => ?_, fun c => ?_⟩, ?_, ?_⟩, ?_, hco', ?_, hpp, fun b hb => (g2 b hb).1, hbs, hbx, ?_, ?_, ?_, ?_, ?_⟩
  · rw [hinO]; exact j.reps.sorted c
  · rw [hinn]; exact j.reps.nodup c
  · intro c hc d hd
    rw [hout] at hd
    obtain ⟨hcu, hc⟩ := (hmemc c).1 hc
    obtain ⟨k1, k2, k3⟩ := j.keys c hc hcu d hd
    exact ⟨(hmemc d).2 ⟨k2, k1⟩, k3⟩
  · intro d hd c
    obtain ⟨hdu, hd⟩ := (hmemc d).1 hd
    rw [hinn, hout, j.inn d hd hdu c, hmemc]
    simp only [and_comm, and_left_comm]
  · intro e he
    have := h.ends e he
    rw [hp.mem_iff, hp.mem_iff, j.core.allNodes]; exact this
  · intro c hc d hd hcd
    obtain ⟨hcu, hc⟩ := (hmemc c).1 hc
    obtain ⟨hdu, hd⟩ := (hmemc d).1 hd
    rw [hout, j.out c hc hcu, if_neg hdu]
    by_cases hcs : c = s
    · subst hcs
      rw [if_pos rfl, if_neg (Ne.symm hcd), comb_getD]
      refine ((h.inter c hc d hd hcd).append (h.inter u hu d hd (Ne.symm hdu))).trans
        ((filter_or_perm _ _ _ ?_).trans (List.Perm.of_eq (List.filter_congr ?_)))
      · intro e _ he
        simp only [Bool.and_eq_true, decide_eq_true_eq] at he
        simp [he.1, hcu]
      · intro e _
        rw [← Bool.and_or_distrib_right, Bool.eq_iff_iff]
        simp [hcos, hcox _ d (Ne.symm hcd) hdu]
    · rw [if_neg hcs]
      by_cases hds : d = s
      · subst hds
        rw [if_pos rfl, comb_getD]
        refine ((h.inter c hc d hd hcd).append (h.inter c hc u hu hcu)).trans
          ((filter_or_perm _ _ _ ?_).trans (List.Perm.of_eq (List.filter_congr ?_)))
        · intro e _ he
          simp only [Bool.and_eq_true, decide_eq_true_eq] at he
          simp [he.2, hdu]
        · intro e _
          rw [← Bool.and_or_distrib_left, Bool.eq_iff_iff]
          simp [hcos, hcox _ c hcs hcu]
      · rw [if_neg hds]
        refine (h.inter c hc d hd hcd).trans (List.Perm.of_eq (List.filter_congr ?_))
        intro e _
        rw [Bool.eq_iff_iff]
        simp [hcox _ c hcs hcu, hcox _ d hds hdu]
  · intro b hb
    rw [(g2 b hb).2.2]
    have hnd : (parts b).Nodup := (List.nodup_flatMap.1 hpnd).1 b hb
    have h1 : ((parts b).flatMap fun p => (st1.B p).outs).Perm ((parts b).flatMap fun p => E.filter fun e =>
        decide (bundleOf st e.src = some p) &&
          (decide (chainOf st2 e.sink = some s) && decide (bundleOf st e.sink ≠ bundleOf st e.src))) :=
      List.Perm.flatMap_left _ fun p hpb => hOut p (hpart b hb p hpb)
    refine h1.trans ((flatMap_filter_perm E (fun e => bundleOf st e.src) _ (parts b) hnd).trans
      (List.Perm.of_eq (List.filter_congr ?_)))
    intro e _
    rw [Bool.eq_iff_iff]
    simp [hbs b hb]
  · intro c hc hcs b hb
    obtain ⟨hcu, hc'⟩ := (hmemc c).1 hc
    have hb' : b ∈ (st.C c).bundles := by rw [hC c hcs, j.core.bundles] at hb; exact hb
    have hbm : b ∉ mergedBundles o st1 s u := by
      rw [mergedBundles, (slices_perm o (st1.C s).bundles (st1.C u).bundles).mem_iff, List.mem_append, j.core.bundles, j.core.bundles]
      rintro (hn | hn)
      · exact hcs (w.bundle_chain hc' hs hb' hn)
      · exact hcu (w.bundle_chain hc' hu hb' hn)
    have hbq : ∀ n, bundleOf st2 n = some b ↔ bundleOf st n = some b := fun n => by
      rw [bundleOf_iff w2 hc hb, bundleOf_iff w hc' hb', g3 b hbm, j.core.nodes]
    have hempty := hempt c hc' hcs hcu b hb'
    rw [g3 b hbm, j.outs, hempty, List.append_nil]
    refine (h.intra c hc' b hb').trans (List.Perm.of_eq (List.filter_congr ?_))
    intro e _
    rw [Bool.eq_iff_iff]
    simp [hbq, hcox _ c hcs hcu]
  · intro c _
    rw [hscore, j.score]
  · intro c hc hcs b hb
    obtain ⟨hcu, hc'⟩ := (hmemc c).1 hc
    have hb' : b ∈ (st.C c).bundles := by rw [hC c hcs, j.core.bundles] at hb; exact hb
    refine ⟨hb', ?_⟩
    rw [hBx c hc' hcs hcu b hb', j.outs, hempt c hc' hcs hcu b hb', List.append_nil]
  · intro e c hc hcs hcu
    obtain ⟨b, hb, hbe⟩ := bundleOf_of_chainOf w hc
    have hc' := ((chainOf_iff w _ _).1 hc).1
    unfold sinkIdx
    rw [hLx _ c hc hcs hcu]
    unfold bundleOf at hbe
    rcases Option.eq_none_or_eq_some (st.L e.sink) with hl | ⟨⟨b', x⟩, hl⟩
    · rw [hl] at hbe; cases hbe
    · rw [hl] at hbe ⊢
      simp only [Option.map_some, Option.some.injEq] at hbe
      subst hbe
      simp only [Option.map_some, Option.getD_some]
      rw [hBx c hc' hcs hcu b' hb]
      exact (j.core.B b').2.2.1

/-! ### Offsets -/

/-- Specification: where a block starts in a layout, and the distance of an edge (from the end of its source). -/
def pos (P : Nodes) (l : List Nat) (n : Nat) : Nat := P.sz (l.takeWhile fun m => decide (m ≠ n))
def dist (P : Nodes) (l : List Nat) (e : Edge) : Int := (pos P l e.sink : Int) - pos P l e.src - P.size e.src

theorem pos_append (P : Nodes) {a : List Nat} {n : Nat} (h : n ∉ a) (t : List Nat) : pos P (a ++ n :: t) n = P.sz a := by
  unfold pos
  rw [List.takeWhile_append_of_pos fun x hx => by simp; exact fun he => h (he ▸ hx)]
  simp

theorem offOf_pos (w : WF P st) {c n : Nat} (hc : c ∈ st.chains) (hn : n ∈ nodesOf st c) :
    offOf st n = pos P (nodesOf st c) n := by
  obtain ⟨b, hb, hnb⟩ := mem_nodesIn.1 hn
  obtain ⟨bs1, bs2, hbs⟩ := List.append_of_mem hb
  obtain ⟨x, y, hxy⟩ := List.append_of_mem hnb
  have hl := (w.bundle c hc b hb).loc x.length n (by rw [hxy]; simp)
  have ho := (w.placed c hc).off bs1.length b (by rw [hbs]; simp)
  have hN : nodesOf st c = (nodesIn st.B bs1 ++ x) ++ n :: (y ++ nodesIn st.B bs2) := by
    rw [nodesOf, hbs, nodesIn_append, nodesIn_cons, hxy]; simp
  have hnd := w.toWF0.nodup hc
  rw [hN] at hnd ⊢
  rw [pos_append P (fun h => (List.nodup_append.1 hnd).2.2 n h n (by simp) rfl), sz_append, offOf, hl]
  show (st.B b).off + P.sz (List.take x.length (st.B b).nodes) = _
  rw [ho, hbs, hxy, List.take_left' rfl, List.take_left' rfl]

theorem distOf_eq (w : WF P st) {c : Nat} (hc : c ∈ st.chains) {e : Edge} (h1 : chainOf st e.src = some c)
    (h2 : chainOf st e.sink = some c) : distOf P st e = dist P (nodesOf st c) e := by
  rw [distOf, dist, offOf_pos w hc ((chainOf_iff w _ _).1 h1).2, offOf_pos w hc ((chainOf_iff w _ _).1 h2).2]

theorem bundleDist_eq (e : Edge) (h : bundleOf st e.src = bundleOf st e.sink) (h1 : (bundleOf st e.src).isSome = true) :
    bundleDist P st e = distOf P st e := by
  unfold bundleDist distOf offOf
  unfold bundleOf at h h1
  rcases Option.eq_none_or_eq_some (st.L e.src) with hs | ⟨⟨b, o1⟩, hs⟩
  · rw [hs] at h1; cases h1
  · rcases Option.eq_none_or_eq_some (st.L e.sink) with hk | ⟨⟨b', o2⟩, hk⟩
    · rw [hs, hk] at h; cases h
    · rw [hs, hk] at h
      simp only [Option.map_some, Option.some.injEq] at h
      subst h
      rw [hs, hk]
      simp only [Option.map_some, Option.getD_some]
      push_cast; ring

/-! ### Removing and sorting edges -/

variable (sc : Edge → Int → Rat)

/-- Result of `RemoveIntraBundleEdges`. -/
def removed (sc : Edge → Int → Rat) (P : Nodes) (c : Nat) (bs : List Nat) (st : State) : State :=
  { st with
    B := fun b => if b ∈ bs then { st.B b with outs := (st.B b).outs.filter fun e => !inBundle st e } else st.B b
    C := upd st.C c { st.C c with
      score := (st.C c).score -
        sumOn (fun b => sumOn (fun e => sc e (bundleDist P st e)) ((st.B b).outs.filter (inBundle st))) bs } }

theorem removeIntra_eq (c : Nat) : ∀ (bs : List Nat), bs.Nodup → ∀ st : State, removeIntra P sc c bs st = removed sc P c bs st := by
  intro bs
  induction bs with
  | nil =>
    intro _ st
    unfold removeIntra removed
    simp only [List.foldl_nil, List.not_mem_nil, if_false, sumOn_nil, sub_zero]
    have : upd st.C c (st.C c) = st.C := by
      funext x
      by_cases hx : x = c
      · subst hx; simp
      · rw [upd_ne _ _ hx]
    rw [show (⟨(st.C c).fnIdx, (st.C c).bundles, (st.C c).size, (st.C c).freq, (st.C c).score, (st.C c).interOut,
      (st.C c).interIn⟩ : Chain) = st.C c from rfl, this]
  | cons b t ih =>
    intro hnd st
    obtain ⟨h1, h2⟩ := List.nodup_cons.1 hnd
    rw [show removeIntra P sc c (b :: t) st = removeIntra P sc c t { st with
      B := upd st.B b { st.B b with outs := (st.B b).outs.filter fun e => !inBundle st e }
      C := upd st.C c { st.C c with
        score := (st.C c).score - sumOn (fun e => sc e (bundleDist P st e)) ((st.B b).outs.filter (inBundle st)) } } from rfl,
      ih h2]
    unfold removed
    have hib : ∀ (B' : Nat → Bundle) (C' : Nat → Chain) , inBundle { st with B := B', C := C' } = inBundle st := fun _ _ => rfl
    have hbd : ∀ (B' : Nat → Bundle) (C' : Nat → Chain) e, bundleDist P { st with B := B', C := C' } e = bundleDist P st e :=
      fun _ _ _ => rfl
    have hB : (fun x => if x ∈ t then
          { (upd st.B b { st.B b with outs := (st.B b).outs.filter fun e => !inBundle st e } x) with
            outs := (upd st.B b { st.B b with outs := (st.B b).outs.filter fun e => !inBundle st e } x).outs.filter fun e =>
              !inBundle st e }
          else upd st.B b { st.B b with outs := (st.B b).outs.filter fun e => !inBundle st e } x) =
        fun x => if x ∈ b :: t then { st.B x with outs := (st.B x).outs.filter fun e => !inBundle st e } else st.B x := by
      funext x
      by_cases hx : x = b
      · subst hx; simp [h1]
      · simp [upd_ne _ _ hx, hx]
    have hsum : sumOn (fun x => sumOn (fun e => sc e (bundleDist P st e)) ((upd st.B b
          { st.B b with outs := (st.B b).outs.filter fun e => !inBundle st e } x).outs.filter (inBundle st))) t =
        sumOn (fun x => sumOn (fun e => sc e (bundleDist P st e)) ((st.B x).outs.filter (inBundle st))) t :=
      sumOn_congr fun x hx => by rw [upd_ne _ _ (ne_of_mem_of_not_mem hx h1)]
    simp only [hib, hbd] at *
    rw [hB, hsum]
    congr 1
    funext x
    by_cases hx : x = c
    · subst hx
      simp only [upd_same, sumOn_cons]
      congr 1; ring
    · simp only [upd_ne _ _ hx]

/-- Order of `SortIntraChainEdges`. -/
def sinkLe (st : State) (e e' : Edge) : Bool :=
  decide (sinkIdx st e < sinkIdx st e') || (decide (sinkIdx st e = sinkIdx st e') && decide (e.src ≤ e'.src))

/-- Result of `SortIntraChainEdges`. -/
def sorted (bs : List Nat) (st : State) : State :=
  { st with B := fun b => if b ∈ bs then { st.B b with outs := isort (sinkLe st) (st.B b).outs } else st.B b }

theorem sortIntra_eq : ∀ (bs : List Nat), bs.Nodup → ∀ st : State, sortIntra bs st = sorted bs st := by
  intro bs
  induction bs with
  | nil => intro _ st; unfold sortIntra sorted; simp
  | cons b t ih =>
    intro hnd st
    obtain ⟨h1, h2⟩ := List.nodup_cons.1 hnd
    rw [show sortIntra (b :: t) st = sortIntra t { st with
      B := upd st.B b { st.B b with outs := isort (sinkLe st) (st.B b).outs } } from rfl, ih h2]
    have hidx : ∀ e, sinkIdx { st with B := upd st.B b { st.B b with outs := isort (sinkLe st) (st.B b).outs } } e = sinkIdx st e := by
      intro e
      unfold sinkIdx
      congr 2; funext p
      show (upd st.B b _ p.1).idx = _
      by_cases hp : p.1 = b
      · rw [hp, upd_same]
      · rw [upd_ne _ _ hp]
    have hle : sinkLe { st with B := upd st.B b { st.B b with outs := isort (sinkLe st) (st.B b).outs } } = sinkLe st := by
      funext e e'; simp only [sinkLe, hidx]
    unfold sorted
    rw [hle]
    congr 1
    funext x
    by_cases hx : x = b
    · subst hx; simp [h1]
    · simp [upd_ne _ _ hx, hx]

/-! ### One merge -/

/-- Specification: an edge within chain `c` that is not within one bundle. -/
def within (st : State) (c : Nat) (e : Edge) : Bool :=
  decide (chainOf st e.src = some c) && (decide (chainOf st e.sink = some c) && decide (bundleOf st e.sink ≠ bundleOf st e.src))

/-- Specification: an edge within chains `s` and `u` taken together, that is not within one bundle. -/
def joint (st : State) (s u : Nat) (e : Edge) : Bool :=
  decide (chainOf st e.src = some s ∨ chainOf st e.src = some u) &&
  (decide (chainOf st e.sink = some s ∨ chainOf st e.sink = some u) && decide (bundleOf st e.sink ≠ bundleOf st e.src))

/-- Specification: the score of edges in a layout. -/
def layoutScore (P : Nodes) (sc : Edge → Int → Rat) (es : List Edge) (l : List Nat) : Rat :=
  sumOn (fun e => sc e (dist P l e)) es

/-- The recorded scores are those of the layout. -/
def ScoresOk (P : Nodes) (sc : Edge → Int → Rat) (E : List Edge) (st : State) : Prop :=
  ∀ c ∈ st.chains, (st.C c).score = layoutScore P sc (E.filter (within st c)) (nodesOf st c)

theorem parts_singleton (parts : Nat → List Nat) : ∀ l : List Nat, (∀ b ∈ l, (parts b).head? = some b) →
    l.length ≤ (l.flatMap parts).length ∧ ((l.flatMap parts).length = l.length → ∀ b ∈ l, parts b = [b]) := by
  intro l
  induction l with
  | nil => intro _; simp
  | cons a t ih =>
    intro h
    obtain ⟨i1, i2⟩ := ih fun b hb => h b (List.mem_cons_of_mem _ hb)
    have ha := h a (by simp)
    obtain ⟨r, hr⟩ : ∃ r, parts a = a :: r := by
      cases hp : parts a with
      | nil => rw [hp] at ha; cases ha
      | cons x r => rw [hp] at ha; cases ha; exact ⟨r, rfl⟩
    rw [List.flatMap_cons, hr]
    simp only [List.length_append, List.length_cons]
    refine ⟨by omega, fun he b hb => ?_⟩
    rcases List.mem_cons.1 hb with rfl | hb
    · rw [hr]
      have : r.length = 0 := by omega
      rw [List.length_eq_zero_iff.1 this]
    · exact i2 (by omega) b hb

/-- What both branches after the bundles were merged amount to. -/
structure Removed (P : Nodes) (sc : Edge → Int → Rat) (s : Nat) (st st' : State) : Prop where
  core : SameCore st st'
  maps : ∀ c, (st'.C c).interOut = (st.C c).interOut ∧ (st'.C c).interIn = (st.C c).interIn
  outsS : ∀ b ∈ (st.C s).bundles, (st'.B b).outs = (st.B b).outs.filter fun e => !inBundle st e
  outsX : ∀ b, b ∉ (st.C s).bundles → (st'.B b).outs = (st.B b).outs
  scoreS : (st'.C s).score = (st.C s).score - sumOn (fun b => sumOn (fun e => sc e (bundleDist P st e))
    ((st.B b).outs.filter (inBundle st))) (st.C s).bundles
  scoreX : ∀ c, c ≠ s → (st'.C c).score = (st.C c).score

theorem removed_ok (P : Nodes) (s : Nat) (st : State) : Removed P sc s st (removed sc P s (st.C s).bundles st) := by
  refine ⟨⟨rfl, rfl, rfl, fun b => ?_, fun c => ?_⟩, fun c => ?_, fun b hb => ?_, fun b hb => ?_, ?_, fun c hc => ?_⟩
  · simp only [removed]; split <;> exact ⟨rfl, rfl, rfl, rfl, rfl, rfl⟩
  · simp only [removed]
    by_cases hc : c = s
    · subst hc; simp
    · simp [upd_ne _ _ hc]
  · simp only [removed]
    by_cases hc : c = s
    · subst hc; simp
    · simp [upd_ne _ _ hc]
  · simp only [removed, if_pos hb]
  · simp only [removed, if_neg hb]
  · simp only [removed, upd_same]
  · simp only [removed, upd_ne _ _ hc]

theorem not_removed_ok (P : Nodes) (s : Nat) (st : State)
    (h : ∀ b ∈ (st.C s).bundles, ∀ e ∈ (st.B b).outs, inBundle st e = false) : Removed P sc s st st := by
  have hf : ∀ b ∈ (st.C s).bundles, (st.B b).outs.filter (inBundle st) = [] := fun b hb => by
    rw [List.filter_eq_nil_iff]; intro e he; rw [h b hb e he]; simp
  refine ⟨SameCore.refl st, fun c => ⟨rfl, rfl⟩, fun b hb => ?_, fun b _ => rfl, ?_, fun c _ => rfl⟩
  · rw [List.filter_eq_self.2]; intro e he; rw [h b hb e he]; rfl
  · rw [sumOn_congr (g := fun _ => 0) fun b hb => by rw [hf b hb]; rfl]
    have : ∀ l : List Nat, sumOn (fun _ => (0 : Rat)) l = 0 := fun l => by
      induction l with
      | nil => rfl
      | cons a t ih => rw [sumOn_cons, ih]; norm_num
    rw [this]; ring

theorem sorted_core (bs : List Nat) (st : State) : SameCore st (sorted bs st) := by
  refine ⟨rfl, rfl, rfl, fun b => ?_, fun c => ⟨rfl, rfl, rfl, rfl⟩⟩
  simp only [sorted]; split <;> exact ⟨rfl, rfl, rfl, rfl, rfl, rfl⟩

theorem pairwise_sinkLe (st : State) (l : List Edge) :
    (isort (sinkLe st) l).Pairwise fun e e' => sinkIdx st e ≤ sinkIdx st e' := by
  have := pairwise_isort (le := sinkLe st) (fun a b c h1 h2 => by
      simp only [sinkLe, Bool.or_eq_true, Bool.and_eq_true, decide_eq_true_eq] at *; omega)
    (fun a b => by simp only [sinkLe, Bool.or_eq_true, Bool.and_eq_true, decide_eq_true_eq]; omega) l
  exact this.imp fun h => by
    simp only [sinkLe, Bool.or_eq_true, Bool.and_eq_true, decide_eq_true_eq] at h; omega

/-- Merging, with a gain that is the true difference of the scores, keeps everything that is recorded right. -/
theorem merge_ok (o : Opts) (w : WF P st) (h : EdgesOk E st) (k : ScoresOk P sc E st) (srt : OutsSorted st) {s u : Nat}
    (hs : s ∈ st.chains) (hu : u ∈ st.chains) (hne : s ≠ u) (ord : Order) (gain : Rat)
    (hg : gain = layoutScore P sc (E.filter (joint st s u)) (nodesIn st.B (mergedBundles ord st s u)) -
      (st.C s).score - (st.C u).score) :
    ∃ st', merge P sc o ord gain st s u = some st' ∧ WF P st' ∧ EdgesOk E st' ∧ ScoresOk P sc E st' ∧ OutsSorted st' ∧
      st'.chains = st.chains.erase u ∧ nodesOf st' s = nodesIn st.B (mergedBundles ord st s u) ∧
      (∀ c ∈ st.chains, c ≠ s → c ≠ u → nodesOf st' c = nodesOf st c) ∧ (allNodes st').Perm (allNodes st) ∧
      ((st'.C s).bundles.length ≤ (st.C s).bundles.length + (st.C u).bundles.length) ∧
      (∀ c, c ≠ s → st'.C c = { st'.C c with bundles := (st.C c).bundles, freq := (st.C c).freq, size := (st.C c).size }) := by
  obtain ⟨st1, e1, j⟩ := mergeEdges_joined h.maps hs hu hne
  obtain ⟨parts, m⟩ := merged_of (P := P) w h hs hu hne j
    (shouldRebundle o.chainSplit o.threshold (st.C s) (st.C u)) ord
  have w1 := j.core.wf w
  have hs1 : s ∈ st1.chains := by rw [j.core.chains]; exact hs
  have hu1 : u ∈ st1.chains := by rw [j.core.chains]; exact hu
  obtain ⟨_, hp, hns, hno⟩ := mergeNodes_spec w1 hs1 hu1 hne (shouldRebundle o.chainSplit o.threshold (st.C s) (st.C u)) ord
  have hCx : ∀ c, c ≠ s → (mergeNodes P (shouldRebundle o.chainSplit o.threshold (st.C s) (st.C u)) ord st1 s u).C c = st1.C c :=
    fun c hc => upd_ne _ _ hc
  unfold merge
  rw [e1]
  simp only [Option.map_some]
  generalize mergeNodes P (shouldRebundle o.chainSplit o.threshold (st.C s) (st.C u)) ord st1 s u = st2 at m hp hns hno hCx ⊢
  have hs2 : s ∈ st2.chains := by rw [m.chains, w.live.mem_erase_iff]; exact ⟨hne, hs⟩
  have hns' : nodesOf st2 s = nodesIn st.B (mergedBundles ord st s u) := by
    rw [hns, j.core.nodesIn]
    unfold mergedBundles
    rw [j.core.bundles, j.core.bundles]
  -- the score
  have c23 : SameCore st2 { st2 with C := upd st2.C s { st2.C s with score := (st.C s).score + (st.C u).score + gain } } := by
    refine ⟨rfl, rfl, rfl, fun b => ⟨rfl, rfl, rfl, rfl, rfl, rfl⟩, fun c => ?_⟩
    by_cases hc : c = s
    · subst hc; simp
    · simp [upd_ne _ _ hc]
  have m23 : ∀ c, (upd st2.C s { st2.C s with score := (st.C s).score + (st.C u).score + gain } c).interOut = (st2.C c).interOut ∧
      (upd st2.C s { st2.C s with score := (st.C s).score + (st.C u).score + gain } c).interIn = (st2.C c).interIn := fun c => by
    by_cases hc : c = s
    · subst hc; simp
    · simp [upd_ne _ _ hc]
  have s23 : ∀ c, c ≠ s → (upd st2.C s { st2.C s with score := (st.C s).score + (st.C u).score + gain } c).score = (st2.C c).score :=
    fun c hc => by rw [upd_ne _ _ hc]
  have s23s : (upd st2.C s { st2.C s with score := (st.C s).score + (st.C u).score + gain } s).score =
      (st.C s).score + (st.C u).score + gain := by simp
  have b23 : (upd st2.C s { st2.C s with score := (st.C s).score + (st.C u).score + gain } s).bundles = (st2.C s).bundles := by simp
  have hB23 : ∀ b, ({ st2 with C := upd st2.C s { st2.C s with score := (st.C s).score + (st.C u).score + gain } } : State).B b =
      st2.B b := fun _ => rfl
  generalize hst3 : ({ st2 with C := upd st2.C s { st2.C s with score := (st.C s).score + (st.C u).score + gain } } : State) = st3
    at c23 hB23 ⊢
  have hC3 : st3.C = upd st2.C s { st2.C s with score := (st.C s).score + (st.C u).score + gain } := by rw [← hst3]
  rw [← hC3] at m23 s23 s23s b23 ⊢
  have w3 := c23.wf m.wf
  have hs3 : s ∈ st3.chains := by rw [c23.chains]; exact hs2
  have hnd3 : (st3.C s).bundles.Nodup := w3.bundles_nodup hs3
  rw [removeIntra_eq sc s _ hnd3, sortIntra_eq _ hnd3]
  -- removal
  have r : Removed P sc s st3 (if (st.C s).bundles.length + (st.C u).bundles.length ≠ (st3.C s).bundles.length then
      removed sc P s (st3.C s).bundles st3 else st3) := by
    split
    · exact removed_ok sc P s st3
    · rename_i hl
      rw [not_not] at hl
      refine not_removed_ok sc P s st3 fun b hb e he => ?_
      rw [b23] at hb hl
      rw [hB23] at he
      have hsing := (parts_singleton parts _ m.partsHead).2 (by
        rw [m.partsPerm.length_eq, List.length_append]; exact hl)
      have he' := (m.intraS b hb).mem_iff.1 he
      simp only [List.mem_filter, Bool.and_eq_true, decide_eq_true_eq] at he'
      unfold inBundle
      rw [decide_eq_false_iff_not, c23.bundleOf, c23.bundleOf]
      intro hib
      have h1 := (m.bundleS b hb e.src).1 he'.2.1
      have h2 := (m.bundleS b hb e.sink).1 (hib ▸ he'.2.1)
      rw [hsing b hb] at h1 h2
      simp only [List.mem_singleton, exists_eq_left] at h1 h2
      exact he'.2.2.2 (h2.trans h1.symm)
  generalize (if (st.C s).bundles.length + (st.C u).bundles.length ≠ (st3.C s).bundles.length then
      removed sc P s (st3.C s).bundles st3 else st3) = st4 at r ⊢
  have b34 : (st3.C s).bundles = (st4.C s).bundles := (r.core.bundles s).symm
  have c45 := sorted_core (st3.C s).bundles st4
  have c24 := c23.trans r.core
  have c25 := c24.trans c45
  have w5 := c25.wf m.wf
  have bs5 : ((sorted (st3.C s).bundles st4).C s).bundles = (st2.C s).bundles := c25.bundles s
  have hm : ∀ c, ((sorted (st3.C s).bundles st4).C c).interOut = (st2.C c).interOut ∧
      ((sorted (st3.C s).bundles st4).C c).interIn = (st2.C c).interIn := fun c =>
    ⟨(r.maps c).1.trans (m23 c).1, (r.maps c).2.trans (m23 c).2⟩
  have ho : ∀ c d, outTo (sorted (st3.C s).bundles st4) c d = outTo st2 c d := fun c d => by rw [outTo, (hm c).1]; rfl
  have hch : (sorted (st3.C s).bundles st4).chains = st2.chains := c25.chains
  have hO5 : ∀ b, b ∉ (st2.C s).bundles → ((sorted (st3.C s).bundles st4).B b).outs = (st2.B b).outs := fun b hb => by
    show (if b ∈ (st3.C s).bundles then _ else _ : Bundle).outs = _
    rw [b23, if_neg hb, r.outsX b (by rw [b23]; exact hb), hB23]
  have hO5s : ∀ b, b ∈ (st2.C s).bundles → ((sorted (st3.C s).bundles st4).B b).outs.Perm
      ((st2.B b).outs.filter fun e => !inBundle st2 e) := fun b hb => by
    show (if b ∈ (st3.C s).bundles then _ else _ : Bundle).outs.Perm _
    rw [b23, if_pos hb]
    refine (isort_perm _ _).trans (List.Perm.of_eq ?_)
    rw [r.outsS b (by rw [b23]; exact hb), hB23]
    refine List.filter_congr fun e _ => ?_
    unfold inBundle; rw [c23.bundleOf, c23.bundleOf]
  have hmemc : ∀ c, c ∈ st2.chains ↔ c ≠ u ∧ c ∈ st.chains := fun c => by rw [m.chains, w.live.mem_erase_iff]
  have hcos : ∀ n, chainOf st2 n = some s ↔ chainOf st n = some s ∨ chainOf st n = some u := fun n => by
    rw [m.chainOf]
    rcases Option.eq_none_or_eq_some (chainOf st n) with h | ⟨c, h⟩
    · simp [h]
    · rw [h]; simp only [Option.map_some, Option.some.injEq]
      split
      · rename_i hc; simp [hc]
      · rename_i hc; simp [hc]
  have hcox : ∀ n c, c ≠ s → c ≠ u → (chainOf st2 n = some c ↔ chainOf st n = some c) := fun n c h1 h2 => by
    rw [m.chainOf]
    rcases Option.eq_none_or_eq_some (chainOf st n) with h | ⟨d, h⟩
    · simp [h]
    · rw [h]; simp only [Option.map_some, Option.some.injEq]
      split
      · rename_i hc; subst hc
        constructor
        · intro h; exact absurd h.symm h1
        · intro h; exact absurd h.symm h2
      · exact Iff.rfl
  have hwn : ∀ b, b ∈ (st2.C s).bundles → ∀ n, bundleOf st2 n = some b → chainOf st2 n = some s := fun b hb n hn =>
    chainOf_of_bundleOf m.wf hs2 hb hn
  -- equal bundles before are equal bundles after
  have hsame : ∀ e : Edge, chainOf st2 e.src = some s → bundleOf st e.sink = bundleOf st e.src → bundleOf st2 e.sink = bundleOf st2 e.src := by
    intro e h1 h2
    obtain ⟨b, hb, hbe⟩ := bundleOf_of_chainOf m.wf h1
    obtain ⟨p, hp, hpe⟩ := (m.bundleS b hb e.src).1 hbe
    rw [hbe]; exact (m.bundleS b hb e.sink).2 ⟨p, hp, h2.trans hpe⟩
  have hE5 : EdgesOk E (sorted (st3.C s).bundles st4) := by
    refine ⟨⟨⟨fun c => ?_, fun c => ?_⟩, ?_, ?_⟩, ?_, ?_, ?_⟩
    · rw [(hm c).1]; exact m.maps.reps.sorted c
    · rw [(hm c).2]; exact m.maps.reps.nodup c
    · intro c hc d hd
      rw [hch] at hc ⊢; rw [ho] at hd; exact m.maps.keys c hc d hd
    · intro d hd c
      rw [hch] at hd ⊢; rw [ho, (hm d).2]; exact m.maps.inn d hd c
    · intro e he; rw [c25.allNodes]; exact m.ends e he
    · intro c hc d hd hcd
      rw [hch] at hc hd; rw [ho]
      simp only [c25.chainOf]
      exact m.inter c hc d hd hcd
    · intro c hc b hb
      rw [hch] at hc; rw [c25.bundles] at hb
      simp only [c25.chainOf, c25.bundleOf]
      by_cases hcs : c = s
      · subst hcs
        refine (hO5s b hb).trans (((m.intraS b hb).filter _).trans (List.Perm.of_eq ?_))
        rw [List.filter_filter]
        refine List.filter_congr fun e _ => ?_
        unfold inBundle
        by_cases hbe : bundleOf st2 e.src = some b
        · have hcs := hwn b hb _ hbe
          rw [Bool.eq_iff_iff]
          simp only [hbe, decide_true, Bool.true_and, Bool.and_eq_true, decide_eq_true_eq, Bool.not_eq_true',
            decide_eq_false_iff_not]
          constructor
          · rintro ⟨h1, h2, h3⟩; exact ⟨h2, fun h => h1 h.symm⟩
          · rintro ⟨h1, h2⟩
            exact ⟨fun h => h2 h.symm, h1, fun h3 => h2 ((hsame e hcs h3).trans hbe)⟩
        · simp [hbe]
      · rw [hO5 b (fun hb' => hcs (m.wf.bundle_chain hc hs2 hb hb'))]
        exact m.intraX c hc hcs b hb
  refine ⟨_, rfl, w5, hE5, ?_, ?_, hch.trans m.chains, (c25.nodesOf s).trans hns', ?_, ?_, ?_, ?_⟩
  · -- scores
    intro c hc
    rw [hch] at hc
    have hwfil : E.filter (within (sorted (st3.C s).bundles st4) c) = E.filter (within st2 c) := by
      refine List.filter_congr fun e _ => ?_
      simp only [within, c25.chainOf, c25.bundleOf]
    rw [hwfil, c25.nodesOf]
    by_cases hcs : c = s
    · subst hcs
      show (st4.C c).score = _
      rw [r.scoreS, s23s, hg]
      have h1 : sumOn (fun b => sumOn (fun e => sc e (bundleDist P st3 e)) ((st3.B b).outs.filter (inBundle st3))) (st3.C c).bundles =
          sumOn (fun e => sc e (dist P (nodesOf st2 c) e)) (E.filter fun e => joint st c u e && inBundle st2 e) := by
        rw [b23, ← sumOn_flatMap (f := fun e => sc e (bundleDist P st3 e))]
        have hperm : ((st2.C c).bundles.flatMap fun b => (st3.B b).outs.filter (inBundle st3)).Perm
            (E.filter fun e => joint st c u e && inBundle st2 e) := by
          have h2 : ((st2.C c).bundles.flatMap fun b => (st3.B b).outs.filter (inBundle st3)).Perm
              ((st2.C c).bundles.flatMap fun b => E.filter fun e => decide (bundleOf st2 e.src = some b) &&
                (inBundle st2 e && (decide (Chain.chainOf st2 e.sink = some c) && decide (bundleOf st e.sink ≠ bundleOf st e.src)))) := by
            refine List.Perm.flatMap_left _ fun b hb => ?_
            rw [hB23]
            refine ((m.intraS b hb).filter _).trans (List.Perm.of_eq ?_)
            rw [List.filter_filter]
            refine List.filter_congr fun e _ => ?_
            have : inBundle st3 e = inBundle st2 e := by unfold inBundle; rw [c23.bundleOf, c23.bundleOf]
            rw [this]
            cases inBundle st2 e <;> simp
          refine h2.trans ((flatMap_filter_perm E (fun e => bundleOf st2 e.src) _ _ (m.wf.bundles_nodup hs2)).trans
            (List.Perm.of_eq (List.filter_congr fun e _ => ?_)))
          have hex : (∃ b ∈ (st2.C c).bundles, bundleOf st2 e.src = some b) ↔ chainOf st e.src = some c ∨ chainOf st e.src = some u := by
            rw [← hcos]
            constructor
            · rintro ⟨b, hb, hbe⟩; exact hwn b hb _ hbe
            · intro hce; exact bundleOf_of_chainOf m.wf hce
          rw [Bool.eq_iff_iff]
          simp only [joint, Bool.and_eq_true, decide_eq_true_eq, hex, hcos]
          tauto
        rw [sumOn_perm _ hperm]
        refine sumOn_congr fun e he => ?_
        simp only [joint, List.mem_filter, Bool.and_eq_true, decide_eq_true_eq, ← hcos] at he
        obtain ⟨_, ⟨q1, q2, _⟩, q3⟩ := he
        have hib : bundleOf st3 e.src = bundleOf st3 e.sink := by
          rw [c23.bundleOf, c23.bundleOf]; simpa [inBundle] using q3
        rw [bundleDist_eq e hib (by
          rw [c23.bundleOf]
          obtain ⟨b, _, hb⟩ := bundleOf_of_chainOf m.wf q1
          rw [hb]; rfl)]
        have hd : distOf P st3 e = distOf P st2 e := by
          unfold distOf; rw [c23.offOf, c23.offOf]
        rw [hd, distOf_eq m.wf hs2 q1 q2]
      rw [h1, hns']
      unfold layoutScore
      rw [sumOn_split (fun e => sc e (dist P (nodesIn st.B (mergedBundles ord st c u)) e)) (inBundle st2) (E.filter (joint st c u)),
        List.filter_filter, List.filter_filter]
      have h2 : (E.filter fun e => (!inBundle st2 e) && joint st c u e) = E.filter (within st2 c) := by
        refine List.filter_congr fun e _ => ?_
        rw [Bool.eq_iff_iff]
        simp only [joint, within, inBundle, Bool.and_eq_true, decide_eq_true_eq, ← hcos, Bool.not_eq_true', decide_eq_false_iff_not]
        constructor
        · rintro ⟨a1, a2, a3, a4⟩; exact ⟨a2, a3, fun h => a1 h.symm⟩
        · rintro ⟨a2, a3, a4⟩; exact ⟨fun h => a4 h.symm, a2, a3, fun h => a4 (hsame e a2 h)⟩
      have h3 : (E.filter fun e => inBundle st2 e && joint st c u e) = E.filter fun e => joint st c u e && inBundle st2 e :=
        List.filter_congr fun e _ => Bool.and_comm _ _
      rw [h2, h3]
      ring
    · show (st4.C c).score = _
      obtain ⟨hcu, hc'⟩ := (hmemc c).1 hc
      rw [r.scoreX c hcs, s23 c hcs, m.scoreX c hc, k c hc']
      have hn2 : nodesOf st2 c = nodesOf st c := by
        rw [hno c (by rw [j.core.chains]; exact hc') hcs hcu, j.core.nodesOf]
      rw [hn2]
      congr 1
      refine List.filter_congr fun e _ => ?_
      rw [Bool.eq_iff_iff]
      simp only [within, Bool.and_eq_true, decide_eq_true_eq, hcox _ c hcs hcu]
      refine and_congr_right fun a1 => and_congr_right fun a2 => ?_
      rw [m.bundleX _ c a1 hcs hcu, m.bundleX _ c a2 hcs hcu]
  · -- sortedness
    intro c hc b hb
    rw [hch] at hc; rw [c25.bundles] at hb
    by_cases hcs : c = s
    · subst hcs
      show (if b ∈ (st3.C c).bundles then _ else _ : Bundle).outs.Pairwise _
      rw [b23, if_pos hb]
      refine (pairwise_sinkLe st4 _).imp fun {a a'} ha => ?_
      rw [← b23, c45.sinkIdx, c45.sinkIdx]; exact ha
    · obtain ⟨hcu, hc'⟩ := (hmemc c).1 hc
      have hbn : b ∉ (st2.C s).bundles := fun hb' => hcs (m.wf.bundle_chain hc hs2 hb hb')
      obtain ⟨hb', ho'⟩ := m.outsX c hc hcs b hb
      rw [hO5 b hbn, ho']
      have hin : ∀ e ∈ (st.B b).outs, sinkIdx (sorted (st3.C s).bundles st4) e = sinkIdx st e := fun e he => by
        have := (h.intra c hc' b hb').mem_iff.1 he
        simp only [List.mem_filter, Bool.and_eq_true, decide_eq_true_eq] at this
        rw [c25.sinkIdx, m.sinkX e c this.2.2.1 hcs hcu]
      refine (srt c hc' b hb').imp_of_mem fun {a a'} ha ha' hle => ?_
      rw [hin a ha, hin a' ha']; exact hle
  · intro c hc hcs hcu
    rw [c25.nodesOf, hno c (by rw [j.core.chains]; exact hc) hcs hcu, j.core.nodesOf]
  · rw [c25.allNodes]
    refine hp.trans ?_
    rw [j.core.allNodes]
  · rw [bs5]
    have := (parts_singleton parts _ m.partsHead).1
    rw [m.partsPerm.length_eq, List.length_append] at this
    exact this
  · intro c hc
    obtain ⟨k1, k2, k3, k4⟩ := c25.C c
    rw [hCx c hc, (j.core.C c).2.1] at k2
    rw [hCx c hc, (j.core.C c).2.2.1] at k3
    rw [hCx c hc, (j.core.C c).2.2.2] at k4
    rw [← k2, ← k3, ← k4]

end Verif.Chain

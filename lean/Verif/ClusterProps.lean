import Verif.Cluster

/-! # C32: which clusters are merged, and independence of hash orders -/
namespace Verif.Cluster
open Verif Verif.Chain

variable {G : Prog} {p : COpts} {chs : List ChainInfo}

/-! ### The best predecessor -/

/-- `bestPred` is the heaviest, and of the heaviest the one with the largest id. -/
theorem bestPred_spec {m : OMap Nat Nat} (hm : OMap.Sorted m) (k : Nat) : bestPred m = some k ↔
    ∃ w, (k, w) ∈ m ∧ ∀ x ∈ m, x.2 < w ∨ (x.2 = w ∧ x.1 ≤ k) := by
  have key : ∀ (l : List (Nat × Nat)) (b : Nat × Nat), ∃ x, l.foldl pickPred (some b) = some x ∧ (x = b ∨ x ∈ l) ∧
      (∀ y, y = b ∨ y ∈ l → y.2 < x.2 ∨ (y.2 = x.2 ∧ y.1 ≤ x.1)) := by
    intro l
    induction l with
    | nil => intro b; exact ⟨b, rfl, .inl rfl, by rintro y (rfl | h); exacts [.inr ⟨rfl, le_refl _⟩, by cases h]⟩
    | cons a t ih =>
      intro b
      rw [List.foldl_cons]
      by_cases h : b.2 < a.2 ∨ (b.2 = a.2 ∧ b.1 < a.1)
      · obtain ⟨x, e, h1, h2⟩ := ih a
        refine ⟨x, by simp only [pickPred, h, if_true]; exact e, ?_, ?_⟩
        · rcases h1 with rfl | h1 <;> simp_all
        · rintro y (rfl | hy)
          · have := h2 a (.inl rfl); omega
          · rcases List.mem_cons.1 hy with rfl | hy
            exacts [h2 _ (.inl rfl), h2 y (.inr hy)]
      · obtain ⟨x, e, h1, h2⟩ := ih b
        refine ⟨x, by simp only [pickPred, h, if_false]; exact e, ?_, ?_⟩
        · rcases h1 with rfl | h1 <;> simp_all
        · rintro y (rfl | hy)
          · exact h2 _ (.inl rfl)
          · rcases List.mem_cons.1 hy with rfl | hy
            · have := h2 b (.inl rfl); omega
            · exact h2 y (.inr hy)
  have ex : m ≠ [] → ∃ x ∈ m, m.foldl pickPred none = some x ∧ ∀ y ∈ m, y.2 < x.2 ∨ (y.2 = x.2 ∧ y.1 ≤ x.1) := by
    intro hne
    cases m with
    | nil => exact absurd rfl hne
    | cons a t =>
      obtain ⟨x, e, h1, h2⟩ := key t a
      refine ⟨x, by rcases h1 with rfl | h1 <;> simp_all, e, fun y hy => h2 y (List.mem_cons.1 hy)⟩
  constructor
  · intro h
    obtain ⟨x, hx, e, h2⟩ := ex (by rintro rfl; cases h)
    unfold bestPred at h
    rw [e] at h; cases h
    exact ⟨x.2, hx, h2⟩
  · rintro ⟨w, hw, hmax⟩
    obtain ⟨x, hx, e, h2⟩ := ex (List.ne_nil_of_mem hw)
    unfold bestPred
    rw [e, Option.map_some]
    have h3 := hmax x hx
    have h4 := h2 _ hw
    simp only at h4
    congr 1
    omega

/-- Specification: edge `e`, into the chain `ch` of cluster `cl`, speaks for putting `cl` after cluster `k`. -/
structure Eligible (G : Prog) (p : COpts) (st : CState) (cl : Clu) (e : Edge) (k : Nat) : Prop where
  kind : e.kind ≠ .ret
  sect : e.interSection = false
  hot : e.weight ≠ 0 ∧ calcFreq G.edges e.sink ≤ 10 * e.weight
  from_ : ∃ s ∈ st.clusters, s.id = k ∧ s.id ≠ cl.id ∧ (∃ c ∈ s.chains, e.src ∈ c.nodes) ∧ s.size ≤ p.sizeThreshold ∧
    s.freq * (cl.size + s.size) ≤ 8 * s.size * (cl.freq + s.freq)

theorem nodes_unique (h : Input G p chs) {c d : ChainInfo} (hc : c ∈ chs) (hd : d ∈ chs) {n : Nat} (h1 : n ∈ c.nodes) (h2 : n ∈ d.nodes) : c = d := by
  have := h.nodes
  clear h
  induction chs with
  | nil => cases hc
  | cons a t ih =>
    rw [List.flatMap_cons, List.nodup_append] at this
    rcases List.mem_cons.1 hc with hc' | hc' <;> rcases List.mem_cons.1 hd with hd' | hd'
    · rw [hc', hd']
    · exact absurd rfl (this.2.2 n (hc' ▸ h1) n (List.mem_flatMap.2 ⟨d, hd', h2⟩))
    · exact absurd rfl (this.2.2 n (hd' ▸ h2) n (List.mem_flatMap.2 ⟨c, hc', h1⟩))
    · exact ih hc' hd' this.2.1

theorem chainOfNode_eq (h : Input G p chs) {c : ChainInfo} (hc : c ∈ chs) {n : Nat} (hn : n ∈ c.nodes) : chainOfNode chs n = some c := by
  obtain ⟨d, hd, e, hnd⟩ := chainOfNode_some h (List.mem_flatMap.2 ⟨c, hc, hn⟩)
  rw [e, nodes_unique h hc hd hn hnd]

/-- `inspect_in_edges` counts an edge exactly for the clusters it speaks for. -/
theorem inspectEdge_spec (h : Input G p chs) {st : CState} (ok : Ok p chs st) {ch : ChainInfo} {cl : Clu}
    (hcl : cl ∈ st.clusters) (hx : ch ∈ cl.chains) {e : Edge} (he : e ∈ G.edges) (hs : e.sink ∈ chs.flatMap (·.nodes)) (k : Nat) :
    inspectEdge G p chs st ch cl e = some (some k) ↔ Eligible G p st cl e k := by
  have hmk := ok.map cl hcl ch hx
  unfold inspectEdge
  by_cases h1 : e.kind = .ret
  · rw [if_pos h1]; exact ⟨by simp, fun h => absurd h1 h.kind⟩
  rw [if_neg h1]
  by_cases h2 : e.interSection = true
  · rw [if_pos h2]; exact ⟨by simp, fun h => absurd h.sect (by simp [h2])⟩
  rw [if_neg h2]
  by_cases h3 : e.weight = 0 ∨ e.weight * 10 < calcFreq G.edges e.sink
  · rw [if_pos h3]; exact ⟨by simp, fun h => absurd h.hot (by omega)⟩
  rw [if_neg h3]
  rw [not_or] at h3
  obtain ⟨c, hc, ec, hnc⟩ := chainOfNode_some h (h.srcs e he (by simp [counted, h3.1, h1, h2]) hs)
  obtain ⟨x, hxm, hcx⟩ := List.mem_flatMap.1 (ok.all.mem_iff.2 hc)
  have uniq : ∀ s ∈ st.clusters, (∃ c ∈ s.chains, e.src ∈ c.nodes) → s = x := by
    rintro s hs ⟨d, hd, hnd⟩
    have hdc := nodes_unique h (ok.all.mem_iff.1 (List.mem_flatMap.2 ⟨s, hs, hd⟩)) hc hnd hnc
    subst hdc
    have e1 := ok.map s hs d hd
    rw [ok.map x hxm d hcx] at e1
    have f1 := (find_some ok.ids).2 ⟨hs, rfl⟩
    rw [← Option.some.inj e1, (find_some ok.ids).2 ⟨hxm, rfl⟩] at f1
    exact (Option.some.inj f1).symm
  rw [ec, Option.bind_some]
  by_cases h4 : c.id = ch.id
  · rw [if_pos h4]
    refine ⟨by simp, fun h => ?_⟩
    obtain ⟨s, hs, _, hne, hsc, _⟩ := h.from_
    rw [uniq s hs hsc] at hne
    have e1 := ok.map x hxm c hcx
    rw [h4, hmk] at e1
    exact absurd (Option.some.inj e1).symm hne
  rw [if_neg h4, ok.map x hxm c hcx, Option.bind_some, (find_some ok.ids).2 ⟨hxm, rfl⟩, Option.bind_some]
  by_cases h5 : x.id = cl.id
  · rw [if_pos h5]
    refine ⟨by simp, fun h => ?_⟩
    obtain ⟨s, hs, _, hne, hsc, _⟩ := h.from_
    rw [uniq s hs hsc] at hne
    exact absurd h5 hne
  rw [if_neg h5]
  by_cases h6 : p.sizeThreshold < x.size
  · rw [if_pos h6]
    refine ⟨by simp, fun h => ?_⟩
    obtain ⟨s, hs, _, _, hsc, h7, _⟩ := h.from_
    rw [uniq s hs hsc] at h7
    omega
  rw [if_neg h6]
  by_cases h8 : 8 * x.size * (cl.freq + x.freq) < x.freq * (cl.size + x.size)
  · rw [if_pos h8]
    refine ⟨by simp, fun h => ?_⟩
    obtain ⟨s, hs, _, _, hsc, _, h7⟩ := h.from_
    rw [uniq s hs hsc] at h7
    omega
  rw [if_neg h8]
  constructor
  · intro h9
    simp only [Option.some.injEq] at h9
    exact ⟨h1, by simpa using h2, by omega, x, hxm, h9, h5, ⟨c, hcx, hnc⟩, by omega, by omega⟩
  · intro h9
    obtain ⟨s, hs, hk, _, hsc, _, _⟩ := h9.from_
    rw [uniq s hs hsc] at hk
    rw [hk]

open Classical in
/-- Specification: the weight of the edges in `es` that speak for putting `cl` after cluster `k`. -/
noncomputable def support (G : Prog) (p : COpts) (st : CState) (cl : Clu) (es : List Edge) (k : Nat) : Nat :=
  ((es.filter fun e => decide (Eligible G p st cl e k)).map (·.weight)).sum

/-- Specification: the edges that are looked at for a chain: all that come in, or those into its first block. -/
def looked (G : Prog) (p : COpts) (ch : ChainInfo) : List Edge :=
  if p.inter = true then ch.nodes.flatMap (inEdges G) else (ch.nodes.head?.map (inEdges G)).getD []

theorem weightFrom_spec (h : Input G p chs) {st : CState} (ok : Ok p chs st) {ch : ChainInfo} {cl : Clu}
    (hcl : cl ∈ st.clusters) (hx : ch ∈ cl.chains) : ∀ (es : List Edge) (m : OMap Nat Nat),
    (∀ e ∈ es, e ∈ G.edges ∧ e.sink ∈ chs.flatMap (·.nodes)) → weightFrom G p chs st ch cl es = some m →
    OMap.Sorted m ∧ ∀ k, OMap.find? m k = if support G p st cl es k = 0 then none else some (support G p st cl es k) := by
  classical
  intro es
  refine List.reverseRecOn es ?_ ?_
  · intro m _ e
    cases e
    exact ⟨OMap.sorted_nil, fun k => by simp [support]; rfl⟩
  · intro l a ih m hes e
    obtain ⟨m0, em, hs, _⟩ := weightFrom_ok h ok (ch := ch) (cl := cl) l fun x hx => hes x (by simp [hx])
    obtain ⟨_, hm⟩ := ih _ (fun x hx => hes x (by simp [hx])) em
    obtain ⟨he, hk⟩ := hes a (by simp)
    obtain ⟨r, er, _⟩ := inspectEdge_ok h ok (ch := ch) (cl := cl) he hk
    have hsp := fun k => inspectEdge_spec h ok hcl hx he hk k
    unfold weightFrom at em e
    rw [foldlM_snoc, em, Option.bind_some, er] at e
    have hsup : ∀ k, support G p st cl (l ++ [a]) k = support G p st cl l k + if r = some k then a.weight else 0 := by
      intro k
      unfold support
      rw [List.filter_append, List.map_append, List.sum_append]
      congr 1
      have := hsp k
      rw [er, Option.some.injEq] at this
      by_cases hr : r = some k
      · simp [this.1 hr, hr]
      · have hn : ¬ Eligible G p st cl a k := fun hh => hr (this.2 hh)
        simp [hn, hr]
    cases r with
    | none =>
      cases e
      refine ⟨hs, fun k => ?_⟩
      rw [hm k, hsup k]; simp
    | some k0 =>
      cases e
      refine ⟨hs.add _, fun k => ?_⟩
      have hw : a.weight ≠ 0 := ((hsp k0).1 er).hot.1
      rw [OMap.find?_add hs, hsup k]
      by_cases hkk : k = k0
      · subst hkk
        simp only [if_true]
        rw [if_neg (by omega)]
        congr 1
        unfold OMap.get0
        rw [hm k]
        split <;> simp_all
      · rw [if_neg hkk, hm k, if_neg (fun hh => hkk (Option.some.inj hh).symm), Nat.add_zero]

/-- **C32: a chain's cluster is put after the cluster that speaks for it with the greatest weight, of equals the one with the
largest id; nothing happens if no cluster speaks for it or its cluster is too big.** -/
theorem mergeWithBest_spec (h : Input G p chs) (hc : p.ccc = true) {st : CState} (ok : Ok p chs st) {ch : ChainInfo} (hch : ch ∈ chs) {cl : Clu}
    (hcl : cl ∈ st.clusters) (hx : ch ∈ cl.chains) : ∃ st', mergeWithBest G p chs st ch = some st' ∧
    (p.sizeThreshold < cl.size → st' = st) ∧
    (cl.size ≤ p.sizeThreshold → (∀ k, support G p st cl (looked G p ch) k = 0) → st' = st) ∧
    (cl.size ≤ p.sizeThreshold → ∀ k, 0 < support G p st cl (looked G p ch) k →
      (∀ k', support G p st cl (looked G p ch) k' < support G p st cl (looked G p ch) k ∨
        (support G p st cl (looked G p ch) k' = support G p st cl (looked G p ch) k ∧ k' ≤ k) ∨
        support G p st cl (looked G p ch) k' = 0) →
      ∃ l ∈ st.clusters, l.id = k ∧ k ≠ cl.id ∧ st' = mergeClusters st k cl.id) := by
  unfold mergeWithBest
  rw [ok.map cl hcl ch hx, Option.bind_some, (find_some ok.ids).2 ⟨hcl, rfl⟩, Option.bind_some]
  by_cases hsz : p.sizeThreshold < cl.size
  · rw [if_pos hsz]
    exact ⟨st, rfl, fun _ => rfl, fun h => absurd hsz (by omega), fun h => absurd hsz (by omega)⟩
  rw [if_neg hsz]
  have hes : (if p.inter = true then some (ch.nodes.flatMap (inEdges G))
        else ch.nodes.head?.bind fun n => if G.nodes.entry n = true then some (inEdges G n) else none) = some (looked G p ch) ∧
      ∀ e ∈ looked G p ch, e ∈ G.edges ∧ e.sink ∈ chs.flatMap (·.nodes) := by
    have hn : ∀ n ∈ ch.nodes, ∀ e ∈ inEdges G n, e ∈ G.edges ∧ e.sink ∈ chs.flatMap (·.nodes) := by
      intro n hn e he
      obtain ⟨h1, h2⟩ := mem_inEdges.1 he
      exact ⟨h1, List.mem_flatMap.2 ⟨ch, hch, h2 ▸ hn⟩⟩
    unfold looked
    cases hi : p.inter with
    | true =>
      refine ⟨rfl, fun e he => ?_⟩
      obtain ⟨n, hnn, he⟩ := List.mem_flatMap.1 he
      exact hn n hnn e he
    | false =>
      cases hh : ch.nodes with
      | nil => exact absurd hh (h.ne ch hch)
      | cons n t =>
        refine ⟨?_, hn n (by rw [hh]; simp)⟩
        simp [h.entry hi hc ch hch n (by rw [hh]; rfl)]
  obtain ⟨m, em, hsm, hm⟩ := weightFrom_ok h ok (ch := ch) (cl := cl) _ hes.2
  obtain ⟨_, hf⟩ := weightFrom_spec h ok hcl hx _ _ hes.2 em
  rw [hes.1, Option.bind_some, em, Option.map_some]
  refine ⟨_, rfl, fun h => absurd h hsz, fun _ h0 => ?_, fun _ k hk hmax => ?_⟩
  · have : m = [] := by
      cases m with
      | nil => rfl
      | cons a t =>
        have := hf a.1
        rw [h0, if_pos rfl] at this
        rw [OMap.find?_some_of_mem hsm (v := a.2) (by simp)] at this
        cases this
    rw [this]; rfl
  · have hmem : ∀ x : Nat × Nat, x ∈ m ↔ support G p st cl (looked G p ch) x.1 = x.2 ∧ x.2 ≠ 0 := by
      intro x
      rw [← OMap.find?_eq_some_iff hsm, hf x.1]
      split <;> simp_all <;> omega
    have hb : bestPred m = some k := by
      rw [bestPred_spec hsm]
      refine ⟨support G p st cl (looked G p ch) k, (hmem (k, support G p st cl (looked G p ch) k)).2 ⟨rfl, Nat.ne_of_gt hk⟩, fun x hx => ?_⟩
      have h1 := (hmem x).1 hx
      have h2 := hmax x.1
      omega
    rw [hb]
    obtain ⟨hne, s, hs, _, _⟩ := hm _ ((hmem (k, support G p st cl (looked G p ch) k)).2 ⟨rfl, Nat.ne_of_gt hk⟩)
    obtain ⟨h1, h2⟩ := (find_some ok.ids).1 hs
    exact ⟨s, h1, h2, hne, rfl⟩

/-! ### Hash orders do not matter -/

theorem Input.perm (h : Input G p chs) {chs' : List ChainInfo} (hp : chs.Perm chs') : Input G p chs' := by
  have hf := hp.flatMap_right (·.nodes)
  refine ⟨(hp.map _).nodup_iff.1 h.ids, hf.nodup_iff.1 h.nodes, fun c hc => h.ne c (hp.mem_iff.2 hc), fun e he hk hs => ?_,
    fun h1 h2 c hc => h.entry h1 h2 c (hp.mem_iff.2 hc)⟩
  exact hf.mem_iff.1 (h.srcs e he hk (hf.mem_iff.2 hs))

theorem chainOfNode_perm (h : Input G p chs) {chs' : List ChainInfo} (hp : chs.Perm chs') : chainOfNode chs = chainOfNode chs' := by
  funext n
  by_cases hn : n ∈ chs.flatMap (·.nodes)
  · obtain ⟨c, hc, hnc⟩ := List.mem_flatMap.1 hn
    rw [chainOfNode_eq h hc hnc, chainOfNode_eq (h.perm hp) (hp.mem_iff.1 hc) hnc]
  · have none_ : ∀ l : List ChainInfo, n ∉ l.flatMap (·.nodes) → chainOfNode l n = none := by
      intro l hl
      unfold chainOfNode
      rw [List.find?_eq_none]
      intro c hc hx
      exact hl (List.mem_flatMap.2 ⟨c, hc, by simpa using hx⟩)
    rw [none_ _ hn, none_ _ fun hx => hn ((hp.flatMap_right _).mem_iff.2 hx)]

/-- The same clusters, held in another order. -/
structure Same (st st' : CState) : Prop where
  clusters : st.clusters.Perm st'.clusters
  of : st.of = st'.of

theorem Same.find {st st' : CState} (s : Same st st') (hid : (st.clusters.map (·.id)).Nodup) : st.find = st'.find := by
  have hid' := (s.clusters.map (·.id)).nodup_iff.1 hid
  funext k
  apply Option.ext
  intro c
  rw [find_some hid, find_some hid', s.clusters.mem_iff]

theorem mergeWithBest_same (h : Input G p chs) {chs' : List ChainInfo} (hp : chs.Perm chs') {st st' : CState} (s : Same st st')
    (hid : (st.clusters.map (·.id)).Nodup) {ch : ChainInfo} {r : CState} (hr : mergeWithBest G p chs st ch = some r) :
    ∃ r', mergeWithBest G p chs' st' ch = some r' ∧ Same r r' := by
  have hf := s.find hid
  have hw : weightFrom G p chs st = weightFrom G p chs' st' := by
    unfold weightFrom inspectEdge
    rw [chainOfNode_perm h hp, s.of, hf]
  unfold mergeWithBest at hr ⊢
  rw [hw, s.of, hf] at hr
  obtain ⟨k, ek, hr⟩ := Option.bind_eq_some_iff.1 hr
  obtain ⟨cl, ecl, hr⟩ := Option.bind_eq_some_iff.1 hr
  rw [ek, Option.bind_some, ecl, Option.bind_some]
  by_cases hsz : p.sizeThreshold < cl.size
  · rw [if_pos hsz] at hr ⊢
    cases hr
    exact ⟨st', rfl, s⟩
  rw [if_neg hsz] at hr ⊢
  obtain ⟨es, ees, hr⟩ := Option.bind_eq_some_iff.1 hr
  obtain ⟨m, em, hr⟩ := Option.map_eq_some_iff.1 hr
  rw [ees, Option.bind_some, em, Option.map_some]
  refine ⟨_, rfl, ?_⟩
  cases hb : bestPred m with
  | none => rw [hb] at hr; simp only at hr ⊢; rw [← hr]; exact s
  | some b =>
    rw [hb] at hr; simp only at hr ⊢; rw [← hr]
    unfold mergeClusters
    rw [hf, ecl, s.of]
    exact ⟨(s.clusters.filter _).map _, rfl⟩

theorem initClusters_same (h : (chs.map (·.id)).Nodup) {chs' : List ChainInfo} (hp : chs.Perm chs') :
    ∃ st st', initClusters chs = some st ∧ initClusters chs' = some st' ∧ Same st st' ∧ Ok p chs st := by
  obtain ⟨st, e, ok, hcl, hof⟩ := initClusters_ok (p := p) chs h
  obtain ⟨st', e', _, hcl', hof'⟩ := initClusters_ok (p := p) chs' ((hp.map _).nodup_iff.1 h)
  refine ⟨st, st', e, e', ⟨?_, ?_⟩, ok⟩
  · rw [hcl, hcl']; exact hp.map _
  · rw [hof, hof']
    funext x
    have := (hp.map (·.id)).mem_iff (a := x)
    simp only [this]

/-- `sortedChains`, without failures. -/
theorem sortedChains_eq (h : Input G p chs) : sortedChains G chs = some ((isort
    (fun a b : Nat × ChainInfo => decide (b.1 < a.1) || (decide (a.1 = b.1) && decide (a.2.id ≤ b.2.id)))
    ((chs.map fun c => ((weightTo G chs c).getD 0, c)).filter fun x => decide (x.1 ≠ 0))).map (·.2)) := by
  unfold sortedChains
  have key : ∀ (l : List ChainInfo), (∀ c ∈ l, c ∈ chs) → ∀ acc : List (Nat × ChainInfo),
      l.foldlM (fun l c => (weightTo G chs c).map fun w => if w = 0 then l else l ++ [(w, c)]) acc =
        some (acc ++ (l.map fun c => ((weightTo G chs c).getD 0, c)).filter fun x => decide (x.1 ≠ 0)) := by
    intro l
    induction l with
    | nil => intro _ acc; simp
    | cons c t ih =>
      intro hl acc
      obtain ⟨w, ew⟩ := weightTo_ok h (hl c (by simp))
      rw [List.foldlM_cons, ew]
      have := ih (fun x hx => hl x (by simp [hx])) (if w = 0 then acc else acc ++ [(w, c)])
      refine this.trans ?_
      by_cases hw : w = 0
      · simp [ew, hw]
      · simp [ew, hw]
  rw [key chs (fun c h => h) []]
  rfl

theorem sortedChains_perm (h : Input G p chs) {chs' : List ChainInfo} (hp : chs.Perm chs') : sortedChains G chs = sortedChains G chs' := by
  rw [sortedChains_eq h, sortedChains_eq (h.perm hp)]
  have hw : weightTo G chs = weightTo G chs' := by
    unfold weightTo
    rw [chainOfNode_perm h hp]
  rw [hw]
  congr 2
  have p1 := (hp.map fun c => ((weightTo G chs' c).getD 0, c)).filter fun x => decide (x.1 ≠ 0)
  have inj : ∀ a ∈ chs, ∀ b ∈ chs, a.id = b.id → a = b := by
    intro a ha b hb
    exact List.inj_on_of_nodup_map h.ids ha hb
  have le_iff : ∀ a b : Nat × ChainInfo, (decide (b.1 < a.1) || (decide (a.1 = b.1) && decide (a.2.id ≤ b.2.id))) = true ↔
      b.1 < a.1 ∨ (a.1 = b.1 ∧ a.2.id ≤ b.2.id) := by intro a b; simp
  generalize hle : (fun a b : Nat × ChainInfo => decide (b.1 < a.1) || (decide (a.1 = b.1) && decide (a.2.id ≤ b.2.id))) = le
  have hlei : ∀ a b, le a b = true ↔ b.1 < a.1 ∨ (a.1 = b.1 ∧ a.2.id ≤ b.2.id) := by intro a b; rw [← hle]; exact le_iff a b
  have tr : ∀ a b c, le a b = true → le b c = true → le a c = true := by
    intro a b c; rw [hlei, hlei, hlei]; omega
  have tot : ∀ a b, (le a b || le b a) = true := by
    intro a b; rw [Bool.or_eq_true, hlei, hlei]; omega
  refine List.Perm.eq_of_pairwise (le := fun a b => le a b = true) ?_ (pairwise_isort tr tot _) (pairwise_isort tr tot _)
    ((isort_perm _ _).trans (p1.trans (isort_perm _ _).symm))
  intro a b ha hb h1 h2
  rw [hlei] at h1 h2
  rw [mem_isort, List.mem_filter, List.mem_map] at ha hb
  obtain ⟨⟨x, hx, rfl⟩, _⟩ := ha
  obtain ⟨⟨y, hy, rfl⟩, _⟩ := hb
  simp only at h1 h2
  rw [inj x hx y (hp.mem_iff.2 hy) (by omega)]

/-- **C32: the result does not depend on the order in which the hash tables hold the chains.** -/
theorem buildClusters_perm (h : Input G p chs) {chs' : List ChainInfo} (hp : chs.Perm chs') :
    buildClusters G p chs = buildClusters G p chs' := by
  obtain ⟨cs, e, _, hn, _, ho1, ho2⟩ := buildClusters_ok h
  obtain ⟨cs', e', _, hn', _, ho1', ho2'⟩ := buildClusters_ok (h.perm hp)
  have hperm : cs.Perm cs' := by
    obtain ⟨st, st', e1, e1', hs, ok⟩ := initClusters_same (p := p) h.ids hp
    unfold buildClusters at e e'
    rw [e1, Option.bind_some] at e
    rw [e1', Option.bind_some] at e'
    cases hc : p.ccc with
    | false =>
      rw [if_pos hc] at e e'
      rw [← Option.some.inj e, ← Option.some.inj e']
      exact (isort_perm _ _).trans (hs.clusters.trans (isort_perm _ _).symm)
    | true =>
      rw [if_neg (by simp [hc])] at e e'
      rw [← sortedChains_perm h hp] at e'
      obtain ⟨l, el, hl⟩ := sortedChains_ok h
      rw [el, Option.bind_some] at e e'
      obtain ⟨r, er, e⟩ := Option.map_eq_some_iff.1 e
      obtain ⟨r', er', e'⟩ := Option.map_eq_some_iff.1 e'
      have key : ∀ (l : List ChainInfo) (st st' : CState), (∀ c ∈ l, c ∈ chs) → Ok p chs st → Same st st' →
          ∃ r r', l.foldlM (fun st c => if dens c.freq c.size < 1 / 200 then some st else mergeWithBest G p chs st c) st = some r ∧
          l.foldlM (fun st c => if dens c.freq c.size < 1 / 200 then some st else mergeWithBest G p chs' st c) st' = some r' ∧ Same r r' := by
        intro l
        induction l with
        | nil => intro st st' _ _ s; exact ⟨st, st', rfl, rfl, s⟩
        | cons c t ih =>
          intro st st' hl ok s
          rw [List.foldlM_cons, List.foldlM_cons]
          by_cases hd : dens c.freq c.size < 1 / 200
          · rw [if_pos hd, if_pos hd]; exact ih st st' (fun x hx => hl x (by simp [hx])) ok s
          · obtain ⟨st1, e1, ok1⟩ := mergeWithBest_ok h hc ok (hl c (by simp))
            obtain ⟨st2, e2, s2⟩ := mergeWithBest_same h hp s ok.ids e1
            rw [if_neg hd, if_neg hd, e1, e2]
            exact ih st1 st2 (fun x hx => hl x (by simp [hx])) ok1 s2
      obtain ⟨q, q', eq, eq', s⟩ := key l st st' hl ok hs
      rw [er] at eq
      rw [er'] at eq'
      cases eq; cases eq'
      rw [← e, ← e']
      exact (isort_perm _ _).trans (s.clusters.trans (isort_perm _ _).symm)
  rw [e, e']
  congr 1
  cases hc : p.ccc with
  | false =>
    exact List.Perm.eq_of_pairwise (fun a b _ _ h1 h2 => absurd h1 (by omega)) (ho2 hc).1 (ho2' hc).1 hperm
  | true =>
    refine List.Perm.eq_of_pairwise (fun a b _ _ h1 h2 => ?_) (ho1 hc) (ho1' hc) hperm
    exfalso
    rcases h1 with h1 | ⟨h1, h1'⟩ <;> rcases h2 with h2 | ⟨h2, h2'⟩
    · exact lt_asymm h1 h2
    · rw [h2] at h1; exact lt_irrefl _ h1
    · rw [h1] at h2; exact lt_irrefl _ h2
    · omega

/-! ### Examples -/

/-- Three functions of one chain each: the first calls the second often, the third rarely. -/
def exProg : Prog where
  size := fun _ => 10
  fn := fun n => n / 2
  bbi := fun n => n % 2
  lp := fun _ => false
  edges := [⟨0, 1, 100, .branch, false⟩, ⟨1, 2, 90, .call, false⟩, ⟨2, 3, 90, .branch, false⟩, ⟨3, 1, 90, .ret, false⟩,
    ⟨1, 4, 1, .call, false⟩, ⟨3, 4, 9, .call, false⟩]

def exChains : List ChainInfo := [⟨0, [0, 1], 20, 190⟩, ⟨2, [2, 3], 20, 180⟩, ⟨4, [4], 10, 10⟩]

example : Input exProg {} exChains := ⟨by decide, by decide, by decide, by decide, by decide⟩
example : Ok {} exChains ⟨exChains.map fun c => ⟨c.id, [c], c.size, c.freq⟩, fun x => if x ∈ exChains.map (·.id) then some x else none⟩ := by
  obtain ⟨st, _, ok, h1, h2⟩ := initClusters_ok (p := {}) exChains (by decide)
  have : st = ⟨exChains.map fun c => ⟨c.id, [c], c.size, c.freq⟩, fun x => if x ∈ exChains.map (·.id) then some x else none⟩ := by
    rw [← h1, ← h2]
  rw [← this]; exact ok
example : (buildClusters exProg {} exChains).map (·.map fun c => (c.id, c.chains.map (·.id), c.size, c.freq)) =
    some [(0, [0, 2, 4], 50, 380)] := by decide +kernel
example : (buildClusters exProg { sizeThreshold := 15 } exChains).map (·.map fun c => (c.id, c.chains.map (·.id))) =
    some [(0, [0]), (2, [2]), (4, [4])] := by decide +kernel
example : (buildClusters exProg { ccc := false } exChains).map (·.map fun c => (c.id, c.chains.map (·.id))) =
    some [(0, [0]), (2, [2]), (4, [4])] := by decide +kernel
example : (buildClusters exProg { inter := true } exChains.reverse).map (·.map fun c => (c.id, c.chains.map (·.id))) =
    some [(0, [0, 2, 4])] := by decide +kernel

/-- Block 0 calls the function of blocks 2 and 3, in which the only branch goes back to the entry block 2. -/
def exCrash : Prog where
  size := fun _ => 4
  fn := fun n => n / 2
  bbi := fun n => n % 2
  lp := fun _ => false
  edges := [⟨0, 2, 5, .call, false⟩, ⟨3, 2, 5, .branch, false⟩]

/-- **The exception of C31 stops the tool**: with default options, the chains that the chain builder makes of the two functions
fail the check of the cluster builder that chains begin with entry blocks. -/
theorem buildClusters_violated :
    (buildChains (getEdgeScore {} exCrash.size) exCrash {} [⟨0, [0, 1], []⟩]).map rowsOf = some [[0]] ∧
    (buildChains (getEdgeScore {} exCrash.size) exCrash {} [⟨1, [2, 3], []⟩]).map rowsOf = some [[3, 2]] ∧
    buildClusters exCrash {} [⟨0, [0], 4, 5⟩, ⟨3, [3, 2], 8, 15⟩] = none :=
  ⟨by decide +kernel, by decide +kernel, by decide +kernel⟩

end Verif.Cluster

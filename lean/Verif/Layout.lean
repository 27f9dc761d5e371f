import Verif.ClusterProps

/-! # C33: the layout that is emitted (llvm_propeller_code_layout.cc)

Integers are unbounded; scores are exact. -/
namespace Verif.Layout
open Verif Verif.Chain Verif.Cluster

/-- `FunctionClusterInfo::BBCluster` (llvm_propeller_function_cluster_info.h:23-33). -/
structure BBCluster where
  idx : Nat
  blocks : List Nat
  deriving DecidableEq

/-- `CFGScore` (llvm_propeller_function_cluster_info.h:10-16). -/
structure CFGScore where
  intra : Rat
  inter : Rat
  deriving DecidableEq

/-- `FunctionClusterInfo` (llvm_propeller_function_cluster_info.h:20-48). -/
structure FnInfo where
  fn : Nat
  clusters : List BBCluster
  orig : CFGScore
  opt : CFGScore
  cold : Nat
  deriving DecidableEq

/-- The variables of the loop of `OrderAll` (llvm_propeller_code_layout.cc:127-139): the map by function, `function_index`,
`layout_index`, `cold_cluster_layout_index`. The result is sorted by function, so the order of the hash map is not kept. -/
structure LState where
  infos : OMap Nat FnInfo := []
  cur : Option Nat := none
  layout : Nat := 0
  cold : Nat := 0

variable (G : Prog)

/-- `clusters.back().full_bb_ids.push_back` (llvm_propeller_code_layout.cc:162-163); `none`: there is no last cluster. -/
def pushBlock (cl : List BBCluster) (n : Nat) : Option (List BBCluster) :=
  cl.getLast?.map fun c => cl.dropLast ++ [⟨c.idx, c.blocks ++ [n]⟩]

/-- `func_cluster_info_it->second.clusters.…` -/
def addBlock (st : LState) (f n : Nat) : Option LState :=
  (st.infos.find? f).bind fun i => (pushBlock i.clusters n).map fun cl =>
    { st with infos := OMap.set f { i with clusters := cl } st.infos }

/-- The body of the loop (llvm_propeller_code_layout.cc:144-164); `orig`, `opt`: the score maps; `none`: `at` throws. -/
def step (orig opt : Nat → Option CFGScore) (st : LState) (n : Nat) : Option LState :=
  if st.cur ≠ some (G.fn n) ∨ G.bbi n = 0 then
    (orig (G.fn n)).bind fun so => (opt (G.fn n)).bind fun sp =>
      let inserted := (st.infos.find? (G.fn n)).isNone
      let i := (st.infos.find? (G.fn n)).getD ⟨G.fn n, [], so, sp, st.cold⟩
      addBlock { infos := OMap.set (G.fn n) { i with clusters := i.clusters ++ [⟨st.layout, []⟩] } st.infos
                 cur := some (G.fn n)
                 layout := st.layout + 1
                 cold := if inserted then st.cold + 1 else st.cold } (G.fn n) n
  else st.cur.bind fun f => addBlock st f n

/-- The sort of the clusters of a function (llvm_propeller_code_layout.cc:183-190); where `std::sort` has a choice, between
clones of one block, the order of the layout is taken. `bbId`: `bb_id()`. -/
def sortClusters (bbId : Nat → Nat) (cl : List BBCluster) : List BBCluster :=
  isort (fun a b => decide ((a.blocks.head?.map bbId).getD 0 ≤ (b.blocks.head?.map bbId).getD 0)) cl

/-- The loop and the sorting of `OrderAll` (llvm_propeller_code_layout.cc:123-200). -/
def emit (bbId : Nat → Nat) (orig opt : Nat → Option CFGScore) (order : List Nat) : Option (List FnInfo) :=
  (order.foldlM (step G orig opt) {}).map fun st =>
    st.infos.map fun x => { x.2 with clusters := sortClusters bbId x.2.clusters }

/-! ### Specification -/

/-- Two blocks that stay together if they come one after the other: they are of one function, and the second is not the
entry block. -/
def Together (a b : Nat) : Prop := G.fn a = G.fn b ∧ G.bbi b ≠ 0

/-- `B` is the order cut into the longest runs of blocks that stay together. -/
structure Runs (order : List Nat) (B : List (List Nat)) : Prop where
  all : B.flatten = order
  ne : ∀ b ∈ B, b ≠ []
  run : ∀ b ∈ B, b.IsChain (Together G)
  cut : B.IsChain fun a b => ∀ x ∈ a.getLast?, ∀ y ∈ b.head?, ¬ Together G x y

/-- The runs of a function, with their positions. -/
def runsOf (B : List (List Nat)) (f : Nat) : List BBCluster :=
  (B.zipIdx.filter fun x => decide (x.1.head?.map G.fn = some f)).map fun x => ⟨x.2, x.1⟩

/-- Specification of what is emitted for an order that was cut into runs. -/
structure Emitted (bbId : Nat → Nat) (orig opt : Nat → Option CFGScore) (order : List Nat) (B : List (List Nat)) (is : List FnInfo) : Prop where
  fns : ∀ f, f ∈ is.map (·.fn) ↔ f ∈ order.map G.fn
  sorted : is.Pairwise fun a b => a.fn < b.fn
  clusters : ∀ i ∈ is, i.clusters.Perm (runsOf G B i.fn)
  byId : ∀ i ∈ is, i.clusters.Pairwise fun a b => ∀ x ∈ a.blocks.head?, ∀ y ∈ b.blocks.head?, bbId x ≤ bbId y
  /-- functions are numbered in the order in which they appear -/
  cold : ∀ i ∈ is, (order.map G.fn).eraseDups[i.cold]? = some i.fn
  scores : ∀ i ∈ is, orig i.fn = some i.orig ∧ opt i.fn = some i.opt

/-! ### Proofs -/

variable {G}

theorem find?_set {K V : Type} [LinearOrder K] {m : OMap K V} (hm : OMap.Sorted m) (k : K) (v : V) (x : K) :
    OMap.find? (OMap.set k v m) x = if x = k then some v else OMap.find? m x := OMap.find?_upsert hm _ _ _
theorem sorted_set {K V : Type} [LinearOrder K] {m : OMap K V} (hm : OMap.Sorted m) (k : K) (v : V) : OMap.Sorted (OMap.set k v m) :=
  hm.upsert _ _

theorem runsOf_snoc (B : List (List Nat)) (b : List Nat) (f : Nat) :
    runsOf G (B ++ [b]) f = runsOf G B f ++ if b.head?.map G.fn = some f then [⟨B.length, b⟩] else [] := by
  unfold runsOf
  rw [List.zipIdx_append, List.filter_append, List.map_append]
  congr 1
  by_cases h : b.head?.map G.fn = some f
  · rw [if_pos h]
    simp only [List.zipIdx_cons, List.zipIdx_nil, List.filter_cons, h, decide_true, if_true, List.filter_nil, List.map_cons, List.map_nil]
    simp
  · rw [if_neg h]
    simp only [List.zipIdx_cons, List.zipIdx_nil, List.filter_cons, h, decide_false, List.filter_nil]
    simp

theorem eraseDups_snoc (l : List Nat) (x : Nat) : (l ++ [x]).eraseDups = l.eraseDups ++ if x ∈ l then [] else [x] := by
  rw [List.eraseDups_append]
  congr 1
  by_cases h : x ∈ l
  · simp [List.removeAll, h]
  · simp [List.removeAll, h, List.eraseDups_cons]

theorem nodup_eraseDups (l : List Nat) : l.eraseDups.Nodup := by
  refine List.reverseRecOn l (by simp) ?_
  intro t x ih
  rw [eraseDups_snoc]
  by_cases h : x ∈ t
  · rw [if_pos h, List.append_nil]; exact ih
  · rw [if_neg h, List.nodup_append]
    refine ⟨ih, by simp, fun a ha b hb => ?_⟩
    rw [List.mem_singleton] at hb; subst hb
    rintro rfl
    exact h (List.mem_eraseDups.1 ha)

structure LInv (G : Prog) (orig opt : Nat → Option CFGScore) (l : List Nat) (B : List (List Nat)) (st : LState) : Prop where
  runs : Runs G l B
  layout : st.layout = B.length
  cur : st.cur = l.getLast?.map G.fn
  sorted : OMap.Sorted st.infos
  cold : st.cold = (l.map G.fn).eraseDups.length
  dom : ∀ f, (st.infos.find? f).isSome = true ↔ f ∈ l.map G.fn
  info : ∀ f i, st.infos.find? f = some i → i.fn = f ∧ i.clusters = runsOf G B f ∧ (l.map G.fn).eraseDups[i.cold]? = some f ∧
    orig f = some i.orig ∧ opt f = some i.opt

theorem getElem?_append_some {α : Type} {l r : List α} {k : Nat} {a : α} (h : l[k]? = some a) : (l ++ r)[k]? = some a := by
  rw [List.getElem?_append_left]
  · exact h
  · exact (List.getElem?_eq_some_iff.1 h).1

theorem step_ok {orig opt : Nat → Option CFGScore} {l : List Nat} {B : List (List Nat)} {st : LState} (h : LInv G orig opt l B st) (n : Nat)
    (hs : (orig (G.fn n)).isSome = true) (hp : (opt (G.fn n)).isSome = true) :
    ∃ st' B', step G orig opt st n = some st' ∧ LInv G orig opt (l ++ [n]) B' st' := by
  obtain ⟨so, hso⟩ := Option.isSome_iff_exists.1 hs
  obtain ⟨sp, hsp⟩ := Option.isSome_iff_exists.1 hp
  unfold step
  by_cases hc : st.cur ≠ some (G.fn n) ∨ G.bbi n = 0
  · -- a new run
    rw [if_pos hc, hso, hsp, Option.bind_some, Option.bind_some]
    simp only
    generalize hi : (st.infos.find? (G.fn n)).getD ⟨G.fn n, [], so, sp, st.cold⟩ = i
    unfold addBlock
    simp only
    rw [find?_set h.sorted, if_pos rfl, Option.bind_some]
    simp only [pushBlock, List.getLast?_append, List.getLast?_singleton, Option.some_or, Option.map_some, List.dropLast_concat, List.nil_append]
    refine ⟨_, B ++ [[n]], rfl, ?_⟩
    have hruns : Runs G (l ++ [n]) (B ++ [[n]]) := by
      refine ⟨by simp [h.runs.all], ?_, ?_, ?_⟩
      · intro b hb
        rcases List.mem_append.1 hb with hb | hb
        · exact h.runs.ne b hb
        · rw [List.mem_singleton] at hb; subst hb; simp
      · intro b hb
        rcases List.mem_append.1 hb with hb | hb
        · exact h.runs.run b hb
        · rw [List.mem_singleton] at hb; subst hb; simp
      · rw [List.isChain_append]
        refine ⟨h.runs.cut, by simp, ?_⟩
        intro b hb c hcm x hx y hy
        simp only [List.head?_cons, Option.mem_def, Option.some.injEq] at hcm
        subst hcm
        simp only [List.head?_cons, Option.mem_def, Option.some.injEq] at hy
        subst hy
        have hx' : l.getLast? = some x := by
          rw [← h.runs.all]
          obtain ⟨B0, rfl⟩ := List.getLast?_eq_some_iff.1 hb
          rw [List.flatten_append, List.getLast?_append]
          simp only [List.flatten_cons, List.flatten_nil, List.append_nil]
          rw [hx]; rfl
        rintro ⟨h1, h2⟩
        rw [h.cur, hx'] at hc
        simp only [Option.map_some] at hc
        rcases hc with hc | hc
        · exact hc (by rw [h1])
        · exact h2 hc
    have hii : i.fn = G.fn n ∧ i.clusters = runsOf G B (G.fn n) ∧
        ((l ++ [n]).map G.fn).eraseDups[i.cold]? = some (G.fn n) ∧ orig (G.fn n) = some i.orig ∧ opt (G.fn n) = some i.opt := by
      cases hf : st.infos.find? (G.fn n) with
      | none =>
        rw [hf] at hi
        simp only [Option.getD_none] at hi
        subst hi
        have hnot : G.fn n ∉ l.map G.fn := fun hm => by
          have := (h.dom _).2 hm
          rw [hf] at this; cases this
        refine ⟨rfl, ?_, ?_, hso, hsp⟩
        · symm
          unfold runsOf
          rw [List.map_eq_nil_iff, List.filter_eq_nil_iff]
          rintro ⟨b, k⟩ hx hy
          simp only [decide_eq_true_eq] at hy
          have hb : b ∈ B := (List.mem_zipIdx hx).2.2 ▸ List.getElem_mem _
          cases b with
          | nil => cases hy
          | cons a t =>
            simp only [List.head?_cons, Option.map_some, Option.some.injEq] at hy
            refine hnot (List.mem_map.2 ⟨a, ?_, hy⟩)
            rw [← h.runs.all]
            exact List.mem_flatten.2 ⟨_, hb, by simp⟩
        · rw [List.map_append, List.map_singleton, eraseDups_snoc, if_neg hnot, h.cold]
          simp
      | some j =>
        rw [hf] at hi
        simp only [Option.getD_some] at hi
        subst hi
        obtain ⟨h1, h2, h3, h4, h5⟩ := h.info _ _ hf
        refine ⟨h1, h2, ?_, h4, h5⟩
        rw [List.map_append, List.map_singleton, eraseDups_snoc]
        exact getElem?_append_some h3
    have hsort2 := (sorted_set h.sorted (G.fn n) { i with clusters := i.clusters ++ [⟨st.layout, []⟩] })
    refine ⟨hruns, by simp [h.layout], by simp, sorted_set hsort2 _ _, ?_, ?_, ?_⟩
    · simp only
      rw [List.map_append, List.map_singleton, eraseDups_snoc, h.cold]
      by_cases hm : G.fn n ∈ l.map G.fn
      · have := (h.dom _).2 hm
        obtain ⟨j, hj⟩ := Option.isSome_iff_exists.1 this
        simp [hm, hj]
      · have : st.infos.find? (G.fn n) = none := by
          rcases Option.eq_none_or_eq_some (st.infos.find? (G.fn n)) with h' | ⟨j, hj⟩
          · exact h'
          · exact absurd ((h.dom _).1 (by rw [hj]; rfl)) hm
        simp [hm, this]
    · intro f
      rw [find?_set hsort2, find?_set h.sorted]
      by_cases hf : f = G.fn n
      · simp [hf]
      · rw [if_neg hf, if_neg hf, h.dom f]
        simp [hf]
    · intro f j
      rw [find?_set hsort2, find?_set h.sorted]
      by_cases hf : f = G.fn n
      · rw [if_pos hf]
        rintro ⟨⟩
        obtain ⟨h1, h2, h3, h4, h5⟩ := hii
        subst hf
        refine ⟨h1, ?_, h3, h4, h5⟩
        rw [runsOf_snoc, if_pos (by simp), ← h2, h.layout]
      · rw [if_neg hf, if_neg hf]
        intro hj
        obtain ⟨h1, h2, h3, h4, h5⟩ := h.info _ _ hj
        refine ⟨h1, ?_, ?_, h4, h5⟩
        · rw [runsOf_snoc, if_neg (by simpa using fun h => hf h.symm), h2, List.append_nil]
        · rw [List.map_append, List.map_singleton, eraseDups_snoc]
          exact getElem?_append_some h3
  · -- the run goes on
    rw [if_neg hc]
    rw [not_or, not_not] at hc
    obtain ⟨hcur, hne⟩ := hc
    rw [hcur, Option.bind_some]
    have hlast : ∃ x, l.getLast? = some x ∧ G.fn x = G.fn n := by
      rw [h.cur] at hcur
      obtain ⟨x, hx, hfx⟩ := Option.map_eq_some_iff.1 hcur
      exact ⟨x, hx, hfx⟩
    obtain ⟨x, hx, hfx⟩ := hlast
    have hB : B ≠ [] := by rintro rfl; rw [← h.runs.all] at hx; cases hx
    obtain ⟨B0, b, rfl⟩ : ∃ B0 b, B = B0 ++ [b] := ⟨B.dropLast, B.getLast hB, (List.dropLast_append_getLast hB).symm⟩
    have hbne := h.runs.ne b (by simp)
    have hbx : b.getLast? = some x := by
      rw [← h.runs.all, List.flatten_append, List.getLast?_append] at hx
      simp only [List.flatten_cons, List.flatten_nil, List.append_nil] at hx
      cases hb : b.getLast? with
      | none => exact absurd (List.getLast?_eq_none_iff.1 hb) hbne
      | some y => rw [hb] at hx; exact hx
    have hhead : ∀ (c : List Nat) (x : Nat), c.IsChain (Together G) → c.getLast? = some x → c.head?.map G.fn = some (G.fn x) := by
      intro c
      refine List.reverseRecOn c ?_ ?_
      · intro x _ h; cases h
      · intro t a ih x h1 h2
        simp only [List.getLast?_append, List.getLast?_singleton, Option.some_or, Option.some.injEq] at h2
        subst h2
        rw [List.isChain_append] at h1
        cases ht : t.getLast? with
        | none => rw [List.getLast?_eq_none_iff] at ht; subst ht; rfl
        | some y =>
          have := ih y h1.1 ht
          rw [List.head?_append]
          cases hh : t.head? with
          | none => rw [hh] at this; cases this
          | some z =>
            rw [hh] at this
            simp only [Option.some_or]
            rw [this, (h1.2.2 y ht a (by simp)).1]
    have hbf : b.head?.map G.fn = some (G.fn n) := by
      rw [hhead b x (h.runs.run b (by simp)) hbx, hfx]
    have hmem : G.fn n ∈ l.map G.fn := by
      rw [← hfx]; exact List.mem_map.2 ⟨x, List.mem_of_getLast? hx, rfl⟩
    obtain ⟨i, hi⟩ := Option.isSome_iff_exists.1 ((h.dom _).2 hmem)
    obtain ⟨h1, h2, h3, h4, h5⟩ := h.info _ _ hi
    rw [runsOf_snoc, if_pos hbf] at h2
    unfold addBlock
    rw [hi, Option.bind_some, h2]
    simp only [pushBlock, List.getLast?_append, List.getLast?_singleton, Option.some_or, Option.map_some, List.dropLast_concat]
    refine ⟨_, B0 ++ [b ++ [n]], rfl, ?_⟩
    have hbf' : (b ++ [n]).head?.map G.fn = some (G.fn n) := by
      rw [List.head?_append]
      cases hh : b.head? with
      | none => rw [hh] at hbf; cases hbf
      | some z => rw [hh] at hbf; exact hbf
    refine ⟨?_, by simp [h.layout], by simpa using hcur, sorted_set h.sorted _ _, ?_, ?_, ?_⟩
    · refine ⟨?_, ?_, ?_, ?_⟩
      · have := h.runs.all
        rw [← this]; simp
      · intro c hcm
        rcases List.mem_append.1 hcm with hcm | hcm
        · exact h.runs.ne c (by simp [hcm])
        · rw [List.mem_singleton] at hcm; subst hcm; simp
      · intro c hcm
        rcases List.mem_append.1 hcm with hcm | hcm
        · exact h.runs.run c (by simp [hcm])
        · rw [List.mem_singleton] at hcm; subst hcm
          rw [List.isChain_append]
          refine ⟨h.runs.run b (by simp), by simp, ?_⟩
          intro y hy z hz
          rw [Option.mem_def, hbx] at hy
          cases hy
          simp only [List.head?_cons, Option.mem_def, Option.some.injEq] at hz
          subst hz
          exact ⟨hfx, hne⟩
      · have := h.runs.cut
        rw [List.isChain_append] at this ⊢
        refine ⟨this.1, by simp, ?_⟩
        intro c hcm d hd y hy z hz
        simp only [List.head?_cons, Option.mem_def, Option.some.injEq] at hd
        subst hd
        refine this.2.2 c hcm b (by simp) y hy z ?_
        rw [List.head?_append] at hz
        cases hh : b.head? with
        | none => rw [List.head?_eq_none_iff] at hh; exact absurd hh hbne
        | some w => rw [hh] at hz; exact hz
    · simp only
      rw [List.map_append, List.map_singleton, eraseDups_snoc, if_pos hmem, List.append_nil, h.cold]
    · intro f
      simp only
      rw [find?_set h.sorted]
      by_cases hf : f = G.fn n
      · simp [hf]
      · rw [if_neg hf, h.dom f]; simp [hf]
    · intro f j
      simp only
      rw [find?_set h.sorted]
      by_cases hf : f = G.fn n
      · rw [if_pos hf]
        rintro ⟨⟩
        subst hf
        refine ⟨h1, ?_, ?_, h4, h5⟩
        · rw [runsOf_snoc, if_pos hbf']
        · rw [List.map_append, List.map_singleton, eraseDups_snoc]; exact getElem?_append_some h3
      · rw [if_neg hf]
        intro hj
        obtain ⟨k1, k2, k3, k4, k5⟩ := h.info _ _ hj
        refine ⟨k1, ?_, ?_, k4, k5⟩
        · rw [runsOf_snoc, if_neg (by rw [hbf']; simpa using fun h => hf h.symm)]
          rw [runsOf_snoc, if_neg (by rw [hbf]; simpa using fun h => hf h.symm)] at k2
          exact k2
        · rw [List.map_append, List.map_singleton, eraseDups_snoc]; exact getElem?_append_some k3

/-- **C33: the loop of `OrderAll` emits the runs of the order.** -/
theorem emit_ok (bbId : Nat → Nat) {orig opt : Nat → Option CFGScore} {order : List Nat}
    (hs : ∀ n ∈ order, (orig (G.fn n)).isSome = true ∧ (opt (G.fn n)).isSome = true) :
    ∃ B is, Runs G order B ∧ emit G bbId orig opt order = some is ∧ Emitted G bbId orig opt order B is := by
  have key : ∀ l : List Nat, (∀ n ∈ l, (orig (G.fn n)).isSome = true ∧ (opt (G.fn n)).isSome = true) →
      ∃ st B, l.foldlM (step G orig opt) {} = some st ∧ LInv G orig opt l B st := by
    intro l
    refine List.reverseRecOn l ?_ ?_
    · intro _
      refine ⟨{}, [], rfl, ⟨rfl, by simp, by simp, by simp⟩, rfl, rfl, OMap.sorted_nil, by simp, ?_, ?_⟩
      · intro f; simp; rfl
      · intro f i hi; cases hi
    · intro t n ih hh
      obtain ⟨st, B, e, inv⟩ := ih fun m hm => hh m (by simp [hm])
      obtain ⟨st', B', e', inv'⟩ := step_ok inv n (hh n (by simp)).1 (hh n (by simp)).2
      exact ⟨st', B', by rw [foldlM_snoc, e, Option.bind_some, e'], inv'⟩
  obtain ⟨st, B, e, inv⟩ := key order hs
  unfold emit
  rw [e, Option.map_some]
  have hkey : ∀ x ∈ st.infos, st.infos.find? x.1 = some x.2 := fun x hx => OMap.find?_some_of_mem inv.sorted hx
  refine ⟨B, _, inv.runs, rfl, ?_, ?_, ?_, ?_, ?_, ?_⟩
  · intro f
    rw [List.map_map, ← inv.dom f]
    constructor
    · intro hf
      obtain ⟨x, hx, rfl⟩ := List.mem_map.1 hf
      simp only [Function.comp]
      rw [(inv.info _ _ (hkey x hx)).1, hkey x hx]; rfl
    · intro hf
      obtain ⟨i, hi⟩ := Option.isSome_iff_exists.1 hf
      exact List.mem_map.2 ⟨(f, i), OMap.mem_of_find?_some hi, (inv.info _ _ hi).1⟩
  · rw [List.pairwise_map]
    have := inv.sorted
    unfold OMap.Sorted at this
    refine (List.Pairwise.and_mem.1 this).imp ?_
    rintro x y ⟨hx, hy, hxy⟩
    simp only
    rw [(inv.info _ _ (hkey x hx)).1, (inv.info _ _ (hkey y hy)).1]
    exact hxy
  · intro i hi
    obtain ⟨x, hx, rfl⟩ := List.mem_map.1 hi
    obtain ⟨h1, h2, _⟩ := inv.info _ _ (hkey x hx)
    simp only [sortClusters]
    rw [h1]
    exact (isort_perm _ _).trans (by rw [h2])
  · intro i hi
    obtain ⟨x, hx, rfl⟩ := List.mem_map.1 hi
    simp only [sortClusters]
    refine (pairwise_isort (by simp; omega) (by simp; omega) x.2.clusters).imp ?_
    intro a b hab y hy z hz
    rw [Option.mem_def] at hy hz
    rw [hy, hz] at hab
    simpa using hab
  · intro i hi
    obtain ⟨x, hx, rfl⟩ := List.mem_map.1 hi
    obtain ⟨h1, _, h3, _⟩ := inv.info _ _ (hkey x hx)
    simp only
    rw [h1]; exact h3
  · intro i hi
    obtain ⟨x, hx, rfl⟩ := List.mem_map.1 hi
    obtain ⟨h1, _, _, h4, h5⟩ := inv.info _ _ (hkey x hx)
    simp only
    rw [h1]; exact ⟨h4, h5⟩

/-! ### What this means -/

/-- A list is put together from its parts by a key. -/
theorem perm_parts {α : Type} (key : α → Option Nat) : ∀ (ks : List Nat) (l : List α), ks.Nodup → (∀ a ∈ l, ∃ k ∈ ks, key a = some k) →
    (ks.flatMap fun k => l.filter fun a => decide (key a = some k)).Perm l := by
  intro ks
  induction ks with
  | nil =>
    intro l _ h
    cases l with
    | nil => simp
    | cons a t => obtain ⟨k, hk, _⟩ := h a (by simp); cases hk
  | cons k ks ih =>
    intro l hn h
    rw [List.nodup_cons] at hn
    rw [List.flatMap_cons]
    refine List.Perm.trans ?_ (List.filter_append_perm (fun a => decide (key a = some k)) l)
    refine List.Perm.append_left _ ?_
    have h1 := ih (l.filter fun a => !decide (key a = some k)) hn.2 (by
      intro a ha
      rw [List.mem_filter] at ha
      obtain ⟨k', hk', e⟩ := h a ha.1
      rcases List.mem_cons.1 hk' with rfl | hk'
      · simp [e] at ha
      · exact ⟨k', hk', e⟩)
    refine List.Perm.trans (List.Perm.of_eq ?_) h1
    refine List.flatMap_congr fun k' hk' => ?_
    rw [List.filter_filter]
    refine List.filter_congr fun a _ => ?_
    have hne : k' ≠ k := by rintro rfl; exact hn.1 hk'
    by_cases he : key a = some k'
    · simp [he, hne]
    · simp [he]

variable {bbId : Nat → Nat} {orig opt : Nat → Option CFGScore} {order : List Nat} {B : List (List Nat)} {is : List FnInfo}

theorem zipIdx_map {α β : Type} (B : List α) (f : α → Nat → β) : (B.zipIdx.map fun x => f x.1 x.2).length = B.length ∧
    ∀ k b, B[k]? = some b → (B.zipIdx.map fun x => f x.1 x.2)[k]? = some (f b k) := by
  refine ⟨by simp, fun k b h => ?_⟩
  simp [h]

/-- All clusters together are the runs, each with its position. -/
theorem Emitted.all (h : Emitted G bbId orig opt order B is) (hr : Runs G order B) :
    (is.flatMap (·.clusters)).Perm (B.zipIdx.map fun x => ⟨x.2, x.1⟩) := by
  have h1 : (is.flatMap (·.clusters)).Perm (is.flatMap fun i => runsOf G B i.fn) := by
    have := h.clusters
    clear h
    induction is with
    | nil => simp
    | cons a t ih =>
      rw [List.flatMap_cons, List.flatMap_cons]
      exact (this a (by simp)).append (ih fun i hi => this i (by simp [hi]))
  refine h1.trans ?_
  have hn : (is.map (·.fn)).Nodup := by
    rw [List.Nodup, List.pairwise_map]
    exact h.sorted.imp fun h => Nat.ne_of_lt h
  have hp := perm_parts (fun x : List Nat × Nat => x.1.head?.map G.fn) (is.map (·.fn)) B.zipIdx hn (by
    rintro ⟨b, k⟩ hx
    have hb : b ∈ B := (List.mem_zipIdx hx).2.2 ▸ List.getElem_mem _
    cases b with
    | nil => exact absurd rfl (hr.ne _ hb)
    | cons a t =>
      refine ⟨G.fn a, (h.fns _).2 (List.mem_map.2 ⟨a, ?_, rfl⟩), rfl⟩
      rw [← hr.all]
      exact List.mem_flatten.2 ⟨_, hb, by simp⟩)
  have := hp.map fun x : List Nat × Nat => (⟨x.2, x.1⟩ : BBCluster)
  rw [List.map_flatMap, List.flatMap_map] at this
  exact this

/-- **C33: layout indices over all clusters are `0 … n-1`, without gaps or repeats.** -/
theorem layout_indices (h : Emitted G bbId orig opt order B is) (hr : Runs G order B) :
    ((is.flatMap (·.clusters)).map (·.idx)).Perm (List.range B.length) := by
  refine ((h.all hr).map _).trans (List.Perm.of_eq ?_)
  rw [List.map_map]
  have : ((fun c : BBCluster => c.idx) ∘ fun x : List Nat × Nat => ⟨x.2, x.1⟩) = Prod.snd := rfl
  rw [this, List.zipIdx_map_snd, List.range_eq_range']

/-- **C33: reading the clusters in the order of their indices gives back the order of the blocks.** -/
theorem layout_order (h : Emitted G bbId orig opt order B is) (hr : Runs G order B) :
    (isort (fun a b : BBCluster => decide (a.idx ≤ b.idx)) (is.flatMap (·.clusters))).flatMap (·.blocks) = order := by
  have hs : isort (fun a b : BBCluster => decide (a.idx ≤ b.idx)) (is.flatMap (·.clusters)) = B.zipIdx.map fun x => ⟨x.2, x.1⟩ := by
    have hlt : (B.zipIdx.map fun x => (⟨x.2, x.1⟩ : BBCluster)).Pairwise fun a b => a.idx < b.idx := by
      rw [List.pairwise_map]
      have : (B.zipIdx.map Prod.snd).Pairwise (· < ·) := by
        rw [List.zipIdx_map_snd]; exact List.pairwise_lt_range'
      rw [List.pairwise_map] at this
      exact this
    refine List.Perm.eq_of_pairwise (le := fun a b => a.idx ≤ b.idx) ?_ ?_ (hlt.imp fun h => Nat.le_of_lt h) ((isort_perm _ _).trans (h.all hr))
    · intro a b ha hb h1 h2
      have ha' := (h.all hr).mem_iff.1 (mem_isort.1 ha)
      have hmap := hlt
      obtain ⟨x, hx, rfl⟩ := List.mem_map.1 ha'
      obtain ⟨y, hy, rfl⟩ := List.mem_map.1 hb
      have hxy : x.2 = y.2 := by simp only at h1 h2; omega
      obtain ⟨x1, x2⟩ := x
      obtain ⟨y1, y2⟩ := y
      simp only at hxy
      subst hxy
      have e1 := List.mem_zipIdx_iff_getElem?.1 hx
      have e2 := List.mem_zipIdx_iff_getElem?.1 hy
      simp only at e1 e2
      rw [e1] at e2
      cases e2
      rfl
    · exact (pairwise_isort (by simp; omega) (by simp; omega) _).imp fun h => by simpa using h
  rw [hs, List.flatMap_map]
  have : (B.zipIdx.flatMap fun a => (⟨a.2, a.1⟩ : BBCluster).blocks) = (B.zipIdx.map Prod.fst).flatten := by
    rw [List.flatMap_def]
  rw [this, List.zipIdx_map_fst, hr.all]

/-- Blocks of a run are of the function of its first block. -/
theorem run_fn : ∀ {b : List Nat}, b.IsChain (Together G) → ∀ n ∈ b, b.head?.map G.fn = some (G.fn n) := by
  intro b
  induction b with
  | nil => simp
  | cons a t ih =>
    intro h n hn
    rcases List.mem_cons.1 hn with rfl | hn
    · rfl
    · cases t with
      | nil => cases hn
      | cons c t =>
        rw [List.isChain_cons_cons] at h
        have := ih h.2 n hn
        simp only [List.head?_cons, Option.map_some] at this ⊢
        rw [h.1.1, this]

/-- **C33: each block is in exactly one cluster, of its own function.** -/
theorem layout_once (h : Emitted G bbId orig opt order B is) (hr : Runs G order B) (hn : order.Nodup) :
    (∀ i ∈ is, ∀ c ∈ i.clusters, c.blocks ≠ [] ∧ ∀ n ∈ c.blocks, n ∈ order ∧ G.fn n = i.fn) ∧
    ((is.flatMap (·.clusters)).flatMap (·.blocks)).Perm order ∧ ((is.flatMap (·.clusters)).flatMap (·.blocks)).Nodup := by
  have hp : ((is.flatMap (·.clusters)).flatMap (·.blocks)).Perm order := by
    have := (isort_perm (fun a b : BBCluster => decide (a.idx ≤ b.idx)) (is.flatMap (·.clusters))).flatMap_right (·.blocks)
    rw [layout_order h hr] at this
    exact this.symm
  refine ⟨?_, hp, hp.nodup_iff.2 hn⟩
  intro i hi c hc
  have hm := (h.clusters i hi).mem_iff.1 hc
  unfold runsOf at hm
  obtain ⟨x, hx, rfl⟩ := List.mem_map.1 hm
  rw [List.mem_filter] at hx
  have hb : x.1 ∈ B := (List.mem_zipIdx hx.1).2.2 ▸ List.getElem_mem _
  refine ⟨hr.ne _ hb, fun n hnm => ⟨?_, ?_⟩⟩
  · rw [← hr.all]; exact List.mem_flatten.2 ⟨_, hb, hnm⟩
  · have h1 := run_fn (hr.run _ hb) n hnm
    have h2 := hx.2
    simp only [decide_eq_true_eq] at h2
    rw [h2] at h1
    exact (Option.some.inj h1).symm

/-- **C33: an entry block is the first of its cluster.** -/
theorem layout_entry (h : Emitted G bbId orig opt order B is) (hr : Runs G order B) {i : FnInfo} (hi : i ∈ is) {c : BBCluster}
    (hc : c ∈ i.clusters) {n : Nat} (hn : n ∈ c.blocks.tail) : G.bbi n ≠ 0 := by
  have hm := (h.clusters i hi).mem_iff.1 hc
  unfold runsOf at hm
  obtain ⟨x, hx, rfl⟩ := List.mem_map.1 hm
  rw [List.mem_filter] at hx
  have hb : x.1 ∈ B := (List.mem_zipIdx hx.1).2.2 ▸ List.getElem_mem _
  have key : ∀ (b : List Nat), b.IsChain (Together G) → ∀ n ∈ b.tail, G.bbi n ≠ 0 := by
    intro b
    induction b with
    | nil => simp
    | cons a t ih =>
      intro h n hn
      cases t with
      | nil => cases hn
      | cons c t =>
        rw [List.isChain_cons_cons] at h
        rcases List.mem_cons.1 hn with rfl | hn
        · exact h.1.2
        · exact ih h.2 n hn
  exact key _ (hr.run _ hb) n hn

/-- **C33: cold indices number the functions `0 … m-1` in the order in which they first appear.** -/
theorem layout_cold (h : Emitted G bbId orig opt order B is) :
    (is.map (·.cold)).Perm (List.range is.length) ∧
    ∀ i ∈ is, ∀ j ∈ is, i.cold < j.cold → ∃ pre post, order = pre ++ post ∧ i.fn ∈ pre.map G.fn ∧ j.fn ∉ pre.map G.fn := by
  have hnd : (order.map G.fn).eraseDups.Nodup := nodup_eraseDups _
  have hn : (is.map (·.fn)).Nodup := by
    rw [List.Nodup, List.pairwise_map]
    exact h.sorted.imp fun h => Nat.ne_of_lt h
  have hperm : (is.map (·.fn)).Perm (order.map G.fn).eraseDups := by
    rw [List.perm_ext_iff_of_nodup hn hnd]
    intro f
    rw [h.fns f, List.mem_eraseDups]
  have hlen : is.length = (order.map G.fn).eraseDups.length := by
    have := hperm.length_eq
    simpa using this
  constructor
  · refine List.Perm.symm (List.Subperm.perm_of_length_le ?_ (by simp))
    refine List.subperm_of_subset List.nodup_range ?_
    intro k hk
    rw [List.mem_range, hlen] at hk
    have hm : (order.map G.fn).eraseDups[k] ∈ is.map (·.fn) := hperm.mem_iff.2 (List.getElem_mem _)
    obtain ⟨i, hi, e⟩ := List.mem_map.1 hm
    refine List.mem_map.2 ⟨i, hi, ?_⟩
    have hc := h.cold i hi
    obtain ⟨hlt, hc⟩ := List.getElem?_eq_some_iff.1 hc
    exact (List.Nodup.getElem_inj_iff hnd).1 (hc.trans e)
  · have key : ∀ (l : List Nat) (a b : Nat) (x y : Nat), l.eraseDups[a]? = some x → l.eraseDups[b]? = some y → a < b →
        ∃ pre post, l = pre ++ post ∧ x ∈ pre ∧ y ∉ pre := by
      intro l
      refine List.reverseRecOn l ?_ ?_
      · intro a b x y h; simp at h
      · intro t z ih a b x y hx hy hab
        rw [eraseDups_snoc] at hx hy
        by_cases hz : z ∈ t
        · rw [if_pos hz, List.append_nil] at hx hy
          obtain ⟨pre, post, e, h1, h2⟩ := ih a b x y hx hy hab
          exact ⟨pre, post ++ [z], by rw [e, List.append_assoc], h1, h2⟩
        · rw [if_neg hz] at hx hy
          by_cases hb : b < t.eraseDups.length
          · rw [List.getElem?_append_left hb] at hy
            rw [List.getElem?_append_left (by omega)] at hx
            obtain ⟨pre, post, e, h1, h2⟩ := ih a b x y hx hy hab
            exact ⟨pre, post ++ [z], by rw [e, List.append_assoc], h1, h2⟩
          · have hb' : b = t.eraseDups.length := by
              have := (List.getElem?_eq_some_iff.1 hy).1
              simp at this; omega
            subst hb'
            simp at hy
            subst hy
            rw [List.getElem?_append_left hab] at hx
            refine ⟨t, [z], rfl, ?_, hz⟩
            rw [← List.mem_eraseDups]
            exact List.mem_of_getElem? hx
    intro i hi j hj hij
    obtain ⟨pre, post, e, h1, h2⟩ := key _ _ _ _ _ (h.cold i hi) (h.cold j hj) hij
    obtain ⟨p, q, rfl, e1, e2⟩ := List.map_eq_append_iff.1 e
    exact ⟨p, q, rfl, by rw [e1]; exact h1, by rw [e1]; exact h2⟩

/-- Without clones, block ids in a function are distinct; then the order of the clusters of a function is determined. -/
theorem layout_byId (h : Emitted G bbId orig opt order B is) (hr : Runs G order B) (hn : order.Nodup)
    (hid : ∀ n ∈ order, ∀ m ∈ order, G.fn n = G.fn m → bbId n = bbId m → n = m) {i : FnInfo} (hi : i ∈ is) :
    i.clusters.Pairwise fun a b => ∀ x ∈ a.blocks.head?, ∀ y ∈ b.blocks.head?, bbId x < bbId y := by
  obtain ⟨h1, _, h3⟩ := layout_once h hr hn
  have h4 : (i.clusters.flatMap (·.blocks)).Nodup := by
    refine h3.sublist ?_
    rw [List.flatMap_assoc]
    obtain ⟨s, t, e⟩ := List.append_of_mem hi
    rw [e, List.flatMap_append, List.flatMap_cons]
    exact (List.sublist_append_left _ _).trans (List.sublist_append_right _ _)
  have h5 : i.clusters.Pairwise fun a b => List.Disjoint a.blocks b.blocks := (List.nodup_flatMap.1 h4).2
  refine (List.Pairwise.and_mem.1 ((h.byId i hi).and h5)).imp ?_
  rintro a b ⟨ha, hb, hle, hd⟩ x hx y hy
  have hxa : x ∈ a.blocks := List.mem_of_mem_head? hx
  have hyb : y ∈ b.blocks := List.mem_of_mem_head? hy
  refine lt_of_le_of_ne (hle x hx y hy) fun he => ?_
  obtain ⟨o1, f1⟩ := (h1 i hi a ha).2 x hxa
  obtain ⟨o2, f2⟩ := (h1 i hi b hb).2 y hyb
  have := hid x o1 y o2 (f1.trans f2.symm) he
  subst this
  exact hd hxa hyb

end Verif.Layout

import Verif.LayoutAll
import Verif.SampleProps

/-! # C33, C52: the two files of Propeller (llvm_propeller_profile_writer.h/.cc)

Text is a list of characters; the file is its lines, each ended by a newline. The verbose output (comments) and the CFG dump
are not modelled. -/
namespace Verif.Layout
open Verif Verif.Chain Verif.Cluster

/-- What the writer reads of a CFG. -/
structure CfgOut where
  names : List (List Char)
  module_ : Option (List Char) := none
  /-- `clone_paths()`, the block ids -/
  paths : List (List Nat) := []
  nNodes : Nat

/-- The name suffix of a symbol. -/
inductive Tag
  | plain | part (n : Nat) | cold
  deriving DecidableEq

/-- The text of a suffix (llvm_propeller_profile_writer.cc:220-222, 253). -/
def Tag.str : Tag → List Char
  | .plain => []
  | .part n => ".__part.".toList ++ Sample.printNum 10 n
  | .cold => ".cold".toList

/-- `v[k] = a`; `none`: out of range. -/
def setAt {α : Type} (v : List α) (x : Nat × α) : Option (List α) := if x.1 < v.length then some (v.set x.1 x.2) else none

variable (bbi : Nat → Nat) (cfg : Nat → Option CfgOut)

/-- What is put into `symbol_order` for the clusters of a function, with its place
(llvm_propeller_profile_writer.cc:186-200); `none`: the CFG is not found, or `front()` of an empty vector. -/
def fnSymbols (i : FnInfo) : Option (List (Nat × (List (List Char) × Tag))) :=
  (cfg i.fn).bind fun c => gather (fun x : BBCluster × Nat =>
    x.1.blocks.head?.map fun n => [(x.1.idx, (c.names, if bbi n = 0 then Tag.plain else Tag.part x.2))]) i.clusters.zipIdx

/-- `symbol_order` (llvm_propeller_profile_writer.cc:117-126, 134-200). -/
def symbolOrder (is : List FnInfo) : Option (List (List (List Char) × Tag)) :=
  (gather (fnSymbols bbi cfg) is).bind fun xs => xs.foldlM setAt (List.replicate (is.map (·.clusters.length)).sum ([], .plain))

/-- `cold_symbol_order` (llvm_propeller_profile_writer.cc:127-131, 212-213); `none`: out of range, or a null pointer is
read. -/
def coldOrder (is : List FnInfo) : Option (List FnInfo) :=
  ((is.map fun i => (i.cold, some i)).foldlM setAt (List.replicate is.length none)).bind fun v => gather (·.map fun i => [i]) v

/-- The cold symbol of a function (llvm_propeller_profile_writer.cc:230-257). -/
def coldSymbols (i : FnInfo) : Option (List (List Char × Tag)) :=
  (cfg i.fn).map fun c =>
    if (i.clusters.map (·.blocks.length)).sum = c.nNodes then []
    else c.names.map fun n => (n, if (i.clusters.any fun cl => cl.blocks.head?.any fun n => decide (bbi n = 0)) = true then .cold else .plain)

/-- The symbols of the symbol order file (llvm_propeller_profile_writer.cc:215-257). -/
def ldSymbols (is : List FnInfo) : Option (List (List Char × Tag)) :=
  (symbolOrder bbi cfg is).bind fun so => (coldOrder is).bind fun co =>
    (gather (coldSymbols bbi cfg) co).map fun cold => so.flatMap (fun x => x.1.map fun n => (n, x.2)) ++ cold

/-- The symbol order file. -/
def ldLines (is : List FnInfo) : Option (List (List Char)) := (ldSymbols bbi cfg is).map (·.map fun x => x.1 ++ x.2.str)

/-! ### Proofs -/

variable {bbi cfg}

theorem gather_eq {α β : Type} {f : α → Option (List β)} {g : α → List β} : ∀ {l : List α}, (∀ a ∈ l, f a = some (g a)) →
    gather f l = some (l.flatMap g) := by
  intro l
  induction l with
  | nil => intro _; rfl
  | cons a t ih =>
    intro h
    rw [gather, h a (by simp), Option.bind_some, ih fun x hx => h x (by simp [hx]), Option.map_some, List.flatMap_cons]

theorem foldlM_setAt {α : Type} : ∀ (xs : List (Nat × α)) (v : List α), (xs.map (·.1)).Nodup → (∀ x ∈ xs, x.1 < v.length) →
    ∃ w, xs.foldlM setAt v = some w ∧ w.length = v.length ∧ (∀ x ∈ xs, w[x.1]? = some x.2) ∧
      ∀ k, k ∉ xs.map (·.1) → w[k]? = v[k]? := by
  intro xs
  induction xs with
  | nil => intro v _ _; exact ⟨v, rfl, rfl, by simp, by simp⟩
  | cons x t ih =>
    intro v hn hl
    rw [List.map_cons, List.nodup_cons] at hn
    have hx := hl x (by simp)
    obtain ⟨w, e, h1, h2, h3⟩ := ih (v.set x.1 x.2) hn.2 (by intro y hy; rw [List.length_set]; exact hl y (by simp [hy]))
    refine ⟨w, ?_, by rw [h1, List.length_set], ?_, ?_⟩
    · rw [List.foldlM_cons, setAt, if_pos hx]; exact e
    · intro y hy
      rcases List.mem_cons.1 hy with rfl | hy
      · rw [h3 _ hn.1]; simp [hx]
      · exact h2 y hy
    · intro k hk
      rw [List.map_cons, List.mem_cons, not_or] at hk
      rw [h3 k hk.2, List.getElem?_set_ne (fun h => hk.1 h.symm)]

variable {G : Prog} {bbId : Nat → Nat} {orig opt : Nat → Option CFGScore} {order : List Nat} {B : List (List Nat)} {is : List FnInfo}

/-- **C33: the symbol order file lists the runs of the layout in order, each under all names of its function: under the plain
name if it begins with the entry block, and else as part `N`, where `N` is the number of the run among the clusters of the
function in the cluster file.** -/
theorem symbolOrder_ok (h : Emitted G bbId orig opt order B is) (hr : Runs G order B) (hcfg : ∀ i ∈ is, (cfg i.fn).isSome = true) :
    ∃ so, symbolOrder G.bbi cfg is = some so ∧ so.length = B.length ∧
      ∀ (j : Nat) (b : List Nat), B[j]? = some b → ∃ i ∈ is, ∃ (N : Nat) (c : CfgOut) (n : Nat), i.clusters[N]? = some ⟨j, b⟩ ∧ cfg i.fn = some c ∧
        b.head? = some n ∧ G.fn n = i.fn ∧ so[j]? = some (c.names, if G.bbi n = 0 then Tag.plain else Tag.part N) := by
  have hne : ∀ i ∈ is, ∀ c ∈ i.clusters, ∃ n, c.blocks.head? = some n ∧ G.fn n = i.fn := by
    intro i hi c hc
    have hm := (h.clusters i hi).mem_iff.1 hc
    unfold runsOf at hm
    obtain ⟨x, hx, rfl⟩ := List.mem_map.1 hm
    rw [List.mem_filter] at hx
    have := hx.2
    simp only [decide_eq_true_eq] at this
    exact Option.map_eq_some_iff.1 this
  -- what is assigned
  obtain ⟨g, hg⟩ : ∃ g : FnInfo → List (Nat × (List (List Char) × Tag)), ∀ i, g i = i.clusters.zipIdx.flatMap fun x =>
      [(x.1.idx, (((cfg i.fn).map (·.names)).getD [], if (x.1.blocks.head?.map G.bbi).getD 0 = 0 then Tag.plain else Tag.part x.2))] :=
    ⟨_, fun _ => rfl⟩
  have hfs : ∀ i ∈ is, fnSymbols G.bbi cfg i = some (g i) := by
    intro i hi
    obtain ⟨c, hc⟩ := Option.isSome_iff_exists.1 (hcfg i hi)
    unfold fnSymbols
    rw [hc, Option.bind_some, hg]
    refine gather_eq fun x hx => ?_
    obtain ⟨n, hn, _⟩ := hne i hi x.1 ((List.mem_zipIdx hx).2.2 ▸ List.getElem_mem _)
    simp [hn, hc]
  have hgk : ∀ i, (g i).map (·.1) = i.clusters.map (·.idx) := by
    intro i
    rw [hg, List.map_flatMap]
    simp only [List.map_cons, List.map_nil]
    rw [← List.map_eq_flatMap]
    have : (fun x : BBCluster × Nat => x.1.idx) = (fun c : BBCluster => c.idx) ∘ Prod.fst := rfl
    rw [this, ← List.map_map, List.zipIdx_map_fst]
  have hkeys : (is.flatMap g).map (·.1) = (is.flatMap (·.clusters)).map (·.idx) := by
    rw [List.map_flatMap, List.map_flatMap]
    exact List.flatMap_congr fun i _ => hgk i
  have hperm := layout_indices h hr
  have hlen : (is.map (·.clusters.length)).sum = B.length := by
    have := hperm.length_eq
    rw [List.length_map, List.length_flatMap, List.length_range] at this
    exact this
  obtain ⟨so, e, h1, h2, _⟩ := foldlM_setAt (is.flatMap g) (List.replicate B.length (([] : List (List Char)), Tag.plain))
    (by rw [hkeys]; exact hperm.nodup_iff.2 List.nodup_range)
    (by
      intro x hx
      have : x.1 ∈ (is.flatMap g).map (·.1) := List.mem_map.2 ⟨x, hx, rfl⟩
      rw [hkeys, hperm.mem_iff, List.mem_range] at this
      rw [List.length_replicate]; exact this)
  refine ⟨so, ?_, by rw [h1, List.length_replicate], ?_⟩
  · unfold symbolOrder
    rw [gather_eq hfs, Option.bind_some, hlen]; exact e
  · intro j b hb
    have hm : (⟨j, b⟩ : BBCluster) ∈ is.flatMap (·.clusters) := by
      rw [(h.all hr).mem_iff]
      exact List.mem_map.2 ⟨(b, j), List.mem_zipIdx_iff_getElem?.2 hb, rfl⟩
    obtain ⟨i, hi, hc⟩ := List.mem_flatMap.1 hm
    obtain ⟨N, hN⟩ := List.mem_iff_getElem?.1 hc
    obtain ⟨c, hcf⟩ := Option.isSome_iff_exists.1 (hcfg i hi)
    obtain ⟨n, hn, hfn⟩ := hne i hi _ hc
    refine ⟨i, hi, N, c, n, hN, hcf, hn, hfn, ?_⟩
    have := h2 (j, (c.names, if G.bbi n = 0 then Tag.plain else Tag.part N)) (List.mem_flatMap.2 ⟨i, hi, by
      rw [hg]
      refine List.mem_flatMap.2 ⟨(⟨j, b⟩, N), List.mem_zipIdx_iff_getElem?.2 hN, ?_⟩
      simp only at hn
      simp [hn, hcf]⟩)
    exact this

/-- **C33: the cold parts come in the order in which the functions first appear in the layout.** -/
theorem coldOrder_ok (h : Emitted G bbId orig opt order B is) :
    ∃ co, coldOrder is = some co ∧ co.map (·.fn) = (order.map G.fn).eraseDups ∧ co.Perm is := by
  obtain ⟨hc1, _⟩ := layout_cold h
  have hmap : ((is.map fun i => (i.cold, some i)).map (·.1)) = is.map (·.cold) := by rw [List.map_map]; rfl
  obtain ⟨v, e, h1, h2, h3⟩ := foldlM_setAt (is.map fun i => (i.cold, some i)) (List.replicate is.length (none : Option FnInfo))
    (by rw [hmap]; exact hc1.nodup_iff.2 List.nodup_range)
    (by
      intro x hx
      have : x.1 ∈ (is.map fun i => (i.cold, some i)).map (·.1) := List.mem_map.2 ⟨x, hx, rfl⟩
      rw [hmap, hc1.mem_iff, List.mem_range] at this
      rw [List.length_replicate]; exact this)
  rw [List.length_replicate] at h1
  have hlen : is.length = (order.map G.fn).eraseDups.length := by
    have hn : (is.map (·.fn)).Nodup := by
      rw [List.Nodup, List.pairwise_map]
      exact h.sorted.imp fun h => Nat.ne_of_lt h
    have hperm : (is.map (·.fn)).Perm (order.map G.fn).eraseDups := by
      rw [List.perm_ext_iff_of_nodup hn (nodup_eraseDups _)]
      intro f
      rw [h.fns f, List.mem_eraseDups]
    have := hperm.length_eq
    simpa using this
  have hall : ∀ k, k < is.length → ∃ i ∈ is, i.cold = k ∧ v[k]? = some (some i) := by
    intro k hk
    have : k ∈ is.map (·.cold) := hc1.mem_iff.2 (List.mem_range.2 hk)
    obtain ⟨i, hi, rfl⟩ := List.mem_map.1 this
    exact ⟨i, hi, rfl, h2 (i.cold, some i) (List.mem_map.2 ⟨i, hi, rfl⟩)⟩
  have hv : ∃ co : List FnInfo, v = co.map some := by
    refine ⟨v.filterMap id, ?_⟩
    refine List.ext_getElem? fun k => ?_
    have hvs : ∀ x ∈ v, ∃ i, x = some i := by
      intro x hx
      obtain ⟨k, hk⟩ := List.mem_iff_getElem?.1 hx
      have hlt := (List.getElem?_eq_some_iff.1 hk).1
      obtain ⟨i, _, _, hi⟩ := hall k (by omega)
      rw [hk] at hi
      exact ⟨i, Option.some.inj hi⟩
    have : (v.filterMap id).map some = v := by
      clear h1 h2 h3 hall e
      induction v with
      | nil => rfl
      | cons a t ih =>
        obtain ⟨i, rfl⟩ := hvs a (by simp)
        rw [List.filterMap_cons_some (f := id) (a := some i) (b := i) rfl, List.map_cons, ih fun x hx => hvs x (by simp [hx])]
    rw [this]
  obtain ⟨co, hco⟩ := hv
  have hcol : co.length = is.length := by rw [← h1, hco, List.length_map]
  have hget : ∀ k, k < is.length → ∃ i ∈ is, i.cold = k ∧ co[k]? = some i := by
    intro k hk
    obtain ⟨i, hi, hik, hvk⟩ := hall k hk
    refine ⟨i, hi, hik, ?_⟩
    rw [hco, List.getElem?_map] at hvk
    obtain ⟨j, hj, he⟩ := Option.map_eq_some_iff.1 hvk
    rw [hj, Option.some.inj he]
  refine ⟨co, ?_, ?_, ?_⟩
  · unfold coldOrder
    rw [e, Option.bind_some, hco]
    have : gather (fun x : Option FnInfo => x.map fun i => [i]) (co.map some) = some co := by
      clear hco hcol hget
      induction co with
      | nil => rfl
      | cons a t ih => simp only [List.map_cons, gather, Option.map_some, Option.bind_some, ih]; rfl
    exact this
  · refine List.ext_getElem? fun k => ?_
    by_cases hk : k < is.length
    · obtain ⟨i, hi, hik, hc⟩ := hget k hk
      rw [List.getElem?_map, hc, Option.map_some, ← h.cold i hi, hik]
    · rw [List.getElem?_eq_none (by rw [List.length_map]; omega), List.getElem?_eq_none (by omega)]
  · have hsub : ∀ x ∈ is, x ∈ co := by
      intro i hi
      have : i.cold < is.length := List.mem_range.1 (hc1.mem_iff.1 (List.mem_map.2 ⟨i, hi, rfl⟩))
      obtain ⟨j, hj, hjk, hc⟩ := hget _ this
      have hinj := List.inj_on_of_nodup_map (hc1.nodup_iff.2 List.nodup_range) hj hi hjk
      rw [hinj] at hc
      exact List.mem_of_getElem? hc
    have hnd : is.Nodup := h.sorted.imp fun h => by rintro rfl; exact Nat.lt_irrefl _ h
    exact (List.Subperm.perm_of_length_le (List.subperm_of_subset hnd hsub) (by omega)).symm

/-- A function whose blocks are all in clusters has no cold part. -/
def HasCold (cfg : Nat → Option CfgOut) (i : FnInfo) : Prop := ∃ c, cfg i.fn = some c ∧ (i.clusters.map (·.blocks.length)).sum ≠ c.nNodes

/-- The entry block of a function is laid out. -/
def EntryIn (G : Prog) (i : FnInfo) : Prop := ∃ c ∈ i.clusters, ∃ n ∈ c.blocks, G.bbi n = 0

/-- The first blocks of the clusters show whether the entry block is in them. -/
theorem entryIn_iff (h : Emitted G bbId orig opt order B is) (hr : Runs G order B) {i : FnInfo} (hi : i ∈ is) :
    (i.clusters.any fun cl => cl.blocks.head?.any fun n => decide (G.bbi n = 0)) = true ↔ EntryIn G i := by
  rw [List.any_eq_true]
  constructor
  · rintro ⟨c, hc, hx⟩
    rw [Option.any_eq_true] at hx
    obtain ⟨n, hn, h0⟩ := hx
    exact ⟨c, hc, n, List.mem_of_mem_head? hn, by simpa using h0⟩
  · rintro ⟨c, hc, n, hn, h0⟩
    refine ⟨c, hc, ?_⟩
    cases hb : c.blocks with
    | nil => rw [hb] at hn; cases hn
    | cons a t =>
      rw [hb] at hn
      rcases List.mem_cons.1 hn with rfl | hn
      · simp [h0]
      · exact absurd h0 (layout_entry h hr hi hc (by rw [hb]; exact hn))

/-- **C33: the cold symbols of a function: none if all its blocks are laid out; else its names, with `.cold` if its entry
block is laid out.** -/
theorem coldSymbols_ok (h : Emitted G bbId orig opt order B is) (hr : Runs G order B) {i : FnInfo} (hi : i ∈ is) {c : CfgOut}
    (hc : cfg i.fn = some c) : ∃ xs, coldSymbols G.bbi cfg i = some xs ∧ (¬ HasCold cfg i → xs = []) ∧
      (HasCold cfg i → EntryIn G i → xs = c.names.map fun n => (n, Tag.cold)) ∧
      (HasCold cfg i → ¬ EntryIn G i → xs = c.names.map fun n => (n, Tag.plain)) := by
  unfold coldSymbols
  rw [hc, Option.map_some]
  refine ⟨_, rfl, ?_, ?_, ?_⟩
  · intro hn
    rw [if_pos]
    by_contra hx
    exact hn ⟨c, hc, hx⟩
  · rintro ⟨d, hd, hx⟩ he
    rw [hc] at hd; cases hd
    rw [if_neg hx]
    simp only [(entryIn_iff h hr hi).2 he, if_true]
  · rintro ⟨d, hd, hx⟩ he
    rw [hc] at hd; cases hd
    rw [if_neg hx]
    have : (i.clusters.any fun cl => cl.blocks.head?.any fun n => decide (G.bbi n = 0)) = false := by
      rw [Bool.eq_false_iff]; exact fun hh => he ((entryIn_iff h hr hi).1 hh)
    simp only [this]; simp

/-- **C33: no symbol is listed twice** - if functions have different names, and a function has one entry block in the layout. -/
theorem ldSymbols_nodup (h : Emitted G bbId orig opt order B is) (hr : Runs G order B) (hon : order.Nodup)
    (hcfg : ∀ i ∈ is, (cfg i.fn).isSome = true)
    (hnames : ∀ i ∈ is, ∀ c, cfg i.fn = some c → c.names.Nodup)
    (hdiff : ∀ i ∈ is, ∀ j ∈ is, ∀ c d, cfg i.fn = some c → cfg j.fn = some d → ∀ n ∈ c.names, n ∈ d.names → i = j)
    (hone : ∀ n ∈ order, ∀ m ∈ order, G.bbi n = 0 → G.bbi m = 0 → G.fn n = G.fn m → n = m) :
    ∃ xs, ldSymbols G.bbi cfg is = some xs ∧ xs.Nodup := by
  obtain ⟨so, e1, hlen, hso⟩ := symbolOrder_ok h hr hcfg
  obtain ⟨co, e2, _, hcp⟩ := coldOrder_ok h
  obtain ⟨g, hg⟩ : ∃ g : FnInfo → List (List Char × Tag), ∀ i ∈ is, coldSymbols G.bbi cfg i = some (g i) := by
    refine ⟨fun i => (coldSymbols G.bbi cfg i).getD [], fun i hi => ?_⟩
    obtain ⟨c, hc⟩ := Option.isSome_iff_exists.1 (hcfg i hi)
    obtain ⟨xs, hx, _⟩ := coldSymbols_ok h hr hi hc
    beta_reduce
    rw [hx]; rfl
  have e3 : gather (coldSymbols G.bbi cfg) co = some (co.flatMap g) := gather_eq fun i hi => hg i (hcp.mem_iff.1 hi)
  refine ⟨_, by unfold ldSymbols; rw [e1, Option.bind_some, e2, Option.bind_some, e3, Option.map_some], ?_⟩
  -- what the members are
  have hget : ∀ (j : Nat) (x : List (List Char) × Tag), so[j]? = some x → ∃ b, B[j]? = some b := by
    intro j x hx
    have := (List.getElem?_eq_some_iff.1 hx).1
    exact ⟨B[j]'(by omega), List.getElem?_eq_some_iff.2 ⟨by omega, rfl⟩⟩
  have hclu : ∀ i ∈ is, ∀ (N : Nat) (j : Nat) (b : List Nat), i.clusters[N]? = some ⟨j, b⟩ → B[j]? = some b := by
    intro i hi N j b hN
    have hm := (h.clusters i hi).mem_iff.1 (List.mem_of_getElem? hN)
    unfold runsOf at hm
    obtain ⟨x, hx, he⟩ := List.mem_map.1 hm
    have := List.mem_zipIdx_iff_getElem?.1 (List.mem_filter.1 hx).1
    cases he
    exact this
  -- symbols of two runs differ
  have hdis : ∀ (j k : Nat) (x y : List (List Char) × Tag), so[j]? = some x → so[k]? = some y → j ≠ k → ∀ n ∈ x.1, n ∈ y.1 → x.2 ≠ y.2 := by
    intro j k x y hx hy hjk n hnx hny ht
    obtain ⟨b, hb⟩ := hget j x hx
    obtain ⟨b', hb'⟩ := hget k y hy
    obtain ⟨i, hi, N, c, m, hN, hc, hm, hfm, hsx⟩ := hso j b hb
    obtain ⟨i', hi', N', c', m', hN', hc', hm', hfm', hsy⟩ := hso k b' hb'
    rw [hx] at hsx; cases hsx
    rw [hy] at hsy; cases hsy
    have hii := hdiff i hi i' hi' c c' hc hc' n hnx hny
    subst hii
    have hmo : ∀ (j : Nat) (b : List Nat) (m : Nat), B[j]? = some b → b.head? = some m → m ∈ order := by
      intro j b m hb hm
      rw [← hr.all]
      exact List.mem_flatten.2 ⟨b, List.mem_of_getElem? hb, List.mem_of_mem_head? hm⟩
    simp only at ht
    by_cases h0 : G.bbi m = 0
    · rw [if_pos h0] at ht
      by_cases h0' : G.bbi m' = 0
      · have := hone m (hmo j b m hb hm) m' (hmo k b' m' hb' hm') h0 h0' (hfm.trans hfm'.symm)
        subst this
        -- one block in two runs
        have hnd := hon
        rw [← hr.all, List.nodup_flatten] at hnd
        have hp := hnd.2
        rw [List.pairwise_iff_getElem] at hp
        obtain ⟨l1, g1⟩ := List.getElem?_eq_some_iff.1 hb
        obtain ⟨l2, g2⟩ := List.getElem?_eq_some_iff.1 hb'
        rcases Nat.lt_or_gt_of_ne hjk with hlt | hlt
        · have := hp j k l1 l2 hlt
          rw [g1, g2] at this
          exact this (List.mem_of_mem_head? hm) (List.mem_of_mem_head? hm')
        · have := hp k j l2 l1 hlt
          rw [g1, g2] at this
          exact this (List.mem_of_mem_head? hm') (List.mem_of_mem_head? hm)
      · rw [if_neg h0'] at ht; cases ht
    · rw [if_neg h0] at ht
      by_cases h0' : G.bbi m' = 0
      · rw [if_pos h0'] at ht; cases ht
      · rw [if_neg h0'] at ht
        cases ht
        rw [hN] at hN'
        cases hN'
        exact hjk rfl
  rw [List.nodup_append]
  refine ⟨?_, ?_, ?_⟩
  · rw [List.nodup_flatMap]
    constructor
    · intro x hx
      obtain ⟨j, hj⟩ := List.mem_iff_getElem?.1 hx
      obtain ⟨b, hb⟩ := hget j x hj
      obtain ⟨i, hi, N, c, m, hN, hc, hm, hfm, hsx⟩ := hso j b hb
      rw [hj] at hsx; cases hsx
      exact List.Nodup.map (fun a b h => (Prod.mk.inj h).1) (hnames i hi c hc)
    · rw [List.pairwise_iff_getElem]
      intro j k hj hk hjk
      rw [Function.onFun_apply, List.disjoint_left]
      intro z hz hz'
      obtain ⟨n, hn, rfl⟩ := List.mem_map.1 hz
      obtain ⟨n', hn', e⟩ := List.mem_map.1 hz'
      obtain ⟨rfl, e'⟩ := Prod.mk.inj e
      exact hdis j k _ _ (List.getElem?_eq_getElem hj) (List.getElem?_eq_getElem hk) (Nat.ne_of_lt hjk) _ hn hn' e'.symm
  · rw [List.nodup_flatMap]
    constructor
    · intro i hi
      have hi' := hcp.mem_iff.1 hi
      obtain ⟨c, hc⟩ := Option.isSome_iff_exists.1 (hcfg i hi')
      obtain ⟨xs, hx, h1, h2, h3⟩ := coldSymbols_ok h hr hi' hc
      rw [hg i hi'] at hx; cases hx
      by_cases hcold : HasCold cfg i
      · by_cases hen : EntryIn G i
        · rw [h2 hcold hen]; exact List.Nodup.map (fun a b h => (Prod.mk.inj h).1) (hnames i hi' c hc)
        · rw [h3 hcold hen]; exact List.Nodup.map (fun a b h => (Prod.mk.inj h).1) (hnames i hi' c hc)
      · rw [h1 hcold]; simp
    · have hcn : co.Nodup := hcp.nodup_iff.2 (h.sorted.imp fun h => by rintro rfl; exact Nat.lt_irrefl _ h)
      refine (List.Pairwise.and_mem.1 hcn).imp ?_
      rintro i j ⟨hi, hj, hij⟩
      rw [Function.onFun_apply, List.disjoint_left]
      intro z hz hz'
      have hi' := hcp.mem_iff.1 hi
      have hj' := hcp.mem_iff.1 hj
      have hin : ∀ i ∈ is, ∀ z ∈ g i, ∃ c, cfg i.fn = some c ∧ z.1 ∈ c.names := by
        intro i hi' z hz
        obtain ⟨c, hc⟩ := Option.isSome_iff_exists.1 (hcfg i hi')
        have := hg i hi'
        unfold coldSymbols at this
        rw [hc, Option.map_some] at this
        have := Option.some.inj this
        rw [← this] at hz
        refine ⟨c, hc, ?_⟩
        split at hz
        · cases hz
        · obtain ⟨n, hn, rfl⟩ := List.mem_map.1 hz; exact hn
      obtain ⟨c, hc, hzc⟩ := hin i hi' z hz
      obtain ⟨d, hd, hzd⟩ := hin j hj' z hz'
      exact hij (hdiff i hi' j hj' c d hc hd z.1 hzc hzd)
  · intro z hz z' hz' hzz
    subst hzz
    obtain ⟨x, hx, hzx⟩ := List.mem_flatMap.1 hz
    obtain ⟨n, hn, rfl⟩ := List.mem_map.1 hzx
    obtain ⟨j, hj⟩ := List.mem_iff_getElem?.1 hx
    obtain ⟨b, hb⟩ := hget j x hj
    obtain ⟨i, hi, N, c, m, hN, hc, hm, hfm, hsx⟩ := hso j b hb
    rw [hj] at hsx; cases hsx
    obtain ⟨i', hi', hzi⟩ := List.mem_flatMap.1 hz'
    have hi'' := hcp.mem_iff.1 hi'
    obtain ⟨c', hc'⟩ := Option.isSome_iff_exists.1 (hcfg i' hi'')
    obtain ⟨xs, hx, h1, h2, h3⟩ := coldSymbols_ok h hr hi'' hc'
    rw [hg i' hi''] at hx; cases hx
    by_cases hcold : HasCold cfg i'
    · by_cases hen : EntryIn G i'
      · rw [h2 hcold hen] at hzi
        obtain ⟨n', hn', e⟩ := List.mem_map.1 hzi
        have := (Prod.mk.inj e).2
        simp only at this
        split at this <;> cases this
      · rw [h3 hcold hen] at hzi
        obtain ⟨n', hn', e⟩ := List.mem_map.1 hzi
        obtain ⟨rfl, e⟩ := Prod.mk.inj e
        have := hdiff i hi i' hi'' c c' hc hc' _ hn hn'
        subst this
        refine hen ⟨⟨j, b⟩, List.mem_of_getElem? hN, m, List.mem_of_mem_head? hm, ?_⟩
        by_contra h0
        simp only at e
        rw [if_neg h0] at e; cases e
    · rw [h1 hcold] at hzi; cases hzi

/-! ### Example -/

/-- The two functions of `exTwo`, the first under two names, with a block that is not laid out. -/
def exOut : Nat → Option CfgOut
  | 7 => some { names := ["f".toList, "g".toList], nNodes := 4 }
  | 8 => some { names := ["h".toList], nNodes := 2 }
  | _ => none

example : ((orderAll {} exTwo { inter := true } true 1000 id (fun n => 10 * n) exTwoCfgs).bind (ldLines exTwo.bbi exOut)).map
    (·.map String.ofList) = some ["f.__part.1", "g.__part.1", "f", "g", "h", "f.cold", "g.cold"] := by decide +kernel

end Verif.Layout

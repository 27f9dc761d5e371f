import Verif.OMap
import Mathlib.Data.List.Chain
import Mathlib.Data.List.Induction
import Mathlib.Data.List.Nodup
import Mathlib.Data.List.Perm.Subperm

/-! # C28: forced fallthrough paths (llvm_propeller_node_chain_builder.cc)

Nodes of one CFG, ordered by their id (`CFGNodePtrComparator`, llvm_propeller_node_chain_builder.h:22-29), with their
`bb_index`. -/
namespace Verif.ForcedPath
open Verif

variable {K : Type} [LinearOrder K]

/-- An intra-function edge; `isBranch`: neither call nor return. -/
structure Edge (K : Type) where
  src : K
  sink : K
  weight : Nat
  isBranch : Bool

/-- Edges that count: of positive weight, and neither call nor return
(llvm_propeller_node_chain_builder.cc, `GetForcedEdges`, first line of the loop). -/
def hot (es : List (Edge K)) : List (Edge K) := es.filter fun e => decide (e.weight ≠ 0) && e.isBranch

/-- One iteration of the first loop of `GetForcedEdges` on `forced_edges`; a null sink is `none`. -/
def noteEdge (m : OMap K (Option K)) (e : Edge K) : OMap K (Option K) :=
  OMap.upsert e.src (fun o => match o with | none => some e.sink | some _ => none) m

/-- `GetForcedEdges` (llvm_propeller_node_chain_builder.cc). -/
def forcedEdges (es : List (Edge K)) : OMap K K :=
  let m := (hot es).foldl noteEdge []
  let inDeg : OMap K Nat := OMap.addAll [] ((hot es).map fun e => (e.sink, 1))
  m.filterMap fun p => (p.2.bind fun s => if 1 < OMap.get0 inDeg s then none else some s).map fun s => (p.1, s)

/-- The inner `while` of `BreakCycles`: walk from `cur` with `visited` (node to path id), current path id and victim.
`none`: out of fuel (never: `breakCycles_total`). Returns the new `visited` and the node to cut, if a cycle was found.
(`path_next[victim]` is a lookup of an existing key.) -/
def walk (bbi : K → Nat) (next : OMap K K) (id : Nat) : Nat → (K → Option Nat) → Option K → K →
    Option ((K → Option Nat) × Option K)
  | 0, _, _, _ => none
  | fuel + 1, vis, victim, cur =>
    match OMap.find? next cur with
    | none => some (vis, none)
    | some s =>
      match vis cur with
      | some i => some (vis, if i = id then victim else none)
      | none =>
        let better := match victim with
          | none => true
          | some v => match OMap.find? next v with
            | none => false
            | some sv => decide (bbi s < bbi sv)
        walk bbi next id fuel (fun x => if x = cur then some id else vis x) (if better then some cur else victim) s

/-- The outer loop of `BreakCycles` over the keys; returns the cut nodes. -/
def cutNodes (bbi : K → Nat) (next : OMap K K) : List K → Nat → (K → Option Nat) → Option (List K)
  | [], _, _ => some []
  | k :: ks, id, vis =>
    match vis k with
    | some _ => cutNodes bbi next ks id vis
    | none =>
      match walk bbi next (id + 1) (next.length + 1) vis none k with
      | none => none
      | some (vis', c) => (cutNodes bbi next ks (id + 1) vis').map (c.toList ++ ·)

/-- `BreakCycles` (llvm_propeller_node_chain_builder.cc). -/
def breakCycles (bbi : K → Nat) (next : OMap K K) : Option (OMap K K) :=
  (cutNodes bbi next (next.map Prod.fst) 0 (fun _ => none)).map fun cs => cs.foldl (fun m c => OMap.erase c m) next

/-- Follow a path from a node (inner `for` of `GetForcedPaths`); `none`: out of fuel. -/
def follow (next : OMap K K) : Nat → K → Option (List K)
  | 0, _ => none
  | fuel + 1, k =>
    match OMap.find? next k with
    | none => some [k]
    | some s => (follow next fuel s).map (k :: ·)

/-- `path_begin_nodes`: sources that are not sinks, in order. -/
def begins (next : OMap K K) : List K := (next.map Prod.fst).filter fun k => !(next.map Prod.snd).contains k

/-- `GetForcedPaths` (llvm_propeller_node_chain_builder.cc); `none`: a loop does not terminate, or the `CHECK_GT` on the
length fails. -/
def forcedPaths (bbi : K → Nat) (es : List (Edge K)) : Option (List (List K)) :=
  (breakCycles bbi (forcedEdges es)).bind fun next =>
    ((begins next).mapM (follow next (next.length + 1))).bind fun ps => if ps.all (fun p => decide (1 < p.length)) then some ps else none

/-! ### Specification -/

/-- `a -> b` is the only hot exit of `a` and the only hot entry of `b`. -/
def OnlyHot (es : List (Edge K)) (a b : K) : Prop :=
  ((hot es).filter fun e => decide (e.src = a)).map (fun e => (e.src, e.sink)) = [(a, b)] ∧
  ((hot es).filter fun e => decide (e.sink = b)).map (fun e => (e.src, e.sink)) = [(a, b)]

/-- `n` steps along a partial function. -/
def iter (f : K → Option K) : Nat → K → Option K
  | 0, k => some k
  | n + 1, k => (f k).bind (iter f n)

/-- `x` lies on a cycle. -/
def OnCycle (f : K → Option K) (x : K) : Prop := ∃ n, 0 < n ∧ iter f n x = some x

/-! ### Forced edges -/

omit [LinearOrder K] in
theorem foldl_concat {α β : Type} (f : β → α → β) (b : β) (l : List α) (a : α) : (l ++ [a]).foldl f b = f (l.foldl f b) a := by
  rw [List.foldl_append]; rfl

theorem noteEdge_spec (l : List (Edge K)) : OMap.Sorted (l.foldl noteEdge []) ∧ ∀ a,
    OMap.find? (l.foldl noteEdge []) a = match l.filter (fun e => decide (e.src = a)) with
      | [] => none
      | [e] => some (some e.sink)
      | _ => some none := by
  induction l using List.reverseRecOn with
  | nil => exact ⟨OMap.sorted_nil, fun a => rfl⟩
  | append_singleton l e ih =>
    obtain ⟨h1, h2⟩ := ih
    rw [foldl_concat]
    refine ⟨h1.upsert _ _, ?_⟩
    intro a
    refine (OMap.find?_upsert h1 _ _ a).trans ?_
    rw [List.filter_append]
    by_cases ha : a = e.src
    · subst ha
      rw [if_pos rfl, h2]
      have : [e].filter (fun e' => decide (e'.src = e.src)) = [e] := by simp
      rw [this]
      generalize l.filter (fun e' => decide (e'.src = e.src)) = q
      match q with
      | [] => rfl
      | [x] => rfl
      | x :: y :: t => rfl
    · rw [if_neg ha, h2]
      have : [e].filter (fun e' => decide (e'.src = a)) = [] := by simp [Ne.symm ha]
      rw [this, List.append_nil]

theorem find?_filterMap {V W : Type} {m : OMap K V} (hm : OMap.Sorted m) (h : V → Option W) :
    OMap.Sorted (m.filterMap fun p => (h p.2).map fun s => (p.1, s)) ∧ ∀ a,
    OMap.find? (m.filterMap fun p => (h p.2).map fun s => (p.1, s)) a = (OMap.find? m a).bind h := by
  induction m with
  | nil => exact ⟨OMap.sorted_nil, fun a => rfl⟩
  | cons p t ih =>
    obtain ⟨h1, h2⟩ := ih (List.Pairwise.of_cons hm)
    have hlt := (List.pairwise_cons.mp hm).1
    cases hp : h p.2 with
    | none =>
      rw [List.filterMap_cons, hp]
      refine ⟨h1, ?_⟩
      intro a
      rw [Option.map_none]
      simp only
      rw [h2]
      obtain ⟨k, v⟩ := p
      simp only [OMap.find?]
      by_cases ha : a = k
      · subst ha
        rw [if_pos rfl, OMap.find?_eq_none_of_lt hlt]
        simp only at hp
        simp [hp]
      · rw [if_neg ha]
    | some w =>
      rw [List.filterMap_cons, hp, Option.map_some]
      simp only
      constructor
      · refine List.pairwise_cons.mpr ⟨?_, h1⟩
        intro q hq
        obtain ⟨r, hr, hq⟩ := List.mem_filterMap.mp hq
        rw [Option.map_eq_some_iff] at hq
        obtain ⟨s, _, rfl⟩ := hq
        exact hlt r hr
      · intro a
        obtain ⟨k, v⟩ := p
        simp only [OMap.find?]
        by_cases ha : a = k
        · rw [if_pos ha, if_pos ha]; simpa using hp.symm
        · rw [if_neg ha, if_neg ha, h2]

theorem inDeg_spec (l : List (Edge K)) (s : K) :
    OMap.get0 (OMap.addAll [] (l.map fun e => (e.sink, 1))) s = (l.filter fun e => decide (e.sink = s)).length := by
  rw [OMap.get0_addAll OMap.sorted_nil]
  have : OMap.get0 ([] : OMap K Nat) s = 0 := rfl
  rw [this, Nat.zero_add]
  unfold OMap.sumAt
  induction l with
  | nil => rfl
  | cons e t ih =>
    by_cases h : e.sink = s
    · rw [List.map_cons, List.filter_cons_of_pos (by simpa using h), List.filter_cons_of_pos (by simpa using h), List.map_cons, List.sum_cons, ih]
      simp; omega
    · rw [List.map_cons, List.filter_cons_of_neg (by simpa using h), List.filter_cons_of_neg (by simpa using h), ih]

/-- **C28**: the forced edges are exactly the edges that are the only hot exit of their source and the only hot entry of
their sink. -/
theorem forcedEdges_spec (es : List (Edge K)) : OMap.Sorted (forcedEdges es) ∧
    ∀ a b, OMap.find? (forcedEdges es) a = some b ↔ OnlyHot es a b := by
  obtain ⟨h1, h2⟩ := noteEdge_spec (hot es)
  obtain ⟨h3, h4⟩ := find?_filterMap h1 fun o => o.bind fun s =>
    if 1 < OMap.get0 (OMap.addAll [] ((hot es).map fun e => (e.sink, 1))) s then none else some s
  refine ⟨h3, ?_⟩
  intro a b
  unfold forcedEdges
  simp only
  rw [h4, h2]
  unfold OnlyHot
  constructor
  · intro h
    split at h
    · cases h
    · rename_i e he
      simp only [Option.bind_some] at h
      split at h
      · cases h
      · rename_i hd
        cases h
        rw [inDeg_spec] at hd
        have hm : e ∈ (hot es).filter fun e => decide (e.src = a) := by rw [he]; simp
        obtain ⟨hm1, hm2⟩ := List.mem_filter.mp hm
        have hsrc : e.src = a := by simpa using hm2
        refine ⟨by rw [he]; simp [hsrc], ?_⟩
        have hm' : e ∈ (hot es).filter fun e' => decide (e'.sink = e.sink) := List.mem_filter.mpr ⟨hm1, by simp⟩
        generalize (hot es).filter (fun e' => decide (e'.sink = e.sink)) = q at hd hm'
        match q, hd, hm' with
        | [x], _, hm' =>
          rcases List.mem_singleton.mp hm' with rfl
          simp [hsrc]
        | x :: y :: t, hd, _ => simp at hd
    · cases h
  · rintro ⟨h5, h6⟩
    have h5' : ∃ e, (hot es).filter (fun e => decide (e.src = a)) = [e] ∧ e.sink = b := by
      generalize (hot es).filter (fun e => decide (e.src = a)) = q at h5
      match q, h5 with
      | [x], h5 => simp at h5; exact ⟨x, rfl, h5.2⟩
    obtain ⟨e, he, hb⟩ := h5'
    rw [he]
    simp only [Option.bind_some]
    rw [inDeg_spec, if_neg, hb]
    rw [hb, ← List.length_map (f := fun e : Edge K => (e.src, e.sink)), h6]; simp

/-! ### Iteration -/

section iteration
variable {f : K → Option K}

theorem iter_add (m n : Nat) (k : K) : iter f (m + n) k = (iter f m k).bind (iter f n) := by
  induction m generalizing k with
  | zero => rw [Nat.zero_add]; rfl
  | succ m ih =>
    rw [show m + 1 + n = (m + n) + 1 by omega]
    show (f k).bind (iter f (m + n)) = ((f k).bind (iter f m)).bind (iter f n)
    cases f k with
    | none => rfl
    | some s => exact ih s

theorem iter_one (k : K) : iter f 1 k = f k := by
  show (f k).bind (iter f 0) = f k
  cases f k <;> rfl

/-- `b` is reached from `a`. -/
def Reach (f : K → Option K) (a b : K) : Prop := ∃ n, iter f n a = some b

theorem Reach.refl (a : K) : Reach f a a := ⟨0, rfl⟩
theorem Reach.trans {a b c : K} (h : Reach f a b) (h' : Reach f b c) : Reach f a c := by
  obtain ⟨n, hn⟩ := h; obtain ⟨m, hm⟩ := h'
  exact ⟨n + m, by rw [iter_add, hn]; exact hm⟩
theorem Reach.step {a b : K} (h : f a = some b) : Reach f a b := ⟨1, by rw [iter_one, h]⟩

theorem iter_mul {x : K} {p : Nat} (h : iter f p x = some x) (q : Nat) : iter f (p * q) x = some x := by
  induction q with
  | zero => rfl
  | succ q ih => rw [Nat.mul_succ, iter_add, ih]; exact h

theorem reach_back {x c : K} (h : OnCycle f x) (hc : Reach f x c) : Reach f c x := by
  obtain ⟨p, hp, hx⟩ := h
  obtain ⟨n, hn⟩ := hc
  have := iter_mul hx (n + 1)
  have hle : n ≤ p * (n + 1) := by
    have : 1 * (n + 1) ≤ p * (n + 1) := Nat.mul_le_mul_right _ hp
    omega
  refine ⟨p * (n + 1) - n, ?_⟩
  rw [show p * (n + 1) = n + (p * (n + 1) - n) by omega, iter_add, hn] at this
  exact this

theorem OnCycle.next {x : K} (h : OnCycle f x) : ∃ y, f x = some y := by
  obtain ⟨p, hp, hx⟩ := h
  obtain ⟨p, rfl⟩ : ∃ q, p = q + 1 := ⟨p - 1, by omega⟩
  have hx : (f x).bind (iter f p) = some x := hx
  cases hf : f x with
  | none => rw [hf] at hx; cases hx
  | some y => exact ⟨y, rfl⟩

theorem OnCycle.of_reach {x c : K} (h : OnCycle f x) (hc : Reach f x c) : OnCycle f c := by
  obtain ⟨m, hm⟩ := reach_back h hc
  obtain ⟨n, hn⟩ := hc
  obtain ⟨p, hp, hx⟩ := h
  refine ⟨m + p + n, by omega, ?_⟩
  rw [iter_add, iter_add, hm]
  show ((iter f p x).bind (iter f n)) = _
  rw [hx]; exact hn

/-- A set closed under steps to further keys. -/
theorem closed_reach {P : K → Prop} (hc : ∀ y z, P y → f y = some z → f z ≠ none → P z) {a b : K} (ha : P a)
    (h : Reach f a b) (hb : f b ≠ none) : P b := by
  obtain ⟨n, hn⟩ := h
  induction n generalizing a with
  | zero => cases hn; exact ha
  | succ n ih =>
    have hn : (f a).bind (iter f n) = some b := hn
    cases hf : f a with
    | none => rw [hf] at hn; cases hn
    | some z =>
      rw [hf] at hn
      have hn : iter f n z = some b := hn
      refine ih (hc a z ha hf ?_) hn
      cases n with
      | zero => cases hn; exact hb
      | succ n =>
        have hn : (f z).bind (iter f n) = some b := hn
        intro hz; rw [hz] at hn; cases hn

/-- A list of successive nodes. -/
abbrev Path (f : K → Option K) (l : List K) : Prop := List.IsChain (fun a b => f a = some b) l

theorem path_getElem {l : List K} (h : Path f l) (i : Nat) (hi : i + 1 < l.length) : f (l[i]'(by omega)) = some l[i + 1] :=
  List.isChain_iff_getElem.mp h i hi

theorem path_reach {l : List K} (h : Path f l) : ∀ (d i : Nat) (hi : i + d < l.length),
    iter f d (l[i]'(by omega)) = some l[i + d] := by
  intro d
  induction d with
  | zero => intro i hi; rfl
  | succ d ih =>
    intro i hi
    show (f _).bind (iter f d) = _
    rw [path_getElem h i (by omega)]
    show iter f d l[i + 1] = _
    rw [ih (i + 1) (by omega)]
    congr 2; omega

end iteration

/-! ### Breaking cycles -/

/-- `v` is a node of `ps` whose successor has the least block index. -/
def IsVictim (bbi : K → Nat) (f : K → Option K) (ps : List K) (v : K) : Prop :=
  v ∈ ps ∧ ∀ u ∈ ps, ∀ sv su, f v = some sv → f u = some su → bbi sv ≤ bbi su

theorem path_keys {f : K → Option K} {ps : List K} {cur : K} (h : Path f (ps ++ [cur])) : ∀ x ∈ ps, f x ≠ none := by
  intro x hx
  obtain ⟨i, hi, rfl⟩ := List.mem_iff_getElem.mp hx
  have := path_getElem h i (by simp; omega)
  rw [List.getElem_append_left hi] at this
  rw [this]; simp

theorem nodup_keys_length {next : OMap K K} {ps : List K} (hn : ps.Nodup) (hk : ∀ x ∈ ps, OMap.find? next x ≠ none) :
    ps.length ≤ next.length := by
  have hsub : ps ⊆ next.map Prod.fst := by
    intro x hx
    cases h : OMap.find? next x with
    | none => exact absurd h (hk x hx)
    | some v => exact List.mem_map.mpr ⟨_, OMap.mem_of_find?_some h, rfl⟩
  have := (List.subperm_of_subset hn hsub).length_le
  simpa using this

theorem walk_spec (bbi : K → Nat) (next : OMap K K) (id : Nat) (V : K → Option Nat) (hV : ∀ y i, V y = some i → i ≠ id) (x : K) :
    ∀ (fuel : Nat) (ps : List K) (cur : K) (victim : Option K),
    Path (OMap.find? next) (ps ++ [cur]) → ps.Nodup → (∀ y ∈ ps, V y = none) → (ps ++ [cur]).head? = some x →
    ((ps = [] ∧ victim = none) ∨ ∃ v, victim = some v ∧ IsVictim bbi (OMap.find? next) ps v) →
    next.length + 1 ≤ fuel + ps.length →
    ∃ vis' c ps' cur', walk bbi next id fuel (fun y => if y ∈ ps then some id else V y) victim cur = some (vis', c) ∧
      Path (OMap.find? next) (ps' ++ [cur']) ∧ ps'.Nodup ∧ (∀ y ∈ ps', V y = none) ∧ (ps' ++ [cur']).head? = some x ∧
      (vis' = fun y => if y ∈ ps' then some id else V y) ∧
      ((OMap.find? next cur' = none ∧ c = none) ∨ (V cur' ≠ none ∧ cur' ∉ ps' ∧ c = none) ∨
        (cur' ∈ ps' ∧ ∃ v, c = some v ∧ IsVictim bbi (OMap.find? next) ps' v)) := by
  intro fuel
  induction fuel with
  | zero =>
    intro ps cur victim hp hn _ _ _ hlen
    have := nodup_keys_length hn (path_keys hp)
    omega
  | succ fuel ih =>
    intro ps cur victim hp hn hvn hhead hvic hlen
    unfold walk
    cases hf : OMap.find? next cur with
    | none => exact ⟨_, _, ps, cur, rfl, hp, hn, hvn, hhead, rfl, Or.inl ⟨hf, rfl⟩⟩
    | some s =>
      simp only
      by_cases hcp : cur ∈ ps
      · rw [if_pos hcp]
        simp only [if_true]
        refine ⟨_, _, ps, cur, rfl, hp, hn, hvn, hhead, rfl, Or.inr (Or.inr ⟨hcp, ?_⟩)⟩
        rcases hvic with ⟨h1, _⟩ | ⟨v, h1, h2⟩
        · rw [h1] at hcp; simp at hcp
        · exact ⟨v, h1, h2⟩
      · rw [if_neg hcp]
        cases hVc : V cur with
        | some i =>
          simp only
          rw [if_neg (hV cur i hVc)]
          exact ⟨_, _, ps, cur, rfl, hp, hn, hvn, hhead, rfl, Or.inr (Or.inl ⟨by rw [hVc]; simp, hcp, rfl⟩)⟩
        | none =>
          simp only
          have hvis : (fun y => if y = cur then some id else if y ∈ ps then some id else V y) =
              fun y => if y ∈ ps ++ [cur] then some id else V y := by
            funext y
            by_cases h1 : y = cur
            · rw [if_pos h1, if_pos (by simp [h1])]
            · rw [if_neg h1]
              by_cases h2 : y ∈ ps
              · rw [if_pos h2, if_pos (by simp [h2])]
              · rw [if_neg h2, if_neg (by simp [h1, h2])]
          rw [hvis]
          refine ih (ps ++ [cur]) s _ ?_ ?_ ?_ ?_ (Or.inr ?_) (by simp; omega)
          · show List.IsChain _ _
            rw [List.isChain_append]
            refine ⟨hp, by simp, ?_⟩
            intro a ha b hb
            simp at ha hb
            subst ha; subst hb; exact hf
          · rw [List.nodup_append]
            refine ⟨hn, by simp, ?_⟩
            intro a ha b hb hab
            rcases List.mem_singleton.mp hb with rfl
            exact hcp (hab ▸ ha)
          · intro y hy
            rcases List.mem_append.mp hy with hy | hy
            · exact hvn y hy
            · rcases List.mem_singleton.mp hy with rfl; exact hVc
          · rw [List.head?_append, hhead]; rfl
          · rcases hvic with ⟨h1, h2⟩ | ⟨v, h1, h2⟩
            · rw [h2]
              simp only [if_true]
              refine ⟨cur, rfl, by simp, ?_⟩
              intro u hu sv su e1 e2
              rw [h1] at hu
              rcases List.mem_singleton.mp hu with rfl
              rw [e1] at e2; cases e2; exact le_refl _
            · rw [h1]
              simp only
              rcases Option.eq_none_or_eq_some (OMap.find? next v) with hv | ⟨sv, hv⟩
              · exact absurd hv (path_keys hp v h2.1)
              · simp only [hv]
                by_cases hb : bbi s < bbi sv
                · rw [decide_eq_true hb]
                  simp only [if_true]
                  refine ⟨cur, rfl, by simp, ?_⟩
                  intro u hu sc su e1 e2
                  rw [hf] at e1; cases e1
                  rcases List.mem_append.mp hu with hu | hu
                  · have := h2.2 u hu sv su hv e2; omega
                  · rcases List.mem_singleton.mp hu with rfl
                    rw [hf] at e2; cases e2; exact le_refl _
                · rw [decide_eq_false hb]
                  simp only [Bool.false_eq_true, if_false]
                  refine ⟨v, rfl, by simp [h2.1], ?_⟩
                  intro u hu sc su e1 e2
                  rw [hv] at e1; cases e1
                  rcases List.mem_append.mp hu with hu | hu
                  · exact h2.2 u hu sv su hv e2
                  · rcases List.mem_singleton.mp hu with rfl
                    rw [hf] at e2; cases e2; omega

/-- An injective walk that returns to itself returns to its start. -/
theorem path_closed {f : K → Option K} (hinj : ∀ a b c, f a = some c → f b = some c → a = b) {ps : List K} {cur x : K}
    (h : Path f (ps ++ [cur])) (hn : ps.Nodup) (hx : (ps ++ [cur]).head? = some x) (hc : cur ∈ ps) : cur = x := by
  obtain ⟨i, hi, hci⟩ := List.mem_iff_getElem.mp hc
  cases i with
  | zero =>
    rw [List.head?_append, List.head?_eq_getElem?, List.getElem?_eq_getElem hi, hci] at hx
    simpa using hx
  | succ i =>
    exfalso
    have h1 := path_getElem h i (by simp; omega)
    have h2 := path_getElem h (ps.length - 1) (by simp; omega)
    rw [List.getElem_append_left (by omega), List.getElem_append_left (by omega)] at h1
    rw [List.getElem_append_left (by omega)] at h2
    have e : (ps ++ [cur])[ps.length - 1 + 1]'(by simp; omega) = cur := by
      simp [show ps.length - 1 + 1 = ps.length by omega]
    rw [e] at h2
    rw [hci] at h1
    have := hinj _ _ _ h1 h2
    have := (List.Nodup.getElem_inj_iff hn).mp this
    omega

theorem path_reach_all {f : K → Option K} {ps : List K} {cur : K} (h : Path f (ps ++ [cur])) :
    ∀ y ∈ ps, ∃ n, 0 < n ∧ iter f n y = some cur := by
  intro y hy
  obtain ⟨i, hi, rfl⟩ := List.mem_iff_getElem.mp hy
  have := path_reach h (ps.length - i) i (by simp; omega)
  rw [List.getElem_append_left hi] at this
  refine ⟨ps.length - i, by omega, ?_⟩
  rw [this]
  simp [show i + (ps.length - i) = ps.length by omega]

theorem path_reach_head {f : K → Option K} {ps : List K} {cur x : K} (h : Path f (ps ++ [cur])) (hx : (ps ++ [cur]).head? = some x) :
    ∀ y ∈ ps ++ [cur], Reach f x y := by
  intro y hy
  obtain ⟨i, hi, rfl⟩ := List.mem_iff_getElem.mp hy
  have := path_reach h i 0 (by omega)
  have h0 : (ps ++ [cur])[0]'(by simp) = x := by
    rw [List.head?_eq_getElem?, List.getElem?_eq_getElem (by simp)] at hx
    simpa using hx
  rw [h0] at this
  refine ⟨i, by rw [this]; simp⟩

/-- The node cut in a cycle: its successor has the least block index of the cycle. -/
def CutOk (bbi : K → Nat) (f : K → Option K) (c : K) : Prop :=
  OnCycle f c ∧ ∀ u, Reach f c u → ∀ sc su, f c = some sc → f u = some su → bbi sc ≤ bbi su

theorem cutNodes_spec (bbi : K → Nat) (next : OMap K K)
    (hinj : ∀ a b c, OMap.find? next a = some c → OMap.find? next b = some c → a = b) : ∀ (ks : List K) (id : Nat) (vis : K → Option Nat),
    (∀ k ∈ ks, OMap.find? next k ≠ none) →
    (∀ y i, vis y = some i → i ≤ id) →
    (∀ y z, vis y ≠ none → OMap.find? next y = some z → OMap.find? next z ≠ none → vis z ≠ none) →
    ∃ cs, cutNodes bbi next ks id vis = some cs ∧
      (∀ c ∈ cs, CutOk bbi (OMap.find? next) c ∧ vis c = none) ∧
      (∀ k ∈ ks, OnCycle (OMap.find? next) k → vis k = none → ∃ c ∈ cs, Reach (OMap.find? next) k c) ∧
      cs.Pairwise (fun c d => ¬ Reach (OMap.find? next) c d) := by
  intro ks
  induction ks with
  | nil => intro id vis _ _ _; exact ⟨[], rfl, by simp, by simp, by simp⟩
  | cons k ks ih =>
    intro id vis hks hid hcl
    unfold cutNodes
    cases hk : vis k with
    | some i =>
      simp only
      obtain ⟨cs, h1, h2, h3, h4⟩ := ih id vis (fun q hq => hks q (by simp [hq])) hid hcl
      refine ⟨cs, h1, h2, ?_, h4⟩
      intro q hq hc hv
      rcases List.mem_cons.mp hq with rfl | hq
      · rw [hk] at hv; cases hv
      · exact h3 q hq hc hv
    | none =>
      simp only
      obtain ⟨vis', c, ps, cur, hw, hp, hn, hvn, hhead, hvis, hres⟩ := walk_spec bbi next (id + 1) vis
        (fun y i h => by have := hid y i h; omega) k (next.length + 1) [] k none (by simp) (by simp) (by simp) rfl
        (Or.inl ⟨rfl, rfl⟩) (by simp)
      have hw' : walk bbi next (id + 1) (next.length + 1) vis none k = some (vis', c) := by
        have e : (fun y => if y ∈ ([] : List K) then some (id + 1) else vis y) = vis := by funext y; simp
        rw [e] at hw; exact hw
      rw [hw']
      simp only
      have hkps : k ∈ ps := by
        cases ps with
        | nil =>
          exfalso
          simp at hhead
          subst hhead
          rcases hres with ⟨h1, _⟩ | ⟨h1, _⟩ | ⟨h1, _⟩
          · exact hks cur (by simp) h1
          · exact h1 hk
          · simp at h1
        | cons a t => simp at hhead; simp [hhead]
      have hvis'1 : ∀ y, vis y ≠ none → vis' y ≠ none := by
        intro y hy; rw [hvis]; simp only; split
        · simp
        · exact hy
      have hvis'2 : ∀ y, y ∈ ps → vis' y ≠ none := by
        intro y hy; rw [hvis]; simp [hy]
      have hvis'3 : ∀ y, vis' y ≠ none → y ∈ ps ∨ vis y ≠ none := by
        intro y hy; rw [hvis] at hy; simp only at hy
        by_cases h : y ∈ ps
        · exact Or.inl h
        · rw [if_neg h] at hy; exact Or.inr hy
      have hcl' : ∀ y z, vis' y ≠ none → OMap.find? next y = some z → OMap.find? next z ≠ none → vis' z ≠ none := by
        intro y z hy hyz hz
        rcases hvis'3 y hy with hy | hy
        · -- the successor of a path node
          obtain ⟨i, hi, rfl⟩ := List.mem_iff_getElem.mp hy
          have := path_getElem hp i (by simp; omega)
          rw [List.getElem_append_left hi, hyz] at this
          by_cases hlast : i + 1 < ps.length
          · rw [List.getElem_append_left hlast] at this
            exact hvis'2 z (by cases this; exact List.getElem_mem _)
          · have e : (ps ++ [cur])[i + 1]'(by simp; omega) = cur := by
              simp [show i + 1 = ps.length by omega]
            rw [e] at this
            cases this
            rcases hres with ⟨h1, _⟩ | ⟨h1, _⟩ | ⟨h1, _⟩
            · exact absurd h1 hz
            · exact hvis'1 _ h1
            · exact hvis'2 _ h1
        · exact hvis'1 z (hcl y z hy hyz hz)
      obtain ⟨cs, h1, h2, h3, h4⟩ := ih (id + 1) vis' (fun q hq => hks q (by simp [hq]))
        (by
          intro y i hy
          rw [hvis] at hy; simp only at hy
          split at hy
          · cases hy; omega
          · have := hid y i hy; omega) hcl'
      rw [h1]
      refine ⟨_, rfl, ?_, ?_, ?_⟩
      · intro d hd
        rcases List.mem_append.mp hd with hd | hd
        · rcases hres with ⟨_, hc⟩ | ⟨_, _, hc⟩ | ⟨hcur, v, hc, hv⟩
          · rw [hc] at hd; simp at hd
          · rw [hc] at hd; simp at hd
          · rw [hc] at hd
            simp only [Option.toList_some, List.mem_singleton] at hd
            subst hd
            refine ⟨⟨?_, ?_⟩, hvn d hv.1⟩
            · obtain ⟨n, hn0, hnd⟩ := path_reach_all hp d hv.1
              obtain ⟨m, hm⟩ := path_reach_head hp hhead d (by simp [hv.1])
              have hkc := path_closed hinj hp hn hhead hcur
              refine ⟨n + m, by omega, ?_⟩
              rw [iter_add, hnd, hkc]; exact hm
            · intro u hu sc su e1 e2
              refine hv.2 u ?_ sc su e1 e2
              have hkc := path_closed hinj hp hn hhead hcur
              -- the path is closed
              refine closed_reach (P := fun y => y ∈ ps) ?_ hv.1 hu (by rw [e2]; simp)
              intro y z hy hyz hz
              obtain ⟨i, hi, rfl⟩ := List.mem_iff_getElem.mp hy
              have := path_getElem hp i (by simp; omega)
              rw [List.getElem_append_left hi, hyz] at this
              by_cases hlast : i + 1 < ps.length
              · rw [List.getElem_append_left hlast] at this
                cases this; exact List.getElem_mem _
              · have e : (ps ++ [cur])[i + 1]'(by simp; omega) = cur := by
                  simp [show i + 1 = ps.length by omega]
                rw [e] at this
                cases this; exact hcur
        · obtain ⟨hd1, hd2⟩ := h2 d hd
          refine ⟨hd1, ?_⟩
          by_contra hne
          exact hvis'1 d hne hd2
      · intro q hq hc hv
        by_cases hqp : q ∈ ps
        · rcases hres with ⟨hr, _⟩ | ⟨hr, _, _⟩ | ⟨hcur, v, hcv, hv'⟩
          · exfalso
            obtain ⟨n, _, hqn⟩ := path_reach_all hp q hqp
            obtain ⟨y, hy⟩ := (hc.of_reach ⟨n, hqn⟩).next
            rw [hr] at hy; cases hy
          · exfalso
            obtain ⟨n, _, hqn⟩ := path_reach_all hp q hqp
            have hb := reach_back hc ⟨n, hqn⟩
            obtain ⟨y, hy⟩ := hc.next
            exact closed_reach (P := fun y => vis y ≠ none) hcl hr hb (by rw [hy]; simp) hv
          · refine ⟨v, List.mem_append_left _ (by rw [hcv]; simp), ?_⟩
            obtain ⟨n, _, hqn⟩ := path_reach_all hp q hqp
            have hkc := path_closed hinj hp hn hhead hcur
            have := path_reach_head hp hhead v (by simp [hv'.1])
            exact Reach.trans ⟨n, hqn⟩ (hkc ▸ this)
        · have hq' : q ∈ ks := by
            rcases List.mem_cons.mp hq with rfl | hq
            · exact absurd hkps hqp
            · exact hq
          have hv'' : vis' q = none := by
            by_contra hne
            rcases hvis'3 q hne with h | h
            · exact hqp h
            · exact h hv
          obtain ⟨d, hd, hr⟩ := h3 q hq' hc hv''
          exact ⟨d, List.mem_append_right _ hd, hr⟩
      · rw [List.pairwise_append]
        refine ⟨?_, h4, ?_⟩
        · cases c <;> simp
        · intro a ha d hd hr
          rcases hres with ⟨_, hc⟩ | ⟨_, _, hc⟩ | ⟨hcur, v, hc, hv⟩
          · rw [hc] at ha; simp at ha
          · rw [hc] at ha; simp at ha
          · rw [hc] at ha
            simp only [Option.toList_some, List.mem_singleton] at ha
            subst ha
            obtain ⟨y, hy⟩ := (h2 d hd).1.1.next
            exact closed_reach (P := fun y => vis' y ≠ none) hcl' (hvis'2 a hv.1) hr (by rw [hy]; simp) (h2 d hd).2

theorem find?_eraseAll {m : OMap K K} (hm : OMap.Sorted m) (cs : List K) :
    OMap.Sorted (cs.foldl (fun m c => OMap.erase c m) m) ∧
    ∀ k, OMap.find? (cs.foldl (fun m c => OMap.erase c m) m) k = if k ∈ cs then none else OMap.find? m k := by
  induction cs generalizing m with
  | nil => exact ⟨hm, by simp⟩
  | cons c cs ih =>
    rw [List.foldl_cons]
    obtain ⟨h1, h2⟩ := ih (hm.erase c)
    refine ⟨h1, ?_⟩
    intro k
    rw [h2, OMap.find?_erase hm]
    by_cases hkc : k = c
    · simp [hkc]
    · simp [hkc]

/-- **C28**: breaking cycles terminates on every set of forced edges; what remains is acyclic; an edge is removed
exactly once for each cycle, it lies on that cycle and it is the one that goes to the cycle's lowest block. -/
theorem breakCycles_spec (bbi : K → Nat) (next : OMap K K) (hs : OMap.Sorted next)
    (hinj : ∀ a b c, OMap.find? next a = some c → OMap.find? next b = some c → a = b) :
    ∃ (next' : OMap K K) (cs : List K), breakCycles bbi next = some next' ∧ OMap.Sorted next' ∧
      (∀ k, OMap.find? next' k = if k ∈ cs then none else OMap.find? next k) ∧
      (∀ k, ¬ OnCycle (OMap.find? next') k) ∧
      (∀ c ∈ cs, CutOk bbi (OMap.find? next) c) ∧
      (∀ k, OnCycle (OMap.find? next) k → ∃ c ∈ cs, Reach (OMap.find? next) k c) ∧
      cs.Pairwise (fun c d => ¬ Reach (OMap.find? next) c d) := by
  obtain ⟨cs, h1, h2, h3, h4⟩ := cutNodes_spec bbi next hinj (next.map Prod.fst) 0 (fun _ => none)
    (by
      intro k hk
      obtain ⟨⟨a, b⟩, hp, rfl⟩ := List.mem_map.mp hk
      rw [OMap.find?_some_of_mem hs hp]; simp)
    (by simp) (by simp)
  obtain ⟨h5, h6⟩ := find?_eraseAll hs cs
  have h7 : ∀ k, OnCycle (OMap.find? next) k → ∃ c ∈ cs, Reach (OMap.find? next) k c := by
    intro k hk
    obtain ⟨y, hy⟩ := hk.next
    exact h3 k (List.mem_map.mpr ⟨_, OMap.mem_of_find?_some hy, rfl⟩) hk rfl
  refine ⟨_, cs, by unfold breakCycles; rw [h1]; rfl, h5, h6, ?_, fun c hc => (h2 c hc).1, h7, h4⟩
  intro k hk
  -- a cycle of the remaining edges is a cycle of the original ones
  generalize (cs.foldl (fun m c => OMap.erase c m) next) = next' at h6 hk
  have hle : ∀ a b, OMap.find? next' a = some b → OMap.find? next a = some b := by
    intro a b hab
    rw [h6] at hab
    split at hab
    · cases hab
    · exact hab
  have hiter : ∀ n a b, iter (OMap.find? next') n a = some b → iter (OMap.find? next) n a = some b := by
    intro n
    induction n with
    | zero => intro a b h; exact h
    | succ n ih =>
      intro a b h
      have h : (OMap.find? next' a).bind (iter (OMap.find? next') n) = some b := h
      show (OMap.find? next a).bind (iter (OMap.find? next) n) = some b
      cases ha : OMap.find? next' a with
      | none => rw [ha] at h; cases h
      | some z => rw [ha] at h; rw [hle a z ha]; exact ih z b h
  have hk' : OnCycle (OMap.find? next) k := by
    obtain ⟨n, hn, h⟩ := hk; exact ⟨n, hn, hiter n k k h⟩
  obtain ⟨c, hc, n, hn⟩ := h7 k hk'
  have hall : ∀ n x, OnCycle (OMap.find? next') x → ∃ b, iter (OMap.find? next') n x = some b := by
    intro n
    induction n with
    | zero => intro x _; exact ⟨x, rfl⟩
    | succ n ih =>
      intro x hx
      obtain ⟨y, hy⟩ := hx.next
      obtain ⟨b, hb⟩ := ih y (hx.of_reach (Reach.step hy))
      exact ⟨b, by show (OMap.find? next' x).bind _ = _; rw [hy]; exact hb⟩
  obtain ⟨b, hb⟩ := hall n k hk
  have := hiter n k b hb
  rw [hn] at this
  cases this
  obtain ⟨y, hy⟩ := (hk.of_reach ⟨n, hb⟩).next
  rw [h6, if_pos hc] at hy
  cases hy

/-! ### Paths -/

theorem nodup_of_acyclic {f : K → Option K} (ha : ∀ k, ¬ OnCycle f k) {l : List K} (h : Path f l) : l.Nodup := by
  rw [List.nodup_iff_injective_getElem]
  have key : ∀ i j (hi : i < l.length) (hj : j < l.length), i < j → l[i] ≠ l[j] := by
    intro i j hi hj hij he
    have := path_reach h (j - i) i (by omega)
    have e : l[i + (j - i)]'(by omega) = l[j] := by congr 1; omega
    rw [e, ← he] at this
    exact ha _ ⟨j - i, by omega, this⟩
  rintro ⟨i, hi⟩ ⟨j, hj⟩ he
  simp only at he
  rcases Nat.lt_trichotomy i j with h1 | h1 | h1
  · exact absurd he (key i j hi hj h1)
  · simp [h1]
  · exact absurd he.symm (key j i hj hi h1)

theorem follow_spec (next : OMap K K) (ha : ∀ k, ¬ OnCycle (OMap.find? next) k) : ∀ (fuel : Nat) (pre : List K) (k : K),
    Path (OMap.find? next) (pre ++ [k]) → next.length + 1 ≤ fuel + pre.length →
    ∃ p, follow next fuel k = some p ∧ Path (OMap.find? next) p ∧ p.head? = some k ∧
      ∀ z, p.getLast? = some z → OMap.find? next z = none := by
  intro fuel
  induction fuel with
  | zero =>
    intro pre k hp hlen
    have hn := nodup_of_acyclic ha hp
    have := nodup_keys_length (List.Nodup.of_append_left hn) (path_keys hp)
    omega
  | succ fuel ih =>
    intro pre k hp hlen
    unfold follow
    rcases Option.eq_none_or_eq_some (OMap.find? next k) with hf | ⟨s, hf⟩
    · simp only [hf]
      exact ⟨[k], rfl, by simp, rfl, by intro z hz; simp at hz; rw [← hz]; exact hf⟩
    · simp only [hf]
      obtain ⟨p, h1, h2, h3, h4⟩ := ih (pre ++ [k]) s (by
        show List.IsChain _ _
        rw [List.isChain_append]
        refine ⟨hp, by simp, ?_⟩
        intro a ha b hb
        simp at ha hb
        subst ha; subst hb; exact hf) (by simp; omega)
      rw [h1]
      refine ⟨k :: p, rfl, ?_, rfl, ?_⟩
      · cases p with
        | nil => simp at h3
        | cons a t =>
          simp at h3; subst h3
          exact List.IsChain.cons_cons hf h2
      · intro z hz
        cases p with
        | nil => simp at h3
        | cons a t => exact h4 z (by rw [List.getLast?_cons_cons] at hz; exact hz)

theorem mapM_some {α β : Type} (g : α → Option β) : ∀ (l : List α), (∀ a ∈ l, ∃ b, g a = some b) →
    ∃ r, l.mapM g = some r ∧ List.Forall₂ (fun a b => g a = some b) l r
  | [], _ => ⟨[], rfl, List.Forall₂.nil⟩
  | a :: l, h => by
    obtain ⟨b, hb⟩ := h a (by simp)
    obtain ⟨r, h1, h2⟩ := mapM_some g l fun x hx => h x (by simp [hx])
    refine ⟨b :: r, ?_, List.Forall₂.cons hb h2⟩
    rw [List.mapM_cons, hb, h1]; rfl

/-- Two nodes in successive positions of a list. -/
def Succ (p : List K) (a b : K) : Prop := ∃ i, p[i]? = some a ∧ p[i + 1]? = some b

/-- **C28**: computing the forced paths succeeds for every CFG (it terminates and the length check holds).  The paths are
disjoint, have no repeated node, have at least two nodes, and follow only edges that are both the only hot exit of their source
and the only hot entry of their sink.  Every such edge is followed, except one in each cycle of such edges: the edge to the lowest
block of the cycle. -/
theorem forcedPaths_spec (bbi : K → Nat) (es : List (Edge K)) : ∃ ps, forcedPaths bbi es = some ps ∧
    (∀ p ∈ ps, 2 ≤ p.length ∧ p.Nodup ∧ ∀ a b, Succ p a b → OnlyHot es a b) ∧
    ps.Pairwise List.Disjoint ∧
    (∀ f : K → Option K, (∀ a b, f a = some b ↔ OnlyHot es a b) →
      ∃ cs : List K, (∀ a b, OnlyHot es a b → (a ∈ cs ∨ ∃ p ∈ ps, Succ p a b)) ∧ (∀ c ∈ cs, CutOk bbi f c) ∧
        cs.Pairwise fun c d => ¬ Reach f c d) := by
  obtain ⟨hs, hf⟩ := forcedEdges_spec es
  have hinj0 : ∀ a b c, OnlyHot es a c → OnlyHot es b c → a = b := by
    intro a b c h1 h2
    have := h1.2.symm.trans h2.2
    simpa using this
  obtain ⟨next, cs, hb, hsn, hnext, hacy, hcut, hcyc, hpw⟩ := breakCycles_spec bbi (forcedEdges es) hs
    (fun a b c h1 h2 => hinj0 a b c ((hf a c).mp h1) ((hf b c).mp h2))
  have hsub : ∀ a b, OMap.find? next a = some b → OnlyHot es a b := by
    intro a b h
    rw [hnext] at h
    split at h
    · cases h
    · exact (hf a b).mp h
  have hinj : ∀ a b c, OMap.find? next a = some c → OMap.find? next b = some c → a = b :=
    fun a b c h1 h2 => hinj0 a b c (hsub a c h1) (hsub b c h2)
  have hfol : ∀ k, ∃ p, follow next (next.length + 1) k = some p ∧ Path (OMap.find? next) p ∧ p.head? = some k ∧
      ∀ z, p.getLast? = some z → OMap.find? next z = none :=
    fun k => follow_spec next hacy (next.length + 1) [] k (by simp) (by simp)
  obtain ⟨ps, hps, hall⟩ := mapM_some (follow next (next.length + 1)) (begins next)
    (fun k _ => by obtain ⟨p, h, _⟩ := hfol k; exact ⟨p, h⟩)
  have hmem : ∀ p ∈ ps, ∃ k ∈ begins next, follow next (next.length + 1) k = some p := by
    intro p hp
    obtain ⟨i, hi, rfl⟩ := List.mem_iff_getElem.mp hp
    have hl := hall.length_eq
    exact ⟨_, List.getElem_mem (by omega : i < (begins next).length), (List.forall₂_iff_get.mp hall).2 i (by omega) hi⟩
  have hmem' : ∀ k ∈ begins next, ∃ p ∈ ps, follow next (next.length + 1) k = some p := by
    intro k hk
    obtain ⟨i, hi, rfl⟩ := List.mem_iff_getElem.mp hk
    have hl := hall.length_eq
    exact ⟨_, List.getElem_mem (by omega : i < ps.length), (List.forall₂_iff_get.mp hall).2 i hi (by omega)⟩
  have hkey : ∀ k, k ∈ begins next ↔ OMap.find? next k ≠ none ∧ ∀ a, OMap.find? next a ≠ some k := by
    intro k
    unfold begins
    rw [List.mem_filter]
    constructor
    · rintro ⟨h1, h2⟩
      obtain ⟨⟨a, b⟩, hp, rfl⟩ := List.mem_map.mp h1
      refine ⟨by rw [OMap.find?_some_of_mem hsn hp]; simp, ?_⟩
      intro c hc
      have := List.mem_map_of_mem (f := Prod.snd) (OMap.mem_of_find?_some hc)
      simp only [Bool.not_eq_true', List.contains_eq_mem, decide_eq_false_iff_not] at h2
      exact h2 this
    · rintro ⟨h1, h2⟩
      obtain ⟨b, hb⟩ := Option.ne_none_iff_exists'.mp h1
      refine ⟨List.mem_map.mpr ⟨_, OMap.mem_of_find?_some hb, rfl⟩, ?_⟩
      simp only [Bool.not_eq_true', List.contains_eq_mem, decide_eq_false_iff_not]
      intro hm
      obtain ⟨⟨a, b'⟩, hp, rfl⟩ := List.mem_map.mp hm
      exact h2 a (OMap.find?_some_of_mem hsn hp)
  have hlen : ∀ p ∈ ps, 2 ≤ p.length := by
    intro p hp
    obtain ⟨k, hk, hkp⟩ := hmem p hp
    obtain ⟨p', h1, _, h3, h4⟩ := hfol k
    rw [hkp] at h1; cases h1
    match p, h3, h4 with
    | [x], h3, h4 =>
      simp at h3
      subst h3
      exact absurd (h4 x rfl) ((hkey x).mp hk).1
    | x :: y :: t, _, _ => simp
  -- positions in two paths
  have hdisj : ∀ (p q : List K) (k l : K), k ∈ begins next → l ∈ begins next → Path (OMap.find? next) p → Path (OMap.find? next) q →
      p.head? = some k → q.head? = some l → ∀ (i j : Nat) (hi : i < p.length) (hj : j < q.length), p[i] = q[j] → k = l := by
    intro p q k l hk hl hp hq hpk hql i
    have p0 : ∀ h0 : 0 < p.length, p[0] = k := by
      intro h0; rw [List.head?_eq_getElem?, List.getElem?_eq_getElem h0] at hpk; simpa using hpk
    have q0 : ∀ h0 : 0 < q.length, q[0] = l := by
      intro h0; rw [List.head?_eq_getElem?, List.getElem?_eq_getElem h0] at hql; simpa using hql
    induction i with
    | zero =>
      intro j hi hj he
      cases j with
      | zero => rw [p0 hi, q0 hj] at he; exact he
      | succ j =>
        exfalso
        have := path_getElem hq j hj
        rw [← he, p0 hi] at this
        exact ((hkey k).mp hk).2 _ this
    | succ i ih =>
      intro j hi hj he
      cases j with
      | zero =>
        exfalso
        have := path_getElem hp i hi
        rw [he, q0 hj] at this
        exact ((hkey l).mp hl).2 _ this
      | succ j =>
        refine ih j (by omega) (by omega) ?_
        have h1 := path_getElem hp i hi
        have h2 := path_getElem hq j hj
        rw [he] at h1
        exact hinj _ _ _ h1 h2
  refine ⟨ps, ?_, ?_, ?_, ?_⟩
  · unfold forcedPaths
    rw [hb]
    simp only [Option.bind_some]
    rw [hps]
    simp only [Option.bind_some]
    rw [if_pos]
    rw [List.all_eq_true]
    intro p hp
    have := hlen p hp
    simp; omega
  · intro p hp
    obtain ⟨k, hk, hkp⟩ := hmem p hp
    obtain ⟨p', h1, h2, _, _⟩ := hfol k
    rw [hkp] at h1; cases h1
    refine ⟨hlen p hp, nodup_of_acyclic hacy h2, ?_⟩
    rintro a b ⟨i, hia, hib⟩
    obtain ⟨hi, rfl⟩ := List.getElem?_eq_some_iff.mp hib
    obtain ⟨hi', rfl⟩ := List.getElem?_eq_some_iff.mp hia
    exact hsub _ _ (path_getElem h2 i hi)
  · rw [List.pairwise_iff_getElem]
    intro i j hi hj hij x hx hy
    have hl := hall.length_eq
    have e1 := (List.forall₂_iff_get.mp hall).2 i (by omega) hi
    have e2 := (List.forall₂_iff_get.mp hall).2 j (by omega) hj
    simp only [List.get_eq_getElem] at e1 e2
    obtain ⟨p', g1, g2, g3, _⟩ := hfol ((begins next)[i]'(by omega))
    obtain ⟨q', g1', g2', g3', _⟩ := hfol ((begins next)[j]'(by omega))
    rw [e1] at g1; cases g1
    rw [e2] at g1'; cases g1'
    obtain ⟨a, ha, hxa⟩ := List.mem_iff_getElem.mp hx
    obtain ⟨b, hb, hxb⟩ := List.mem_iff_getElem.mp hy
    have := hdisj _ _ _ _ (List.getElem_mem _) (List.getElem_mem _) g2 g2' g3 g3' a b ha hb (by rw [hxa, hxb])
    have hnd : (begins next).Nodup := by
      unfold begins
      refine List.Nodup.filter _ ?_
      have : (next.map Prod.fst).Pairwise (· < ·) := List.pairwise_map.mpr hsn
      exact this.imp fun h => ne_of_lt h
    have := (List.Nodup.getElem_inj_iff hnd).mp this
    omega
  · intro f hff
    have hfeq : f = OMap.find? (forcedEdges es) := by
      funext a
      apply Option.ext
      intro b
      rw [hff, hf]
    subst hfeq
    refine ⟨cs, ?_, hcut, hpw⟩
    intro a b hab
    by_cases hac : a ∈ cs
    · exact Or.inl hac
    · right
      have hnab : OMap.find? next a = some b := by rw [hnext, if_neg hac]; exact (hf a b).mpr hab
      -- walk back to the beginning of the path
      have back : ∀ (fuel : Nat) (post : List K) (y : K), post ≠ [] → Path (OMap.find? next) (y :: post) → (∀ x ∈ y :: post.dropLast, OMap.find? next x ≠ none) →
          OMap.find? next y ≠ none → next.length + 1 ≤ fuel + (y :: post.dropLast).length → ∃ k ∈ begins next, Reach (OMap.find? next) k y := by
        intro fuel
        induction fuel with
        | zero =>
          intro post y _ hp hkeys _ hlen'
          have hn : (y :: post.dropLast).Nodup := by
            refine List.Nodup.sublist ?_ (nodup_of_acyclic hacy hp)
            exact List.Sublist.cons_cons _ (List.dropLast_sublist _)
          have := nodup_keys_length hn hkeys
          omega
        | succ fuel ih =>
          intro post y hne hp hkeys hy hlen'
          by_cases hyb : ∃ z, OMap.find? next z = some y
          · obtain ⟨z, hz⟩ := hyb
            cases post with
            | nil => exact absurd rfl hne
            | cons w t =>
              obtain ⟨k, hk, hr⟩ := ih (y :: w :: t) z (by simp) (List.IsChain.cons_cons hz hp)
                (by
                  intro x hx
                  rw [List.dropLast_cons_cons] at hx
                  rcases List.mem_cons.mp hx with rfl | hx
                  · rw [hz]; simp
                  · exact hkeys x hx)
                (by rw [hz]; simp) (by rw [List.dropLast_cons_cons]; simp at hlen' ⊢; omega)
              exact ⟨k, hk, hr.trans (Reach.step hz)⟩
          · exact ⟨y, (hkey y).mpr ⟨hy, fun z hz => hyb ⟨z, hz⟩⟩, Reach.refl y⟩
      obtain ⟨k, hk, n, hn⟩ := back (next.length + 1) [b] a (by simp) (by simp [hnab]) (by simp [hnab]) (by rw [hnab]; simp) (by simp)
      obtain ⟨p, hp, hkp⟩ := hmem' k hk
      obtain ⟨p', h1, h2, h3, h4⟩ := hfol k
      rw [hkp] at h1; cases h1
      refine ⟨p, hp, n, ?_⟩
      -- the n-th node of the path
      have hpos : ∀ n c, iter (OMap.find? next) n k = some c → p[n]? = some c := by
        intro n
        induction n with
        | zero => intro c hc; cases hc; rw [← List.head?_eq_getElem?]; exact h3
        | succ n ih =>
          intro c hc
          rw [iter_add] at hc
          cases hn' : iter (OMap.find? next) n k with
          | none => rw [hn'] at hc; cases hc
          | some d =>
            rw [hn'] at hc
            have hc : iter (OMap.find? next) 1 d = some c := hc
            rw [iter_one] at hc
            have hd := ih d hn'
            obtain ⟨hlt, hd⟩ := List.getElem?_eq_some_iff.mp hd
            by_cases hend : n + 1 < p.length
            · have := path_getElem h2 n hend
              rw [hd, hc] at this
              rw [List.getElem?_eq_getElem hend]; exact this.symm
            · exfalso
              have hlast : p.getLast? = some d := by
                rw [List.getLast?_eq_getElem?, show p.length - 1 = n by omega, List.getElem?_eq_getElem hlt, hd]
              rw [h4 d hlast] at hc; cases hc
      exact ⟨hpos n a hn, hpos (n + 1) b (by rw [iter_add, hn]; show iter _ 1 a = _; rw [iter_one]; exact hnab)⟩

/-- A loop 3 → 5 → 4 → 3 of forced edges is cut at the edge into block 3, the path 0 → 1 is kept, and block 2, with two hot exits, is in no path. -/
theorem forcedPaths_example : forcedPaths (K := Nat) id
    [⟨0, 1, 7, true⟩, ⟨3, 5, 2, true⟩, ⟨5, 4, 2, true⟩, ⟨4, 3, 2, true⟩, ⟨2, 6, 1, true⟩, ⟨2, 7, 1, true⟩, ⟨1, 2, 0, true⟩, ⟨0, 7, 9, false⟩] =
    some [[0, 1], [3, 5, 4]] := by decide +kernel

end Verif.ForcedPath

import Verif.CfgBuild
import Mathlib.Data.List.Induction

/-! # C27: weights, kinds and frequencies of the edges built from a profile -/
namespace Verif.CfgBuild
open Verif Verif.Mapper Verif.InferFT

/-! ### Specification -/

/-- The block pair of the edge for a branch record, if any. -/
def branchPair (m : Mapper) (br : (Nat × Nat) × Nat) : Option (Nat × Nat) := (classify m br).2.map fun r => (r.src, r.sink)

/-- The block runs executed in a straight line: from the fallthrough records, and from returns to the start of a block. -/
def runs (m : Mapper) (brs fts : List ((Nat × Nat) × Nat)) : List ((Nat × Nat) × Nat) :=
  brs.filterMap (fun b => (classify m b).1) ++ fts.filterMap (fallPair m)

/-- A straight-line run that goes from block `i` directly to block `j`. -/
def Passes (m : Mapper) (x : Nat × Nat) (i j : Nat) : Prop :=
  j = i + 1 ∧ x.1 ≤ i ∧ i < x.2 ∧ StraightLine m x.1 x.2

/-! ### Requests are in range -/

theorem classify_req {m : Mapper} {br : (Nat × Nat) × Nat} {r : Req} (h : (classify m br).2 = some r) :
    ∃ i j s h0 h', find m br.1.1 .from_ = some i ∧ find m br.1.2 .to_ = some j ∧ m.handles[i]? = some s ∧
      m.handles[j]? = some h0 ∧ m.handles[r.sink]? = some h' ∧ r.src = i ∧ r.weight = br.2 ∧
      r.sink = (if retToStart m (some s) br.1.2 h0 = true ∧ h0.bb ≠ 0 then j - 1 else j) ∧ r.kind = kindOf m s h' br.1.2 := by
  unfold classify at h
  split at h
  · cases h
  · rename_i j hj
    split at h
    · cases h
    · rename_i h0 hh0
      simp only at h
      split at h
      · rename_i i s h' hi hs hh'
        cases h
        rw [hi] at hs
        simp only [Option.bind_some] at hs
        refine ⟨i, j, s, h0, h', hi, hj, hs, hh0, hh', rfl, rfl, ?_, rfl⟩
        show (adjust _ _ _ _ _).1 = _
        unfold adjust
        rw [hi]; simp only [Option.bind_some, hs]
        split <;> rfl
      · cases h

theorem fallReqs_mem {m : Mapper} {p : (Nat ×ₗ Nat) × Nat} {r : Req} (h : r ∈ fallReqs m p) :
    (ofLex p.1).1 ≤ r.src ∧ r.src < (ofLex p.1).2 ∧ r.sink = r.src + 1 ∧ r.weight = p.2 ∧ r.kind = .branch ∧
    (ofLex p.1).1 ≠ (ofLex p.1).2 ∧ canFallThrough m (ofLex p.1).1 (ofLex p.1).2 = true := by
  unfold fallReqs at h
  simp only at h
  split at h
  · simp at h
  · rename_i hc
    obtain ⟨s, hs, rfl⟩ := List.mem_map.mp h
    rw [List.mem_range'_1] at hs
    refine ⟨hs.1, by show s < _; omega, rfl, rfl, rfl, fun he => hc (Or.inl he), ?_⟩
    by_contra hne
    exact hc (Or.inr (by simpa using hne))

theorem canFT_range {m : Mapper} {i j : Nat} (hij : i ≠ j) (h : canFallThrough m i j = true) : j < m.handles.length := by
  unfold canFallThrough at h
  rw [if_neg hij] at h
  split at h
  · rename_i hb
    exact (List.getElem?_eq_some_iff.mp hb).1
  · cases h

theorem requests_range (m : Mapper) (brs fts : List ((Nat × Nat) × Nat)) :
    ∀ r ∈ requests m brs fts, r.src < m.handles.length ∧ r.sink < m.handles.length := by
  intro r hr
  rcases List.mem_append.mp hr with hr | hr
  · obtain ⟨br, _, hb⟩ := List.mem_filterMap.mp hr
    obtain ⟨i, j, s, h0, h', _, _, h1, _, h2, h3, _⟩ := classify_req hb
    exact ⟨by rw [h3]; exact (List.getElem?_eq_some_iff.mp h1).1, (List.getElem?_eq_some_iff.mp h2).1⟩
  · obtain ⟨p, _, hp⟩ := List.mem_flatMap.mp hr
    obtain ⟨h1, h2, h3, _, _, h4, h5⟩ := fallReqs_mem hp
    have := canFT_range h4 h5
    omega

/-- **C27**: for every profile building the edges succeeds; there is at most one edge for each pair of blocks, each
edge is registered exactly once at its source, its sink and its function, and its weight is the sum of the weights of
the requests mapped to it. -/
theorem createEdges_spec (m : Mapper) {S : Type} [DecidableEq S] (sec : Nat → S) (brs fts : List ((Nat × Nat) × Nat)) :
    ∃ st, createEdges m sec brs fts = some st ∧ Spec m (requests m brs fts) st.g :=
  addEdges_spec m sec _ (requests_range m brs fts)

/-! ### Weights -/

theorem handles_nodup {fns : List Fn} {sel : List Nat} {m : Mapper} (hn : sel.Nodup) (h : build fns sel = some m) :
    ∀ (i j : Nat) (k : Handle), m.handles[i]? = some k → m.handles[j]? = some k → i = j := by
  intro i j k hi hj
  obtain ⟨ma, _⟩ := handle_fn_mem h hi
  obtain ⟨base, hbase⟩ := fn_block hn h k.fn ma
  have h1 := (hbase i k.bb).mp hi
  have h2 := (hbase j k.bb).mp hj
  omega

/-- Weighted sums over an accumulated map are those over what was accumulated. -/
theorem sum_add {K : Type} [LinearOrder K] (P : K → Prop) [DecidablePred P] (kv : K × Nat) : ∀ (m : OMap K Nat),
    ((OMap.add m kv).map fun p => if P p.1 then p.2 else 0).sum =
    (m.map fun p => if P p.1 then p.2 else 0).sum + if P kv.1 then kv.2 else 0 := by
  obtain ⟨k, c⟩ := kv
  intro m
  unfold OMap.add
  induction m with
  | nil => simp [OMap.upsert]
  | cons a t ih =>
    obtain ⟨k', v⟩ := a
    unfold OMap.upsert
    split
    · simp; omega
    · split
      · rename_i hk
        subst hk
        simp only [List.map_cons, List.sum_cons, Option.getD_some]
        split <;> omega
      · simp at ih ⊢; omega

theorem sum_addAll {K : Type} [LinearOrder K] (P : K → Prop) [DecidablePred P] : ∀ (xs : List (K × Nat)) (m : OMap K Nat),
    ((OMap.addAll m xs).map fun p => if P p.1 then p.2 else 0).sum =
    (m.map fun p => if P p.1 then p.2 else 0).sum + (xs.map fun p => if P p.1 then p.2 else 0).sum
  | [], m => by simp [OMap.addAll]
  | a :: t, m => by
    have : OMap.addAll m (a :: t) = OMap.addAll (OMap.add m a) t := rfl
    rw [this, sum_addAll P t, sum_add P a m]; simp; omega

theorem sum_filter {α : Type} (p : α → Prop) [DecidablePred p] (f : α → Nat) (l : List α) :
    ((l.filter fun x => decide (p x)).map f).sum = (l.map fun x => if p x then f x else 0).sum := by
  induction l with
  | nil => rfl
  | cons a t ih =>
    by_cases h : p a
    · rw [List.filter_cons_of_pos (by simpa using h)]; simp [h, ih]
    · rw [List.filter_cons_of_neg (by simpa using h)]; simp [h, ih]

theorem sum_range'_single (i n s w : Nat) :
    ((List.range' i n).map fun k => if k = s then w else 0).sum = if i ≤ s ∧ s < i + n then w else 0 := by
  induction n generalizing i with
  | zero => simp; try omega
  | succ n ih =>
    rw [List.range'_succ, List.map_cons, List.sum_cons, ih]
    split <;> split <;> split <;> omega

/-- Weight of the requests of one run on a pair of blocks. -/
theorem fallReqs_sum {fns : List Fn} {sel : List Nat} {m : Mapper} (hn : sel.Nodup) (h : build fns sel = some m)
    (p : (Nat ×ₗ Nat) × Nat) (i j : Nat) [Decidable (Passes m (ofLex p.1) i j)] :
    ((fallReqs m p).map fun r => if r.src = i ∧ r.sink = j then r.weight else 0).sum =
    if Passes m (ofLex p.1) i j then p.2 else 0 := by
  unfold fallReqs
  simp only
  split
  · rename_i hc
    rw [if_neg]
    · rfl
    · rintro ⟨_, h1, h2, h3⟩
      rcases hc with hc | hc
      · omega
      · rw [(canFallThrough_iff fns sel m hn h _ _ (by omega)).mpr h3] at hc; cases hc
  · rename_i hc
    have hc1 : (ofLex p.1).1 ≠ (ofLex p.1).2 := fun he => hc (Or.inl he)
    have hc2 : canFallThrough m (ofLex p.1).1 (ofLex p.1).2 = true := by
      by_contra hne; exact hc (Or.inr (by simpa using hne))
    have hsl := (canFallThrough_iff fns sel m hn h _ _ hc1).mp hc2
    rw [List.map_map]
    by_cases hj : j = i + 1
    · have : ((List.range' (ofLex p.1).1 ((ofLex p.1).2 - (ofLex p.1).1)).map
          ((fun r : Req => if r.src = i ∧ r.sink = j then r.weight else 0) ∘ fun s => ⟨s, s + 1, p.2, .branch⟩)) =
          (List.range' (ofLex p.1).1 ((ofLex p.1).2 - (ofLex p.1).1)).map fun k => if k = i then p.2 else 0 := by
        apply List.map_congr_left
        intro k _
        simp only [Function.comp]
        by_cases hk : k = i
        · rw [if_pos ⟨hk, by omega⟩, if_pos hk]
        · rw [if_neg (fun x => hk x.1), if_neg hk]
      rw [this, sum_range'_single]
      have := hsl.1
      by_cases hin : (ofLex p.1).1 ≤ i ∧ i < (ofLex p.1).2
      · rw [if_pos (by omega), if_pos ⟨hj, hin.1, hin.2, hsl⟩]
      · rw [if_neg (by omega), if_neg (fun x => hin ⟨x.2.1, x.2.2.1⟩)]
    · rw [if_neg (fun x => hj x.1)]
      apply List.sum_eq_zero
      intro x hx
      obtain ⟨k, _, rfl⟩ := List.mem_map.mp hx
      simp only [Function.comp]
      rw [if_neg]
      rintro ⟨rfl, rfl⟩; exact hj rfl

theorem sum_flatMap {α β : Type} (f : α → List β) (g : β → Nat) (l : List α) :
    ((l.flatMap f).map g).sum = (l.map fun a => ((f a).map g).sum).sum := by
  induction l with
  | nil => rfl
  | cons a t ih => rw [List.flatMap_cons, List.map_append, List.sum_append, ih]; simp

theorem reqWeight_idx {fns : List Fn} {sel : List Nat} {m : Mapper} (hn : sel.Nodup) (h : build fns sel = some m)
    {i j : Nat} {a b : Handle} (hi : m.handles[i]? = some a) (hj : m.handles[j]? = some b) (rs : List Req) :
    reqWeight m rs a b = (rs.map fun r => if r.src = i ∧ r.sink = j then r.weight else 0).sum := by
  unfold reqWeight
  rw [sum_filter]
  congr 1
  apply List.map_congr_left
  intro r _
  congr 1
  apply propext
  constructor
  · rintro ⟨h1, h2⟩
    exact ⟨handles_nodup hn h _ _ _ h1 hi, handles_nodup hn h _ _ _ h2 hj⟩
  · rintro ⟨rfl, rfl⟩; exact ⟨hi, hj⟩

theorem branch_sum (m : Mapper) (brs : List ((Nat × Nat) × Nat)) (i j : Nat) :
    ((brs.filterMap fun b => (classify m b).2).map fun r => if r.src = i ∧ r.sink = j then r.weight else 0).sum =
    (brs.map fun br => if branchPair m br = some (i, j) then br.2 else 0).sum := by
  induction brs with
  | nil => rfl
  | cons br t ih =>
    rw [List.filterMap_cons, List.map_cons, List.sum_cons, ← ih]
    cases hc : (classify m br).2 with
    | none =>
      rw [if_neg (by simp [branchPair, hc])]; simp
    | some r =>
      simp only [List.map_cons, List.sum_cons]
      congr 1
      obtain ⟨_, _, _, _, _, _, _, _, _, _, _, hw, _⟩ := classify_req hc
      rw [hw]
      congr 1
      simp [branchPair, hc]

open Classical in
/-- **C27**: the weight of an edge is exactly the sum of the weights of the branch records mapped to its two blocks, plus
the weights of all straight-line runs that pass from its source directly to its sink. -/
theorem createEdges_weight (fns : List Fn) (sel : List Nat) (m : Mapper) (hn : sel.Nodup) (h : build fns sel = some m)
    {S : Type} [DecidableEq S] (sec : Nat → S) (brs fts : List ((Nat × Nat) × Nat)) (st : St) (hst : createEdges m sec brs fts = some st)
    (e : Edge) (he : e ∈ st.g.edges) (i j : Nat) (hi : m.handles[i]? = some e.src) (hj : m.handles[j]? = some e.sink) :
    e.weight = ((brs.filter fun br => branchPair m br = some (i, j)).map (·.2)).sum +
      (((runs m brs fts).filter fun p => Passes m p.1 i j).map (·.2)).sum := by
  obtain ⟨st', h1, h2⟩ := createEdges_spec m sec brs fts
  rw [hst] at h1; cases h1
  rw [h2.weight e he, reqWeight_idx hn h hi hj, requests, List.map_append, List.sum_append, branch_sum, sum_filter,
    sum_filter, sum_flatMap]
  congr 1
  have : (fallCounters m brs fts).map (fun p => ((fallReqs m p).map fun r => if r.src = i ∧ r.sink = j then r.weight else 0).sum) =
      (fallCounters m brs fts).map fun p => if Passes m (ofLex p.1) i j then p.2 else 0 :=
    List.map_congr_left fun p _ => fallReqs_sum hn h p i j
  rw [this]
  have h3 := sum_addAll (fun k : Nat ×ₗ Nat => Passes m (ofLex k) i j) ((runs m brs fts).map fun p => (toLex p.1, p.2)) []
  rw [List.map_map] at h3
  simp only [List.map_nil, List.sum_nil, Nat.zero_add] at h3
  exact h3

/-- **C27**: an edge exists exactly for the pairs of blocks of the branch records and of the runs. -/
theorem createEdges_exists (fns : List Fn) (sel : List Nat) (m : Mapper) (hn : sel.Nodup) (h : build fns sel = some m)
    {S : Type} [DecidableEq S] (sec : Nat → S) (brs fts : List ((Nat × Nat) × Nat)) (st : St) (hst : createEdges m sec brs fts = some st)
    (i j : Nat) (a b : Handle) (hi : m.handles[i]? = some a) (hj : m.handles[j]? = some b) :
    (∃ e ∈ st.g.edges, e.src = a ∧ e.sink = b) ↔
      (∃ br ∈ brs, branchPair m br = some (i, j)) ∨ ∃ p ∈ runs m brs fts, Passes m p.1 i j := by
  obtain ⟨st', h1, h2⟩ := createEdges_spec m sec brs fts
  rw [hst] at h1; cases h1
  rw [h2.made]
  have hkey : ∀ k : Nat ×ₗ Nat, (∃ w, (k, w) ∈ fallCounters m brs fts) ↔ ∃ p ∈ runs m brs fts, toLex p.1 = k := by
    intro k
    unfold fallCounters
    have hs : OMap.Sorted (OMap.addAll [] ((brs.filterMap (fun b => (classify m b).1) ++ fts.filterMap (fallPair m)).map
      fun p => ((toLex p.1 : Nat ×ₗ Nat), p.2))) := OMap.Sorted.addAll OMap.sorted_nil _
    have h3 := OMap.find?_addAll (OMap.sorted_nil) ((brs.filterMap (fun b => (classify m b).1) ++ fts.filterMap (fallPair m)).map
      fun p => ((toLex p.1 : Nat ×ₗ Nat), p.2)) k
    constructor
    · rintro ⟨w, hw⟩
      rw [OMap.find?_some_of_mem hs hw] at h3
      split at h3
      · rename_i hc
        rcases hc with hc | hc
        · rw [List.map_map] at hc
          obtain ⟨p, hp, hpk⟩ := List.mem_map.mp hc
          exact ⟨p, hp, hpk⟩
        · simp [OMap.find?] at hc
      · cases h3
    · rintro ⟨p, hp, hpk⟩
      rw [if_pos (Or.inl (by rw [List.map_map]; exact List.mem_map.mpr ⟨p, hp, hpk⟩))] at h3
      exact ⟨_, OMap.mem_of_find?_some h3⟩
  constructor
  · rintro ⟨r, hr, h3, h4⟩
    have e1 := handles_nodup hn h _ _ _ h3 hi
    have e2 := handles_nodup hn h _ _ _ h4 hj
    rcases List.mem_append.mp hr with hr | hr
    · obtain ⟨br, hb, hc⟩ := List.mem_filterMap.mp hr
      exact Or.inl ⟨br, hb, by unfold branchPair; rw [hc, ← e1, ← e2]; rfl⟩
    · obtain ⟨⟨k, w⟩, hp, hq⟩ := List.mem_flatMap.mp hr
      obtain ⟨g1, g2, g3, _, _, g4, g5⟩ := fallReqs_mem hq
      obtain ⟨p, hp1, hp2⟩ := (hkey k).mp ⟨w, hp⟩
      subst hp2
      refine Or.inr ⟨p, hp1, by omega, by rw [← e1]; exact g1, by rw [← e1]; exact g2,
        (canFallThrough_iff fns sel m hn h _ _ g4).mp g5⟩
  · rintro (⟨br, hb, hc⟩ | ⟨p, hp, hj', g1, g2, g3⟩)
    · unfold branchPair at hc
      rw [Option.map_eq_some_iff] at hc
      obtain ⟨r, hr, he⟩ := hc
      cases he
      exact ⟨r, List.mem_append_left _ (List.mem_filterMap.mpr ⟨br, hb, hr⟩), hi, hj⟩
    · obtain ⟨w, hw⟩ := (hkey (toLex p.1)).mpr ⟨p, hp, rfl⟩
      refine ⟨⟨i, j, w, .branch⟩, List.mem_append_right _ (List.mem_flatMap.mpr ⟨_, hw, ?_⟩), hi, hj⟩
      unfold fallReqs
      have hne : p.1.1 ≠ p.1.2 := by omega
      have hcond : ¬ ((ofLex (toLex p.1, w).1).1 = (ofLex (toLex p.1, w).1).2 ∨
          canFallThrough m (ofLex (toLex p.1, w).1).1 (ofLex (toLex p.1, w).1).2 = false) := by
        rintro (hc | hc)
        · exact hne hc
        · have hc : canFallThrough m p.1.1 p.1.2 = false := hc
          rw [(canFallThrough_iff fns sel m hn h _ _ hne).mpr g3] at hc; cases hc
      simp only
      rw [if_neg hcond, hj', List.mem_map]
      exact ⟨i, List.mem_range'_1.mpr ⟨g1, by show i < p.1.1 + (p.1.2 - p.1.1); omega⟩, rfl⟩

/-! ### Kinds -/

/-- The kinds of the edges: a call goes to the entry block of a function; a branch goes to the start of a block, which is not
its function's entry, inside the same function and not from a block that returns; a return goes into the middle of a block, or to
the end of it, where the next block of the same function starts. -/
theorem classify_kinds (fns : List Fn) (sel : List Nat) (m : Mapper) (hn : sel.Nodup) (hl : Layout fns sel)
    (h : build fns sel = some m) (h0 : ∀ f ∈ fns, ∀ b, f.bbs[0]? = some b → b.offset = 0)
    (br : (Nat × Nat) × Nat) (r : Req) (hr : (classify m br).2 = some r) (s k : Handle)
    (hs : m.handles[r.src]? = some s) (hk : m.handles[r.sink]? = some k) :
    (r.kind = .call ↔ fnAddr m k = br.1.2) ∧
    (r.kind = .call → k.bb = 0 ∧ m.addr k = br.1.2) ∧
    (r.kind = .branch → k.fn = s.fn ∧ m.addr k = br.1.2 ∧ hasReturn m s = false ∧ k.bb ≠ 0) ∧
    (r.kind = .ret → (m.addr k < br.1.2 ∧ br.1.2 < m.endAddr k) ∨
      (m.addr k < br.1.2 ∧ ∃ n, m.handles[r.sink + 1]? = some n ∧ m.addr n = br.1.2 ∧ n.fn = k.fn ∧ n.bb = k.bb + 1)) := by
  have hord := build_ordered fns sel m hl h
  have hfns : m.fns = fns := by
    unfold build at h
    rw [Option.map_eq_some_iff] at h
    obtain ⟨hs, hh, rfl⟩ := h; rfl
  have haddr : ∀ (i : Nat) (x : Handle), m.handles[i]? = some x → fnAddr m x ≤ m.addr x ∧ (x.bb = 0 → m.addr x = fnAddr m x) := by
    intro i x hx
    obtain ⟨_, f, hf, hb⟩ := handle_fn_mem h hx
    have e1 : fnAddr m x = f.addr := by simp [fnAddr, hfns, hf]
    have e2 : m.addr x = f.addr + (f.bbs[x.bb]).offset := by
      simp [Mapper.addr, Mapper.bb?, hfns, hf, List.getElem?_eq_getElem hb]
    refine ⟨by omega, ?_⟩
    intro h3
    have : f.bbs[0]? = some (f.bbs[x.bb]) := by rw [← h3]; exact List.getElem?_eq_getElem hb
    have := h0 f (List.mem_of_getElem? hf) _ this
    omega
  have hprev : ∀ (i : Nat) (x : Handle), m.handles[i]? = some x → x.bb ≠ 0 →
      i ≠ 0 ∧ m.handles[i - 1]? = some ⟨x.fn, x.bb - 1⟩ := by
    intro i x hx hb
    obtain ⟨ma, _⟩ := handle_fn_mem h hx
    obtain ⟨base, hbase⟩ := fn_block hn h x.fn ma
    have := (hbase i x.bb).mp hx
    exact ⟨by omega, (hbase _ _).mpr ⟨by omega, by omega⟩⟩
  obtain ⟨i, j, s', k0, k', hi, hj, hs', hk0, hk', e1, _, e3, e4⟩ := classify_req hr
  rw [← e1, hs] at hs'; cases hs'
  rw [hk] at hk'; cases hk'
  obtain ⟨k1, hk1, hto⟩ := find_to m br.1.2 j hord hj
  rw [hk0] at hk1; cases hk1
  have hret : retToStart m (some s) br.1.2 k0 = true ↔
      (hasReturn m s = true ∨ k0.fn ≠ s.fn) ∧ fnAddr m k0 ≠ br.1.2 ∧ br.1.2 = m.addr k0 := by
    simp [retToStart, and_assoc]
  by_cases hadj : retToStart m (some s) br.1.2 k0 = true ∧ k0.bb ≠ 0
  · -- returned to the start of a block
    rw [if_pos hadj] at e3
    obtain ⟨hr1, hr2, hr3⟩ := hret.mp hadj.1
    obtain ⟨g1, g2⟩ := hprev j k0 hk0 hadj.2
    rw [← e3, hk] at g2
    cases g2
    have hjs : r.sink + 1 = j := by clear hto; omega
    have hfa : fnAddr m ⟨k0.fn, k0.bb - 1⟩ = fnAddr m k0 := rfl
    have hlast : m.addr ⟨k0.fn, k0.bb - 1⟩ ≠ br.1.2 := by
      rcases hto with ⟨h1, _⟩ | ⟨_, l, kl, _, _, _, _, _, _, h5⟩
      · omega
      · intro hc
        exact h5 r.sink _ hjs.symm hk ⟨hc, rfl⟩
    have hle : m.addr ⟨k0.fn, k0.bb - 1⟩ ≤ m.addr k0 := by
      have := ordered_getElem m (hs := hord) hk hk0 (by clear hto; omega)
      unfold Mapper.endAddr at this; clear hto; omega
    have hkind : r.kind = .ret := by
      rw [e4]; unfold kindOf
      rw [if_neg (by rw [hfa]; exact hr2), if_pos (Or.inl (fun x => hlast x.symm))]
    rw [hkind]
    refine ⟨⟨fun x => by simp at x, fun x => absurd (hfa.symm.trans x) hr2⟩, fun x => by simp at x, fun x => by simp at x, ?_⟩
    intro _
    refine Or.inr ⟨by clear hto; omega, k0, ?_, hr3.symm, rfl, ?_⟩
    · rw [hjs]; exact hk0
    · show k0.bb = k0.bb - 1 + 1
      have := hadj.2; clear hto; omega
  · rw [if_neg hadj] at e3
    rw [e3, hk0] at hk
    have hkk := Option.some.inj hk
    subst hkk
    have ha := haddr j k0 hk0
    have hbb : k0.bb ≠ 0 ∨ m.addr k0 = fnAddr m k0 := by
      by_cases hb : k0.bb = 0
      · exact Or.inr (ha.2 hb)
      · exact Or.inl hb
    have hcall : fnAddr m k0 = br.1.2 → k0.bb = 0 ∧ m.addr k0 = br.1.2 := by
      intro hc
      rcases hto with ⟨h1, _⟩ | ⟨h1, l, kl, _, _, _, _, _, _, h5⟩
      · omega
      · refine ⟨?_, h1⟩
        by_contra hb
        obtain ⟨g1, g2⟩ := hprev j k0 hk0 hb
        have g3 := haddr _ _ g2
        have : m.addr ⟨k0.fn, k0.bb - 1⟩ ≤ m.addr k0 := by
          have := ordered_getElem m (hs := hord) g2 hk0 (by omega)
          unfold Mapper.endAddr at this; omega
        have hfa : fnAddr m ⟨k0.fn, k0.bb - 1⟩ = fnAddr m k0 := rfl
        exact h5 (j - 1) _ (by omega) g2 ⟨by omega, rfl⟩
    rw [e4]
    unfold kindOf
    by_cases hc : fnAddr m k0 = br.1.2
    · rw [if_pos hc]
      refine ⟨⟨fun _ => hc, fun _ => rfl⟩, fun _ => hcall hc, fun x => by simp at x, fun x => by simp at x⟩
    · rw [if_neg hc]
      by_cases hd : br.1.2 ≠ m.addr k0 ∨ hasReturn m s = true
      · rw [if_pos hd]
        refine ⟨⟨fun x => by simp at x, fun x => absurd x hc⟩, fun x => by simp at x, fun x => by simp at x, fun _ => ?_⟩
        rcases hto with ⟨h1, h2, _⟩ | ⟨h1, _⟩
        · exact Or.inl ⟨h1, h2⟩
        · exfalso
          rcases hd with hd | hd
          · exact hd h1.symm
          · rcases hbb with hb | hb
            · exact hadj ⟨hret.mpr ⟨Or.inl hd, hc, h1.symm⟩, hb⟩
            · exact hc (by omega)
      · rw [if_neg hd]
        refine ⟨⟨fun x => by simp at x, fun x => absurd x hc⟩, fun x => by simp at x, fun _ => ?_, fun x => by simp at x⟩
        have hd1 : br.1.2 = m.addr k0 := by by_contra hx; exact hd (Or.inl hx)
        have hd2 : hasReturn m s = false := by
          cases hx : hasReturn m s with
          | false => rfl
          | true => exact absurd (Or.inr hx) hd
        have hb : k0.bb ≠ 0 := by
          rcases hbb with hb | hb
          · exact hb
          · exact absurd (by omega) hc
        refine ⟨?_, hd1.symm, hd2, hb⟩
        by_contra hf
        exact hadj ⟨hret.mpr ⟨Or.inr hf, hc, hd1⟩, hb⟩

/-! ### Block frequencies -/

/-- The edge of a pointer. -/
def edgeAt (g : Graph) (i : Nat) : Option Edge := g.edges[i]?

/-- `CFGNode::CalculateFrequency` (llvm_propeller_cfg.cc:118-159). -/
def nodeFreq (g : Graph) (n : Handle) : Nat :=
  let outs := ((g.node n).interOuts ++ (g.node n).intraOuts).filterMap (edgeAt g)
  let ins := ((g.node n).interIns ++ (g.node n).intraIns).filterMap (edgeAt g)
  let maxCallOut := (outs.filter fun e => decide (e.kind = .call)).foldl (fun a e => max a e.weight) 0
  let sumOut := ((outs.filter fun e => decide (e.kind ≠ .call)).map (·.weight)).sum
  let maxRetIn := (ins.filter fun e => decide (e.kind = .ret)).foldl (fun a e => max a e.weight) 0
  let sumIn := ((ins.filter fun e => decide (e.kind ≠ .ret)).map (·.weight)).sum
  max (max maxCallOut maxRetIn) (max sumOut sumIn)

theorem foldl_max (l : List Edge) (a : Nat) : a ≤ l.foldl (fun a e => max a e.weight) a ∧
    (∀ e ∈ l, e.weight ≤ l.foldl (fun a e => max a e.weight) a) ∧
    (l.foldl (fun a e => max a e.weight) a = a ∨ ∃ e ∈ l, l.foldl (fun a e => max a e.weight) a = e.weight) := by
  induction l generalizing a with
  | nil => simp
  | cons x t ih =>
    rw [List.foldl_cons]
    obtain ⟨h1, h2, h3⟩ := ih (max a x.weight)
    refine ⟨by omega, ?_, ?_⟩
    · intro e he
      rcases List.mem_cons.mp he with rfl | he
      · omega
      · exact h2 e he
    · rcases h3 with h3 | ⟨e, he, h3⟩
      · rw [h3]
        rcases Nat.le_total a x.weight with h4 | h4
        · exact Or.inr ⟨x, by simp, by omega⟩
        · exact Or.inl (by omega)
      · exact Or.inr ⟨e, by simp [he], h3⟩

/-- Edges leaving, and entering, a block. -/
def outEdges (g : Graph) (n : Handle) : List Edge := g.edges.filter fun e => decide (e.src = n)
def inEdges (g : Graph) (n : Handle) : List Edge := g.edges.filter fun e => decide (e.sink = n)

theorem idsWhere_map (g : Graph) (p : Edge → Bool) : (idsWhere g.edges p).filterMap (edgeAt g) = g.edges.filter p := by
  have gen : ∀ es : List Edge, (idsWhere es p).filterMap (fun i => es[i]?) = es.filter p := by
    intro es
    induction es using List.reverseRecOn with
    | nil => rfl
    | append_singleton es e ih =>
      rw [idsWhere_append, List.filterMap_append, List.filter_append]
      congr 1
      · rw [← ih]
        apply List.filterMap_congr
        intro i hi
        obtain ⟨e', he', _⟩ := mem_idsWhere.mp hi
        rw [List.getElem?_append_left (List.getElem?_eq_some_iff.mp he').1]
      · by_cases h : p e = true
        · simp [h]
        · simp [h]
  exact gen g.edges

theorem outs_perm {m : Mapper} {rs : List Req} {g : Graph} (h : Spec m rs g) (n : Handle) :
    (((g.node n).interOuts ++ (g.node n).intraOuts).filterMap (edgeAt g)).Perm (outEdges g n) := by
  rw [List.filterMap_append, h.interOuts, h.intraOuts, idsWhere_map, idsWhere_map]
  have := List.filter_append_perm (fun e : Edge => decide (e.sink.fn ≠ n.fn)) (outEdges g n)
  refine List.Perm.trans (List.Perm.of_eq ?_) this
  unfold outEdges
  rw [List.filter_filter, List.filter_filter]
  congr 1
  · congr 1; funext e
    by_cases h1 : e.src = n <;> by_cases h2 : e.sink.fn = n.fn <;> simp [h1, h2]
  · congr 1; funext e
    by_cases h1 : e.src = n <;> by_cases h2 : e.sink.fn = n.fn <;> simp [h1, h2]

theorem ins_perm {m : Mapper} {rs : List Req} {g : Graph} (h : Spec m rs g) (n : Handle) :
    (((g.node n).interIns ++ (g.node n).intraIns).filterMap (edgeAt g)).Perm (inEdges g n) := by
  rw [List.filterMap_append, h.interIns, h.intraIns, idsWhere_map, idsWhere_map]
  have := List.filter_append_perm (fun e : Edge => decide (e.src.fn ≠ n.fn)) (inEdges g n)
  refine List.Perm.trans (List.Perm.of_eq ?_) this
  unfold inEdges
  rw [List.filter_filter, List.filter_filter]
  congr 1
  · congr 1; funext e
    by_cases h1 : e.sink = n <;> by_cases h2 : e.src.fn = n.fn <;> simp [h1, h2]
  · congr 1; funext e
    by_cases h1 : e.sink = n <;> by_cases h2 : e.src.fn = n.fn <;> simp [h1, h2]

/-- `f` is the greatest of a list of weights (0 when empty). -/
def IsMax (l : List Nat) (f : Nat) : Prop := (∀ x ∈ l, x ≤ f) ∧ (f = 0 ∨ f ∈ l)

/-- **C27**: a block's frequency is the greatest of: its heaviest call, its heaviest return, the total of what else leaves it
and of what else enters it. -/
theorem nodeFreq_spec {m : Mapper} {rs : List Req} {g : Graph} (h : Spec m rs g) (n : Handle) :
    ∃ mc mr, IsMax (((outEdges g n).filter fun e => decide (e.kind = .call)).map (·.weight)) mc ∧
      IsMax (((inEdges g n).filter fun e => decide (e.kind = .ret)).map (·.weight)) mr ∧
      nodeFreq g n = max (max mc mr) (max (((outEdges g n).filter fun e => decide (e.kind ≠ .call)).map (·.weight)).sum
        (((inEdges g n).filter fun e => decide (e.kind ≠ .ret)).map (·.weight)).sum) := by
  have ho := outs_perm h n
  have hi := ins_perm h n
  have key : ∀ (l l' : List Edge) (p : Edge → Bool), l.Perm l' →
      IsMax ((l'.filter p).map (·.weight)) ((l.filter p).foldl (fun a e => max a e.weight) 0) := by
    intro l l' p hp
    obtain ⟨_, h2, h3⟩ := foldl_max (l.filter p) 0
    have hp' := hp.filter p
    refine ⟨?_, ?_⟩
    · intro x hx
      obtain ⟨e, he, rfl⟩ := List.mem_map.mp hx
      exact h2 e (hp'.mem_iff.mpr he)
    · rcases h3 with h3 | ⟨e, he, h3⟩
      · exact Or.inl h3
      · exact Or.inr (List.mem_map.mpr ⟨e, hp'.mem_iff.mp he, h3.symm⟩)
  refine ⟨_, _, key _ _ _ ho, key _ _ _ hi, ?_⟩
  unfold nodeFreq
  simp only
  rw [((ho.filter _).map _).sum_eq, ((hi.filter _).map _).sum_eq]

/-- **C27**: a block is hot exactly when some edge of positive weight enters or leaves it. -/
theorem nodeFreq_pos {m : Mapper} {rs : List Req} {g : Graph} (h : Spec m rs g) (n : Handle) :
    0 < nodeFreq g n ↔ ∃ e ∈ g.edges, 0 < e.weight ∧ (e.src = n ∨ e.sink = n) := by
  obtain ⟨mc, mr, h1, h2, h3⟩ := nodeFreq_spec h n
  have hsum : ∀ l : List Nat, 0 < l.sum ↔ ∃ x ∈ l, 0 < x := by
    intro l
    induction l with
    | nil => simp
    | cons a t ih =>
      rw [List.sum_cons]
      constructor
      · intro hp
        rcases Nat.eq_zero_or_pos a with ha | ha
        · obtain ⟨x, hx, hx2⟩ := ih.mp (by omega); exact ⟨x, by simp [hx], hx2⟩
        · exact ⟨a, by simp, ha⟩
      · rintro ⟨x, hx, hp⟩
        rcases List.mem_cons.mp hx with rfl | hx
        · omega
        · have := ih.mpr ⟨x, hx, hp⟩; omega
  constructor
  · intro hp
    rw [h3] at hp
    have : 0 < mc ∨ 0 < mr ∨ 0 < (((outEdges g n).filter fun e => decide (e.kind ≠ .call)).map (·.weight)).sum ∨
        0 < (((inEdges g n).filter fun e => decide (e.kind ≠ .ret)).map (·.weight)).sum := by omega
    rcases this with hp | hp | hp | hp
    · rcases h1.2 with hz | hz
      · omega
      · obtain ⟨e, he, hw⟩ := List.mem_map.mp hz
        have he := List.mem_filter.mp (List.mem_filter.mp he).1
        exact ⟨e, he.1, by omega, Or.inl (by simpa using he.2)⟩
    · rcases h2.2 with hz | hz
      · omega
      · obtain ⟨e, he, hw⟩ := List.mem_map.mp hz
        have he := List.mem_filter.mp (List.mem_filter.mp he).1
        exact ⟨e, he.1, by omega, Or.inr (by simpa using he.2)⟩
    · obtain ⟨x, hx, hxp⟩ := (hsum _).mp hp
      obtain ⟨e, he, hw⟩ := List.mem_map.mp hx
      have he := List.mem_filter.mp (List.mem_filter.mp he).1
      exact ⟨e, he.1, by omega, Or.inl (by simpa using he.2)⟩
    · obtain ⟨x, hx, hxp⟩ := (hsum _).mp hp
      obtain ⟨e, he, hw⟩ := List.mem_map.mp hx
      have he := List.mem_filter.mp (List.mem_filter.mp he).1
      exact ⟨e, he.1, by omega, Or.inr (by simpa using he.2)⟩
  · rintro ⟨e, he, hw, hn | hn⟩
    · have hm : e ∈ outEdges g n := List.mem_filter.mpr ⟨he, by simpa using hn⟩
      by_cases hk : e.kind = .call
      · have := h1.1 e.weight (List.mem_map.mpr ⟨e, List.mem_filter.mpr ⟨hm, by simpa using hk⟩, rfl⟩)
        omega
      · have := (hsum (((outEdges g n).filter fun e => decide (e.kind ≠ .call)).map (·.weight))).mpr
          ⟨e.weight, List.mem_map.mpr ⟨e, List.mem_filter.mpr ⟨hm, by simpa using hk⟩, rfl⟩, hw⟩
        omega
    · have hm : e ∈ inEdges g n := List.mem_filter.mpr ⟨he, by simpa using hn⟩
      by_cases hk : e.kind = .ret
      · have := h2.1 e.weight (List.mem_map.mpr ⟨e, List.mem_filter.mpr ⟨hm, by simpa using hk⟩, rfl⟩)
        omega
      · have := (hsum (((inEdges g n).filter fun e => decide (e.kind ≠ .ret)).map (·.weight))).mpr
          ⟨e.weight, List.mem_map.mpr ⟨e, List.mem_filter.mpr ⟨hm, by simpa using hk⟩, rfl⟩, hw⟩
        omega

/-! ### Cold functions are dropped -/

/-- The functions whose CFG is kept (last loop of `Build`, llvm_propeller_program_cfg_builder.cc:89-102). -/
def keptFns (m : Mapper) (g : Graph) (sel : List Nat) : List Nat :=
  sel.filter fun f => m.handles.any fun h => decide (h.fn = f ∧ nodeFreq g h ≠ 0)

/-- **C27**: dropping the cold functions leaves no edge of a kept function that points to a node of a dropped one, when all
records have a positive count. -/
theorem kept_closed (fns : List Fn) (sel : List Nat) (m : Mapper) (h : build fns sel = some m)
    {S : Type} [DecidableEq S] (sec : Nat → S) (brs fts : List ((Nat × Nat) × Nat))
    (hpos : ∀ r ∈ requests m brs fts, 0 < r.weight) (st : St) (hst : createEdges m sec brs fts = some st)
    (e : Edge) (he : e ∈ st.g.edges) : e.src.fn ∈ keptFns m st.g sel ∧ e.sink.fn ∈ keptFns m st.g sel := by
  obtain ⟨st', h1, h2⟩ := createEdges_spec m sec brs fts
  rw [hst] at h1; cases h1
  obtain ⟨r, hr, hs, ht⟩ := (h2.made e.src e.sink).mp ⟨e, he, rfl, rfl⟩
  have hw : 0 < e.weight := by
    rw [h2.weight e he]
    unfold reqWeight
    have : r.weight ∈ ((requests m brs fts).filter fun r => decide (m.handles[r.src]? = some e.src ∧ m.handles[r.sink]? = some e.sink)).map (·.weight) :=
      List.mem_map.mpr ⟨r, List.mem_filter.mpr ⟨hr, by simp [hs, ht]⟩, rfl⟩
    have h3 := List.le_sum_of_mem this
    have := hpos r hr
    omega
  have key : ∀ (n : Handle) (i : Nat), m.handles[i]? = some n → (e.src = n ∨ e.sink = n) → n.fn ∈ keptFns m st.g sel := by
    intro n i hi hor
    refine List.mem_filter.mpr ⟨(handle_fn_mem h hi).1, ?_⟩
    rw [List.any_eq_true]
    refine ⟨n, List.mem_of_getElem? hi, ?_⟩
    have := (nodeFreq_pos h2 n).mpr ⟨e, he, hw, hor⟩
    simp; omega
  exact ⟨key _ _ hs (Or.inl rfl), key _ _ ht (Or.inr rfl)⟩

/-! ### Order of the records -/

/-- Weight between two blocks in the graph. -/
def weightOf (g : Graph) (a b : Handle) : Nat := ((g.edges.filter fun e => decide (e.src = a ∧ e.sink = b)).map (·.weight)).sum

theorem weightOf_spec {m : Mapper} {rs : List Req} {g : Graph} (h : Spec m rs g) (a b : Handle) :
    weightOf g a b = reqWeight m rs a b := by
  unfold weightOf
  have hn : (g.edges.filter fun e => decide (e.src = a ∧ e.sink = b)).length ≤ 1 := by
    by_contra hc
    have h1 : ((g.edges.filter fun e => decide (e.src = a ∧ e.sink = b)).map fun e => (e.src, e.sink)).Nodup :=
      List.Nodup.sublist (List.Sublist.map _ List.filter_sublist) h.one
    generalize hl : (g.edges.filter fun e => decide (e.src = a ∧ e.sink = b)) = l at hc h1
    match l, hc, h1 with
    | x :: y :: t, _, h1 =>
      have hx : x ∈ g.edges.filter fun e => decide (e.src = a ∧ e.sink = b) := by rw [hl]; simp
      have hy : y ∈ g.edges.filter fun e => decide (e.src = a ∧ e.sink = b) := by rw [hl]; simp
      have hx := (List.mem_filter.mp hx).2
      have hy := (List.mem_filter.mp hy).2
      simp only [decide_eq_true_eq] at hx hy
      simp [hx, hy] at h1
    | [], hc, _ => simp at hc
    | [_], hc, _ => simp at hc
  generalize hl : (g.edges.filter fun e => decide (e.src = a ∧ e.sink = b)) = l at hn ⊢
  match l, hn with
  | [], _ =>
    rw [reqWeight_zero]
    · rfl
    · rw [← h.made]
      rintro ⟨e, he, h1⟩
      have : e ∈ g.edges.filter fun e => decide (e.src = a ∧ e.sink = b) := List.mem_filter.mpr ⟨he, by simpa using h1⟩
      rw [hl] at this; simp at this
  | [x], _ =>
    have hx : x ∈ g.edges.filter fun e => decide (e.src = a ∧ e.sink = b) := by rw [hl]; simp
    obtain ⟨h1, h2⟩ := List.mem_filter.mp hx
    simp only [decide_eq_true_eq] at h2
    rw [← h2.1, ← h2.2, ← h.weight x h1]; simp

theorem requests_perm (m : Mapper) {brs brs' fts fts' : List ((Nat × Nat) × Nat)} (hb : brs.Perm brs') (hf : fts.Perm fts') :
    (requests m brs fts).Perm (requests m brs' fts') := by
  unfold requests
  have : fallCounters m brs fts = fallCounters m brs' fts' := by
    unfold fallCounters
    exact OMap.addAll_perm OMap.sorted_nil (((hb.filterMap _).append (hf.filterMap _)).map _)
  rw [this]
  exact (hb.filterMap _).append (List.Perm.refl _)

/-- **C27**: the weights do not depend on the order in which the (hash map) records are visited. -/
theorem createEdges_perm (m : Mapper) {S : Type} [DecidableEq S] (sec : Nat → S) {brs brs' fts fts' : List ((Nat × Nat) × Nat)} (hb : brs.Perm brs')
    (hf : fts.Perm fts') : ∃ st st', createEdges m sec brs fts = some st ∧ createEdges m sec brs' fts' = some st' ∧
      ∀ a b, weightOf st.g a b = weightOf st'.g a b := by
  obtain ⟨st, h1, h2⟩ := createEdges_spec m sec brs fts
  obtain ⟨st', h1', h2'⟩ := createEdges_spec m sec brs' fts'
  refine ⟨st, st', h1, h1', ?_⟩
  intro a b
  rw [weightOf_spec h2, weightOf_spec h2']
  unfold reqWeight
  exact (((requests_perm m hb hf).filter _).map _).sum_eq

/-! ### Examples -/

/-- Two functions: `f` with three blocks of 4 bytes (the last one returns), `g` with two. -/
def exMap : Mapper := ⟨[⟨0x10, [⟨0, 4, true, false⟩, ⟨4, 4, true, false⟩, ⟨8, 4, false, true⟩]⟩,
  ⟨0x20, [⟨0, 4, true, false⟩, ⟨4, 4, false, false⟩]⟩], [⟨0, 0⟩, ⟨0, 1⟩, ⟨0, 2⟩, ⟨1, 0⟩, ⟨1, 1⟩]⟩

/-- A call (12 -> 20), the return to the start of `g`'s second block, a loop and a fallthrough run. -/
def exBrs : List ((Nat × Nat) × Nat) := [((0x23, 0x10), 7), ((0x1b, 0x24), 5), ((0x13, 0x14), 2), ((0x12, 0x14), 3)]
def exFts : List ((Nat × Nat) × Nat) := [((0x10, 0x1b), 4), ((0x10, 0x24), 9)]

/-- The hypotheses of the theorems hold for a program with a call, a return to the start of a block, two branches between the same
two blocks and a fallthrough over three blocks; the edges are as expected. -/
theorem createEdges_example : Layout exMap.fns [0, 1] ∧ build exMap.fns [0, 1] = some exMap ∧
    (∀ f ∈ exMap.fns, ∀ b, f.bbs[0]? = some b → b.offset = 0) ∧
    (∀ r ∈ requests exMap exBrs exFts, 0 < r.weight) ∧
    (createEdges exMap id exBrs exFts).map (·.g.edges) = some
      [⟨⟨1, 0⟩, ⟨0, 0⟩, 7, .call, true⟩, ⟨⟨0, 2⟩, ⟨1, 0⟩, 5, .ret, true⟩, ⟨⟨0, 0⟩, ⟨0, 1⟩, 9, .branch, false⟩,
       ⟨⟨0, 1⟩, ⟨0, 2⟩, 4, .branch, false⟩, ⟨⟨1, 0⟩, ⟨1, 1⟩, 5, .branch, false⟩] ∧
    (createEdges exMap id exBrs exFts).map (fun st => nodeFreq st.g ⟨1, 0⟩) = some 7 := by
  refine ⟨⟨?_, ?_⟩, by rfl, by decide +kernel, by decide +kernel, by decide +kernel, by decide +kernel⟩
  · intro i hi
    have : i = 0 ∨ i = 1 := by simpa using hi
    rcases this with rfl | rfl
    · exact ⟨_, rfl, by unfold FnOk; decide +kernel⟩
    · exact ⟨_, rfl, by unfold FnOk; decide +kernel⟩
  · simp only [List.pairwise_cons, List.mem_singleton, forall_eq, List.not_mem_nil, false_imp_iff, implies_true,
      List.Pairwise.nil, and_true]
    intro f g hf hg
    cases hf; cases hg
    unfold Before; decide +kernel

/-- Not claimed: the kind of an edge depends on the order of the records, i.e. on the iteration order of a hash map. -/
theorem kind_order_violated : ∃ brs brs' : List ((Nat × Nat) × Nat), brs.Perm brs' ∧
    (createEdges exMap id brs []).map (fun st => st.g.edges.map (·.kind)) = some [.branch] ∧
    (createEdges exMap id brs' []).map (fun st => st.g.edges.map (·.kind)) = some [.ret] :=
  ⟨[((0x13, 0x14), 2), ((0x13, 0x15), 3)], [((0x13, 0x15), 3), ((0x13, 0x14), 2)], List.Perm.swap _ _ _,
    by decide +kernel, by decide +kernel⟩

/-- Not claimed: when the builder starts from an existing program (`ProgramCfgBuilder(program_cfg, ...)`), its table of edges
starts empty, so a branch that has an edge already fails the duplicate-edge check. -/
theorem rebuild_violated : ∃ st, createEdges exMap id exBrs exFts = some st ∧
    (requests exMap [((0x13, 0x14), 2)] []).foldlM (internalCreateEdge exMap id) ⟨st.g, []⟩ = none := by
  obtain ⟨st, h1, h2⟩ := createEdges_spec exMap id exBrs exFts
  refine ⟨st, h1, ?_⟩
  have h3 : requests exMap [((0x13, 0x14), 2)] [] = [⟨0, 1, 2, .branch⟩] := by decide +kernel
  rw [h3]
  have h4 : (createEdges exMap id exBrs exFts).map
      (fun st => (internalCreateEdge exMap id ⟨st.g, []⟩ ⟨0, 1, 2, .branch⟩).isNone) = some true := by decide +kernel
  rw [h1] at h4
  simp only [Option.map_some, Option.some.injEq, Option.isNone_iff_eq_none] at h4
  rw [List.foldlM_cons, h4]; rfl

end Verif.CfgBuild

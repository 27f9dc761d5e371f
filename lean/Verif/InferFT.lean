import Verif.Mapper
import Mathlib.Data.Prod.Lex
import Mathlib.Data.List.Nodup
import Mathlib.Algebra.Order.BigOperators.Group.List

/-! # C26: fallthroughs (llvm_propeller_binary_address_mapper.cc, frequencies_branch_aggregator.cc) -/
namespace Verif.InferFT
open Verif Verif.Mapper

/-- `CanFallThrough` (llvm_propeller_binary_address_mapper.cc:263-300), on indices into the handles.
Indices out of range (undefined behaviour) give `false`. -/
def canFallThrough (m : Mapper) (i j : Nat) : Bool :=
  if i = j then true
  else
    match m.handles[i]?, m.handles[j]? with
    | some a, some b =>
      if a.fn ≠ b.fn then false
      else if b.bb < a.bb then false
      else (List.range' a.bb (b.bb - a.bb)).all fun n => ((m.bb? ⟨a.fn, n⟩).map (·.canFT)).getD false
    | _, _ => false

/-- `FindFallthroughEndBlock` (frequencies_branch_aggregator.cc:180-211). -/
def findEnd (m : Mapper) (i j : Nat) : Option Nat :=
  if j ≤ i ∨ m.handles.length ≤ j then none
  else if canFallThrough m i j then some j
  else if i + 1 < m.handles.length ∧ canFallThrough m i (i + 1) then some (i + 1)
  else none

/-- `SampledWeights` (frequencies_branch_aggregator.h). -/
structure Weights where
  actual : Option Nat := none
  incoming : Nat := 0
  outgoing : Nat := 0
  deriving DecidableEq, Inhabited

/-- Updates of an entry of the weights map. -/
inductive Step where
  | setActual (w : Nat)
  | addOut (w : Nat)
  | addIn (w : Nat)

def Step.apply (s : Step) (w : Weights) : Weights :=
  match s with
  | .setActual x => { w with actual := some x }
  | .addOut x => { w with outgoing := w.outgoing + x }
  | .addIn x => { w with incoming := w.incoming + x }

/-- `weights_map[i]` updated (default constructed when missing). -/
def applySteps (l : List (Nat × Step)) (m : OMap Nat Weights) : OMap Nat Weights :=
  l.foldl (fun m s => OMap.upsert s.1 (fun o => s.2.apply (o.getD {})) m) m

/-- Taken branches and counts. -/
abbrev Taken := List ((Nat × Nat) × Nat)
/-- Not-taken branches and counts. -/
abbrev NotTaken := List (Nat × Nat)

/-- `set_outgoing_weight` (frequencies_branch_aggregator.cc:124-142), for instruction size `isz`.
(`branch_address == end - isz` in 64 bits, written without subtraction.) -/
def setOut (m : Mapper) (isz : Nat) (a w : Nat) : List (Nat × Step) :=
  match find m a .from_ with
  | none => []
  | some i =>
    match m.handles[i]? with
    | none => []
    | some h => if a + isz = m.endAddr h then [(i, .setActual w)] else []

/-- `AccumulateActualOutgoingWeights` (frequencies_branch_aggregator.cc:112-154). -/
def actualSteps (m : Mapper) (isz : Option Nat) (tb : Taken) (nt : NotTaken) : List (Nat × Step) :=
  match isz with
  | none => []
  | some isz => (tb.flatMap fun b => setOut m isz b.1.1 0) ++ (nt.flatMap fun b => setOut m isz b.1 b.2)

/-- `AccumulateBranchWeights` (frequencies_branch_aggregator.cc:156-175). -/
def branchSteps (m : Mapper) (tb : Taken) : List (Nat × Step) :=
  tb.flatMap fun b =>
    ((find m b.1.1 .from_).toList.map fun i => (i, Step.addOut b.2)) ++
    ((find m b.1.2 .to_).toList.map fun i => (i, Step.addIn b.2))

/-- `ComputeBlockWeights` (frequencies_branch_aggregator.cc:99-110). -/
def computeWeights (m : Mapper) (isz : Option Nat) (tb : Taken) (nt : NotTaken) : OMap Nat Weights :=
  applySteps (actualSteps m isz tb nt ++ branchSteps m tb) []

/-- `InferFallthroughWeight` (frequencies_branch_aggregator.cc:177-188).  Only positive values are used by the
caller, so that truncated subtraction is enough. -/
def inferWeight (w : Weights) (inflow : Nat) : Nat := w.actual.getD (w.incoming + inflow - w.outgoing)

/-- `HandleFallthrough` (frequencies_branch_aggregator.cc:213-232): a record (from block, to block, weight). -/
def handle (m : Mapper) (i j w : Nat) : List ((Nat × Nat) × Nat) :=
  (findEnd m i j).toList.map fun e => ((i, e), w)

/-- Weight propagated to the current block (frequencies_branch_aggregator.cc:246-249). -/
def inflow (m : Mapper) (pending : Option (Nat × Nat)) (i : Nat) : Nat :=
  match pending with
  | some (p, f) => if canFallThrough m p i then f else 0
  | none => 0

/-- Resolution of an outstanding fallthrough (frequencies_branch_aggregator.cc:244-257, 267-273): `next` is the
current block, or `none` after the last one. -/
def flush (m : Mapper) (pending : Option (Nat × Nat)) (next : Option Nat) : List ((Nat × Nat) × Nat) :=
  match pending with
  | some (p, f) => handle m p (next.getD (p + 1)) f
  | none => []

/-- The loop of `InferFallthroughs` (frequencies_branch_aggregator.cc:242-274) with `fallthrough_from`. -/
def loop (m : Mapper) : List (Nat × Weights) → Option (Nat × Nat) → List ((Nat × Nat) × Nat)
  | [], pending => flush m pending none
  | (i, w) :: rest, pending =>
    flush m pending (some i) ++ loop m rest
      (if 0 < inferWeight w (inflow m pending i) then some (i, inferWeight w (inflow m pending i)) else none)

/-- The inferred fallthroughs between blocks. -/
def inferBlocks (m : Mapper) (isz : Option Nat) (tb : Taken) (nt : NotTaken) : List ((Nat × Nat) × Nat) :=
  loop m (computeWeights m isz tb nt) none

/-- Address of the block with handle index `i`. -/
def addrAt (m : Mapper) (i : Nat) : Nat := ((m.handles[i]?).map m.addr).getD 0

/-- `InferFallthroughs` (frequencies_branch_aggregator.cc:234-275): counts by the blocks' addresses. -/
def inferFallthroughs (m : Mapper) (isz : Option Nat) (tb : Taken) (nt : NotTaken) : OMap (Nat ×ₗ Nat) Nat :=
  OMap.addAll [] ((inferBlocks m isz tb nt).map fun e => (toLex (addrAt m e.1.1, addrAt m e.1.2), e.2))

/-! ### Specification -/

/-- Straight-line execution from block `i` to block `j`: all blocks from `i` to `j` are in one function, and
all but the last can fall through to the next. -/
def StraightLine (m : Mapper) (i j : Nat) : Prop :=
  i ≤ j ∧ j < m.handles.length ∧
  (∃ fn, ∀ n, i ≤ n → n ≤ j → ∃ h, m.handles[n]? = some h ∧ h.fn = fn) ∧
  (∀ n, i ≤ n → n < j → ∃ h b, m.handles[n]? = some h ∧ m.bb? h = some b ∧ b.canFT = true)

/-! ### Proofs -/

theorem flatMap_fn {fns : List Fn} (sel : List Nat) (f : Nat) (hf : f ∉ sel) :
    ∀ h ∈ (sel.flatMap fun f => (List.range ((fns[f]?).map (·.bbs.length) |>.getD 0)).map fun b => (⟨f, b⟩ : Handle)),
      h.fn ≠ f := by
  intro h hh
  obtain ⟨g, hg, hh⟩ := List.mem_flatMap.mp hh
  obtain ⟨b, _, rfl⟩ := List.mem_map.mp hh
  rintro rfl
  exact hf hg

/-- The handles of a function are consecutive and in order. -/
theorem fn_block {fns : List Fn} {sel : List Nat} {m : Mapper} (hn : sel.Nodup) (h : build fns sel = some m)
    (f : Nat) (hf : f ∈ sel) : ∃ base, ∀ i b, m.handles[i]? = some ⟨f, b⟩ ↔
      i = base + b ∧ b < ((fns[f]?).map (·.bbs.length) |>.getD 0) := by
  unfold build at h
  rw [Option.map_eq_some_iff] at h
  obtain ⟨hs, hh, rfl⟩ := h
  have he := buildHandles_eq sel none hs hh
  obtain ⟨pre, post, rfl⟩ := List.append_of_mem hf
  have hn1 : f ∉ pre := by
    have := (List.nodup_append.mp hn).2.2
    intro hp
    exact this f hp f (by simp) rfl
  have hn2 : f ∉ post := (List.nodup_cons.mp (List.nodup_append.mp hn).2.1).1
  simp only
  rw [List.flatMap_append, List.flatMap_cons] at he
  have p1 := flatMap_fn (fns := fns) pre f hn1
  have p2 := flatMap_fn (fns := fns) post f hn2
  generalize hP : (pre.flatMap fun f => (List.range ((fns[f]?).map (·.bbs.length) |>.getD 0)).map fun b => (⟨f, b⟩ : Handle)) = P at he p1
  generalize hQ : (post.flatMap fun f => (List.range ((fns[f]?).map (·.bbs.length) |>.getD 0)).map fun b => (⟨f, b⟩ : Handle)) = Q at he p2
  generalize hL : ((fns[f]?).map (·.bbs.length) |>.getD 0) = L at he ⊢
  refine ⟨P.length, ?_⟩
  intro i b
  rw [he]
  rcases Nat.lt_or_ge i P.length with h1 | h1
  · rw [List.getElem?_append_left h1]
    constructor
    · intro hh; exact absurd rfl (p1 _ (List.mem_of_getElem? hh))
    · rintro ⟨rfl, _⟩; omega
  · rw [List.getElem?_append_right h1]
    rcases Nat.lt_or_ge (i - P.length) L with h2 | h2
    · rw [List.getElem?_append_left (by simpa using h2)]
      simp only [List.getElem?_map, List.getElem?_range h2, Option.map_some, Option.some.injEq, Handle.mk.injEq,
        true_and]
      omega
    · rw [List.getElem?_append_right (by simpa using h2)]
      constructor
      · intro hh; exact absurd rfl (p2 _ (List.mem_of_getElem? hh))
      · rintro ⟨rfl, _⟩; omega

theorem handle_fn_mem {fns : List Fn} {sel : List Nat} {m : Mapper} (h : build fns sel = some m) {i : Nat} {k : Handle}
    (hk : m.handles[i]? = some k) : k.fn ∈ sel ∧ ∃ f, fns[k.fn]? = some f ∧ k.bb < f.bbs.length := by
  unfold build at h
  rw [Option.map_eq_some_iff] at h
  obtain ⟨hs, hh, rfl⟩ := h
  exact buildHandles_mem sel none hs hh k (List.mem_of_getElem? hk)

/-- **C26**: a fallthrough between two different blocks is accepted exactly when there is straight-line execution
from the one to the other. -/
theorem canFallThrough_iff (fns : List Fn) (sel : List Nat) (m : Mapper) (hn : sel.Nodup)
    (h : build fns sel = some m) (i j : Nat) (hij : i ≠ j) :
    canFallThrough m i j = true ↔ StraightLine m i j := by
  have hfns : m.fns = fns := by
    unfold build at h
    rw [Option.map_eq_some_iff] at h
    obtain ⟨hs, hh, rfl⟩ := h; rfl
  unfold canFallThrough
  rw [if_neg hij]
  constructor
  · intro hc
    split at hc
    · rename_i a b ha hb
      split at hc
      · cases hc
      · rename_i hfn
        split at hc
        · cases hc
        · rename_i hbb
          have hfn : a.fn = b.fn := by simpa using hfn
          obtain ⟨ma, f, hf, hal⟩ := handle_fn_mem h ha
          obtain ⟨base, hbase⟩ := fn_block hn h a.fn ma
          have e1 := (hbase i a.bb).mp ha
          have hb' : m.handles[j]? = some ⟨a.fn, b.bb⟩ := by rw [hfn]; exact hb
          have e2 := (hbase j b.bb).mp hb'
          have hj := (List.getElem?_eq_some_iff.mp hb).1
          refine ⟨by omega, hj, ⟨a.fn, ?_⟩, ?_⟩
          · intro n h1 h2
            exact ⟨⟨a.fn, n - base⟩, (hbase n (n - base)).mpr ⟨by omega, by omega⟩, rfl⟩
          · intro n h1 h2
            rw [List.all_eq_true] at hc
            have := hc (n - base) (by rw [List.mem_range'_1]; omega)
            cases hbbn : m.bb? ⟨a.fn, n - base⟩ with
            | none => rw [hbbn] at this; simp at this
            | some b' =>
              rw [hbbn] at this
              exact ⟨⟨a.fn, n - base⟩, b', (hbase n (n - base)).mpr ⟨by omega, by omega⟩, hbbn, by simpa using this⟩
    · cases hc
  · rintro ⟨h1, h2, ⟨fn, h3⟩, h4⟩
    obtain ⟨a, ha, hafn⟩ := h3 i (le_refl _) h1
    obtain ⟨b, hb, hbfn⟩ := h3 j h1 (le_refl _)
    obtain ⟨ma, f, hf, hal⟩ := handle_fn_mem h ha
    obtain ⟨base, hbase⟩ := fn_block hn h a.fn ma
    have e1 := (hbase i a.bb).mp ha
    have hb' : m.handles[j]? = some ⟨a.fn, b.bb⟩ := by rw [hafn, ← hbfn]; exact hb
    have e2 := (hbase j b.bb).mp hb'
    rw [ha, hb]
    simp only
    rw [if_neg (by rw [hafn, hbfn]; simp), if_neg (by omega), List.all_eq_true]
    intro n hmem
    rw [List.mem_range'_1] at hmem
    obtain ⟨k, b', hk, hbb, hft⟩ := h4 (base + n) (by omega) (by omega)
    have hk2 := (hbase (base + n) n).mpr ⟨rfl, by omega⟩
    rw [hk] at hk2
    cases hk2
    rw [hbb]; simpa using hft

/-- The end block of an inferred fallthrough. -/
theorem findEnd_spec (fns : List Fn) (sel : List Nat) (m : Mapper) (hn : sel.Nodup) (h : build fns sel = some m)
    {i j e : Nat} (he : findEnd m i j = some e) : i < e ∧ StraightLine m i e := by
  unfold findEnd at he
  split at he
  · cases he
  · split at he
    · rename_i h1 h2
      cases he
      exact ⟨by omega, (canFallThrough_iff fns sel m hn h i j (by omega)).mp h2⟩
    · split at he
      · rename_i h1 _ h2
        cases he
        exact ⟨by omega, (canFallThrough_iff fns sel m hn h i (i + 1) (by omega)).mp h2.2⟩
      · cases he

theorem mem_flush {m : Mapper} {prev : Option (Nat × Nat)} {n : Option Nat} {e : (Nat × Nat) × Nat} :
    e ∈ flush m prev n ↔ ∃ p f j, prev = some (p, f) ∧ findEnd m p (n.getD (p + 1)) = some j ∧ e = ((p, j), f) := by
  cases prev with
  | none => simp [flush]
  | some pf =>
    obtain ⟨p, f⟩ := pf
    simp only [flush, handle, List.mem_map, Option.mem_toList]
    constructor
    · rintro ⟨x, hx, rfl⟩; exact ⟨p, f, x, rfl, hx, rfl⟩
    · rintro ⟨p', f', j, h1, h2, h3⟩; cases h1; exact ⟨j, h2, h3.symm⟩

theorem loop_sound (m : Mapper) : ∀ ws pending, (∀ p f, pending = some (p, f) → 0 < f) →
    ∀ e ∈ loop m ws pending, 0 < e.2 ∧ ∃ j, findEnd m e.1.1 j = some e.1.2 := by
  intro ws
  induction ws with
  | nil =>
    intro pending hp e he
    obtain ⟨p, f, j, h1, h2, rfl⟩ := mem_flush.mp he
    exact ⟨hp p f h1, _, h2⟩
  | cons w ws ih =>
    intro pending hp e he
    obtain ⟨i, w⟩ := w
    rw [loop] at he
    rcases List.mem_append.mp he with he | he
    · obtain ⟨p, f, j, h1, h2, rfl⟩ := mem_flush.mp he
      exact ⟨hp p f h1, _, h2⟩
    · apply ih _ _ e he
      intro p f hpf
      split at hpf
      · cases hpf; assumption
      · cases hpf

/-- **C26**: every inferred fallthrough has a positive weight and follows straight-line execution forward. -/
theorem infer_sound (fns : List Fn) (sel : List Nat) (m : Mapper) (hn : sel.Nodup) (h : build fns sel = some m)
    (isz : Option Nat) (tb : Taken) (nt : NotTaken) (i j w : Nat) (he : ((i, j), w) ∈ inferBlocks m isz tb nt) :
    0 < w ∧ i < j ∧ StraightLine m i j := by
  obtain ⟨h1, x, hx⟩ := loop_sound m _ none (by simp) _ he
  exact ⟨h1, findEnd_spec fns sel m hn h hx⟩

/-- **C26**, on the returned map. -/
theorem infer_map_sound (fns : List Fn) (sel : List Nat) (m : Mapper) (hn : sel.Nodup) (h : build fns sel = some m)
    (isz : Option Nat) (tb : Taken) (nt : NotTaken) (fa ta w : Nat)
    (he : OMap.find? (inferFallthroughs m isz tb nt) (toLex (fa, ta)) = some w) :
    0 < w ∧ ∃ i j, addrAt m i = fa ∧ addrAt m j = ta ∧ i < j ∧ StraightLine m i j := by
  unfold inferFallthroughs at he
  rw [OMap.find?_addAll OMap.sorted_nil] at he
  split at he
  · rename_i hex
    have hex : ∃ e ∈ inferBlocks m isz tb nt, toLex (addrAt m e.1.1, addrAt m e.1.2) = toLex (fa, ta) := by
      rcases hex with hex | hex
      · simp only [List.map_map, List.mem_map] at hex
        obtain ⟨e, he, h2⟩ := hex
        exact ⟨e, he, h2⟩
      · cases hex
    obtain ⟨e, hmem, heq⟩ := hex
    have hfa := congrArg ofLex heq
    simp at hfa
    obtain ⟨h1, h2, h3⟩ := infer_sound fns sel m hn h isz tb nt e.1.1 e.1.2 e.2 hmem
    refine ⟨?_, e.1.1, e.1.2, hfa.1, hfa.2, h2, h3⟩
    injection he with he
    rw [← he]
    have : e.2 ≤ OMap.sumAt ((inferBlocks m isz tb nt).map fun e => (toLex (addrAt m e.1.1, addrAt m e.1.2), e.2))
        (toLex (fa, ta)) := by
      unfold OMap.sumAt
      apply List.single_le_sum (by simp)
      apply List.mem_map.mpr
      refine ⟨(toLex (addrAt m e.1.1, addrAt m e.1.2), e.2), ?_, rfl⟩
      rw [List.mem_filter]
      exact ⟨List.mem_map.mpr ⟨e, hmem, rfl⟩, by simpa using heq⟩
    omega
  · simp [OMap.find?] at he

/-- Fallthrough weights of the weighted blocks, by position. -/
def fts (m : Mapper) : List (Nat × Weights) → Option (Nat × Nat) → List Nat
  | [], _ => []
  | (i, w) :: rest, prev =>
    inferWeight w (inflow m prev i) :: fts m rest (some (i, inferWeight w (inflow m prev i)))

theorem fts_length (m : Mapper) : ∀ ws prev, (fts m ws prev).length = ws.length := by
  intro ws
  induction ws with
  | nil => intro _; rfl
  | cons w ws ih => intro prev; obtain ⟨i, w⟩ := w; simp [fts, ih]

/-- The pending fallthrough seen by the loop. -/
def pend (prev : Option (Nat × Nat)) : Option (Nat × Nat) := prev.filter fun p => decide (0 < p.2)

theorem pend_some {prev : Option (Nat × Nat)} {p f : Nat} : pend prev = some (p, f) ↔ prev = some (p, f) ∧ 0 < f := by
  cases prev with
  | none => simp [pend]
  | some q =>
    obtain ⟨p', f'⟩ := q
    by_cases h : 0 < f'
    · simp [pend, Option.filter_some, h]; rintro rfl rfl; exact h
    · simp [pend, Option.filter_some, h]; rintro rfl rfl; omega

theorem inflow_pend (m : Mapper) (prev : Option (Nat × Nat)) (i : Nat) : inflow m (pend prev) i = inflow m prev i := by
  cases prev with
  | none => rfl
  | some pf =>
    obtain ⟨p, f⟩ := pf
    by_cases hf : 0 < f
    · simp [pend, Option.filter_some, hf]
    · have : f = 0 := by omega
      subst this
      simp [pend, Option.filter_some, inflow]

theorem loop_eq (m : Mapper) : ∀ ws prev e, e ∈ loop m ws (pend prev) ↔
    ((∃ p f j, prev = some (p, f) ∧ 0 < f ∧ findEnd m p ((ws.head?.map (·.1)).getD (p + 1)) = some j ∧ e = ((p, j), f)) ∨
    ∃ k i w f j, ws[k]? = some (i, w) ∧ (fts m ws prev)[k]? = some f ∧ 0 < f ∧
      findEnd m i ((ws[k+1]?.map (·.1)).getD (i + 1)) = some j ∧ e = ((i, j), f)) := by
  intro ws
  induction ws with
  | nil =>
    intro prev e
    rw [loop, mem_flush]
    constructor
    · rintro ⟨p, f, j, h1, h2, h3⟩
      rw [pend_some] at h1
      exact Or.inl ⟨p, f, j, h1.1, h1.2, h2, h3⟩
    · rintro (⟨p, f, j, h1, h2, h3, h4⟩ | ⟨k, i, w, f', j, h1, _⟩)
      · exact ⟨p, f, j, pend_some.mpr ⟨h1, h2⟩, h3, h4⟩
      · simp at h1
  | cons w ws ih =>
    intro prev e
    obtain ⟨i, w⟩ := w
    have hrec : ∀ x, (if 0 < x then some (i, x) else none) = pend (some (i, x)) := by
      intro x; simp [pend, Option.filter_some]
    rw [loop, fts, inflow_pend, hrec, List.mem_append, ih, mem_flush]
    constructor
    · rintro (⟨p, f, j, h1, h2, h3⟩ | ⟨p, f, j, h1, h2, h3, h4⟩ | ⟨k, i', w', f, j, h1, h2, h3, h4⟩)
      · rw [pend_some] at h1
        exact Or.inl ⟨p, f, j, h1.1, h1.2, h2, h3⟩
      · cases h1
        refine Or.inr ⟨0, i, w, _, j, rfl, rfl, h2, ?_, h4⟩
        rw [List.head?_eq_getElem?] at h3
        simpa using h3
      · exact Or.inr ⟨k + 1, i', w', f, j, by simpa using h1, by simpa using h2, h3, by simpa using h4⟩
    · rintro (⟨p, f, j, h1, h2, h3, h4⟩ | ⟨k, i', w', f, j, h1, h2, h3, h4, h5⟩)
      · left
        exact ⟨p, f, j, pend_some.mpr ⟨h1, h2⟩, h3, h4⟩
      · right
        cases k with
        | zero =>
          simp at h1 h2
          obtain ⟨rfl, rfl⟩ := h1
          left
          refine ⟨i, f, j, by rw [h2], h3, ?_, h5⟩
          rw [List.head?_eq_getElem?]; simpa using h4
        | succ k => right; exact ⟨k, i', w', f, j, by simpa using h1, by simpa using h2, h3, by simpa using h4, h5⟩

/-- Weighted block `k - 1` and its fallthrough weight. -/
def prevOf (ws : List (Nat × Weights)) (ft : List Nat) (k : Nat) : Option (Nat × Nat) :=
  match k with
  | 0 => none
  | k + 1 => (ws[k]?).bind fun p => (ft[k]?).map fun f => (p.1, f)

theorem fts_eq (m : Mapper) : ∀ ws prev k i w, ws[k]? = some (i, w) → (fts m ws prev)[k]? = some (inferWeight w
    (inflow m (match k with | 0 => prev | k + 1 => prevOf ws (fts m ws prev) (k + 1)) i)) := by
  intro ws
  induction ws with
  | nil => intro prev k i w h; simp at h
  | cons w ws ih =>
    obtain ⟨i0, w0⟩ := w
    intro prev k i w h
    cases k with
    | zero =>
      simp at h
      obtain ⟨rfl, rfl⟩ := h
      simp [fts]
    | succ k =>
      simp only [List.getElem?_cons_succ] at h
      rw [fts]
      simp only [List.getElem?_cons_succ]
      rw [ih _ k i w h]
      cases k with
      | zero => simp [prevOf]
      | succ k => simp [prevOf]

/-- **C26**, the inferred weights: there are weights `ft k` of the sampled blocks `ws`, in order of address, such that
each is the known one, or else what comes in (by branches, and by fallthrough from the preceding sampled block if
straight-line execution leads from it to this block) minus what leaves by branches; and the inferred fallthroughs
are exactly those of positive weight, to the next sampled block, or if it cannot be reached to the next block. -/
theorem infer_exact (m : Mapper) (isz : Option Nat) (tb : Taken) (nt : NotTaken) (ws : List (Nat × Weights))
    (hws : ws = computeWeights m isz tb nt) :
    ∃ ft : List Nat, ft.length = ws.length ∧
      (∀ k i (w : Weights), ws[k]? = some (i, w) → ft[k]? = some (w.actual.getD (w.incoming + (match prevOf ws ft k with
        | some (p, f) => if canFallThrough m p i then f else 0
        | none => 0) - w.outgoing))) ∧
      (∀ e, e ∈ inferBlocks m isz tb nt ↔ ∃ k i w f j, ws[k]? = some (i, w) ∧ ft[k]? = some f ∧
        0 < f ∧ findEnd m i ((ws[k+1]?.map (·.1)).getD (i + 1)) = some j ∧ e = ((i, j), f)) := by
  subst hws
  refine ⟨fts m (computeWeights m isz tb nt) none, fts_length m _ _, ?_, ?_⟩
  · intro k i w h
    rw [fts_eq m _ none k i w h]
    cases k with
    | zero => rfl
    | succ k => rfl
  · intro e
    have := loop_eq m (computeWeights m isz tb nt) none e
    unfold inferBlocks
    rw [show (none : Option (Nat × Nat)) = pend none from rfl, this]
    simp [pend]

/-! ### Block weights -/

theorem applySteps_sorted : ∀ (l : List (Nat × Step)) (m : OMap Nat Weights), OMap.Sorted m → OMap.Sorted (applySteps l m) := by
  intro l
  induction l with
  | nil => intro m h; exact h
  | cons s l ih => intro m h; exact ih _ (OMap.Sorted.upsert h _ _)

theorem applySteps_find : ∀ (l : List (Nat × Step)) (m : OMap Nat Weights), OMap.Sorted m → ∀ i,
    OMap.find? (applySteps l m) i =
      if (l.filter fun s => s.1 = i) = [] then OMap.find? m i
      else some ((l.filter fun s => s.1 = i).foldl (fun w s => s.2.apply w) ((OMap.find? m i).getD {})) := by
  intro l
  induction l with
  | nil => intro m _ i; simp [applySteps]
  | cons s l ih =>
    intro m hm i
    show OMap.find? (applySteps l (OMap.upsert s.1 (fun o => s.2.apply (o.getD {})) m)) i = _
    rw [ih _ (OMap.Sorted.upsert hm _ _) i, OMap.find?_upsert hm]
    by_cases h : i = s.1
    · subst h
      simp only [if_true, List.filter_cons, decide_true, Option.getD_some]
      simp
      intro hnil
      have : (l.filter fun x => decide (x.1 = s.1)) = [] := by
        rw [List.filter_eq_nil_iff]; intro a ha; have := hnil a.1 a.2 ha; simpa using this
      rw [this]; rfl
    · have h' : ¬ s.1 = i := fun e => h e.symm
      rw [List.filter_cons_of_neg (by simpa using h')]
      simp [h]

/-- Sum of the counts of the taken branches that leave block `i` (that enter it, for `to_`). -/
def branchSum (m : Mapper) (tb : Taken) (d : Dir) (i : Nat) : Nat :=
  ((tb.filter fun b => find m (match d with | .from_ => b.1.1 | .to_ => b.1.2) d = some i).map (·.2)).sum

def inSum (l : List (Nat × Step)) : Nat := (l.map fun s => match s.2 with | .addIn c => c | _ => 0).sum
def outSum (l : List (Nat × Step)) : Nat := (l.map fun s => match s.2 with | .addOut c => c | _ => 0).sum
def lastActual : List (Nat × Step) → Option Nat → Option Nat
  | [], o => o
  | (_, .setActual c) :: l, _ => lastActual l (some c)
  | (_, .addIn _) :: l, o => lastActual l o
  | (_, .addOut _) :: l, o => lastActual l o

theorem fold_steps : ∀ (l : List (Nat × Step)) (w : Weights),
    l.foldl (fun w s => s.2.apply w) w = ⟨lastActual l w.actual, w.incoming + inSum l, w.outgoing + outSum l⟩ := by
  intro l
  induction l with
  | nil => intro w; simp [lastActual, inSum, outSum]
  | cons s l ih =>
    intro w
    obtain ⟨i, s⟩ := s
    rw [List.foldl_cons, ih]
    cases s <;> simp [Step.apply, lastActual, inSum, outSum, Nat.add_assoc]

theorem inSum_append (a b : List (Nat × Step)) : inSum (a ++ b) = inSum a + inSum b := by simp [inSum]
theorem outSum_append (a b : List (Nat × Step)) : outSum (a ++ b) = outSum a + outSum b := by simp [outSum]

theorem setOut_mem {m : Mapper} {isz a w : Nat} {s : Nat × Step} (h : s ∈ setOut m isz a w) :
    s.2 = .setActual w ∧ find m a .from_ = some s.1 ∧ ∃ k, m.handles[s.1]? = some k ∧ a + isz = m.endAddr k := by
  unfold setOut at h
  split at h
  · simp at h
  · split at h
    · simp at h
    · split at h
      · simp at h; subst h
        exact ⟨rfl, by assumption, _, by assumption, by assumption⟩
      · simp at h

theorem actual_only {m : Mapper} {isz : Option Nat} {tb : Taken} {nt : NotTaken} :
    ∀ s ∈ actualSteps m isz tb nt, ∃ w, s.2 = .setActual w := by
  intro s hs
  unfold actualSteps at hs
  split at hs
  · simp at hs
  · rcases List.mem_append.mp hs with hs | hs
    · obtain ⟨b, _, hb⟩ := List.mem_flatMap.mp hs
      exact ⟨_, (setOut_mem hb).1⟩
    · obtain ⟨b, _, hb⟩ := List.mem_flatMap.mp hs
      exact ⟨_, (setOut_mem hb).1⟩

theorem sums_actual {l : List (Nat × Step)} (h : ∀ s ∈ l, ∃ w, s.2 = .setActual w) : inSum l = 0 ∧ outSum l = 0 := by
  induction l with
  | nil => exact ⟨rfl, rfl⟩
  | cons s l ih =>
    obtain ⟨w, hw⟩ := h s (by simp)
    obtain ⟨h1, h2⟩ := ih (fun s hs => h s (by simp [hs]))
    simp only [inSum, outSum] at h1 h2
    simp [inSum, outSum, hw, h1, h2]

theorem lastActual_branch {l : List (Nat × Step)} (h : ∀ s ∈ l, ∀ w, s.2 ≠ .setActual w) (o : Option Nat) :
    lastActual l o = o := by
  induction l with
  | nil => rfl
  | cons s l ih =>
    obtain ⟨i, s⟩ := s
    have := h (i, s) (by simp)
    cases s with
    | setActual w => exact absurd rfl (this w)
    | addIn w => exact ih (fun s hs => h s (by simp [hs]))
    | addOut w => exact ih (fun s hs => h s (by simp [hs]))

theorem lastActual_append (a b : List (Nat × Step)) (o : Option Nat) :
    lastActual (a ++ b) o = lastActual b (lastActual a o) := by
  induction a generalizing o with
  | nil => rfl
  | cons s a ih =>
    obtain ⟨i, s⟩ := s
    cases s <;> exact ih _

/-- All records in `l` set the same weight `w`. -/
theorem lastActual_const {l : List (Nat × Step)} {w : Nat} (h : ∀ s ∈ l, s.2 = .setActual w) (o : Option Nat) :
    lastActual l o = if l = [] then o else some w := by
  induction l generalizing o with
  | nil => rfl
  | cons s l ih =>
    obtain ⟨i, s⟩ := s
    have hs := h (i, s) (by simp)
    simp only at hs; subst hs
    show lastActual l (some w) = _
    rw [ih (fun s hs => h s (by simp [hs]))]
    by_cases hl : l = [] <;> simp [hl]

theorem branch_sums (m : Mapper) (tb : Taken) (i : Nat) :
    inSum ((branchSteps m tb).filter fun s => s.1 = i) = branchSum m tb .to_ i ∧
    outSum ((branchSteps m tb).filter fun s => s.1 = i) = branchSum m tb .from_ i := by
  induction tb with
  | nil => exact ⟨rfl, rfl⟩
  | cons b tb ih =>
    have hcons : branchSteps m (b :: tb) = ((find m b.1.1 .from_).toList.map fun i => (i, Step.addOut b.2)) ++
        ((find m b.1.2 .to_).toList.map fun i => (i, Step.addIn b.2)) ++ branchSteps m tb := by
      simp [branchSteps]
    rw [hcons, List.filter_append, List.filter_append, inSum_append, inSum_append, outSum_append, outSum_append, ih.1, ih.2]
    unfold branchSum
    rw [List.filter_cons, List.filter_cons]
    constructor
    · cases h1 : find m b.1.1 .from_ <;> cases h2 : find m b.1.2 .to_ <;>
        simp only [Option.toList_none, Option.toList_some, List.map_nil, List.map_cons, List.filter_cons, List.filter_nil] <;>
        (repeat' split) <;> simp_all [inSum]
    · cases h1 : find m b.1.1 .from_ <;> cases h2 : find m b.1.2 .to_ <;>
        simp only [Option.toList_none, Option.toList_some, List.map_nil, List.map_cons, List.filter_cons, List.filter_nil] <;>
        (repeat' split) <;> simp_all [outSum]

/-- A record at address `a` is at the last instruction of block `i`. -/
def AtEnd (m : Mapper) (isz : Nat) (a i : Nat) : Prop :=
  find m a .from_ = some i ∧ ∃ h, m.handles[i]? = some h ∧ a + isz = m.endAddr h

theorem mem_setOut_iff {m : Mapper} {isz a w : Nat} {i : Nat} {s : Step} :
    (i, s) ∈ setOut m isz a w ↔ s = .setActual w ∧ AtEnd m isz a i := by
  constructor
  · intro h; exact setOut_mem h
  · rintro ⟨rfl, h1, k, h2, h3⟩
    unfold setOut
    rw [h1]; simp only; rw [h2]; simp only; rw [if_pos h3]; simp

/-- **C26**, sampled block weights: incoming and outgoing weights are the sums over the taken branches into and out
of the block. -/
theorem computeWeights_sums (m : Mapper) (isz : Option Nat) (tb : Taken) (nt : NotTaken) (i : Nat) (w : Weights)
    (h : OMap.find? (computeWeights m isz tb nt) i = some w) :
    w.incoming = branchSum m tb .to_ i ∧ w.outgoing = branchSum m tb .from_ i := by
  unfold computeWeights at h
  rw [applySteps_find _ _ OMap.sorted_nil] at h
  split at h
  · cases h
  · injection h with h
    rw [fold_steps, List.filter_append, inSum_append, outSum_append, (branch_sums m tb i).1, (branch_sums m tb i).2] at h
    obtain ⟨h1, h2⟩ := sums_actual (l := (actualSteps m isz tb nt).filter fun s => s.1 = i)
      (fun s hs => actual_only s (List.mem_filter.mp hs).1)
    rw [h1, h2] at h
    subst h
    simp [OMap.find?]

/-- **C26**, known fallthrough weights: with a known instruction size, the fallthrough weight of a sampled block
is known exactly when a sampled branch is its last instruction; it is then the not-taken count of that branch. -/
theorem computeWeights_actual (m : Mapper) (isz : Option Nat) (tb : Taken) (nt : NotTaken) (i : Nat) (w : Weights)
    (hnd : (nt.map (·.1)).Nodup) (h : OMap.find? (computeWeights m isz tb nt) i = some w) :
    (isz = none → w.actual = none) ∧
    ∀ s, isz = some s →
      (∀ a c, (a, c) ∈ nt → AtEnd m s a i → w.actual = some c) ∧
      ((∀ a c, (a, c) ∈ nt → ¬ AtEnd m s a i) → (∃ b ∈ tb, AtEnd m s b.1.1 i) → w.actual = some 0) ∧
      ((∀ a c, (a, c) ∈ nt → ¬ AtEnd m s a i) → (∀ b ∈ tb, ¬ AtEnd m s b.1.1 i) → w.actual = none) := by
  unfold computeWeights at h
  rw [applySteps_find _ _ OMap.sorted_nil] at h
  have hbr : ∀ o, lastActual ((branchSteps m tb).filter fun s => s.1 = i) o = o := by
    apply lastActual_branch
    intro s hs w
    obtain ⟨b, _, hb⟩ := List.mem_flatMap.mp (List.mem_filter.mp hs).1
    rcases List.mem_append.mp hb with hb | hb
    · obtain ⟨x, _, rfl⟩ := List.mem_map.mp hb; simp
    · obtain ⟨x, _, rfl⟩ := List.mem_map.mp hb; simp
  split at h
  · cases h
  · injection h with h
    rw [fold_steps, List.filter_append, lastActual_append, hbr] at h
    have hact : w.actual = lastActual ((actualSteps m isz tb nt).filter fun s => s.1 = i) none := by
      subst h; simp [OMap.find?]
    constructor
    · intro hi; subst hi; rw [hact]; rfl
    · intro s hs
      subst hs
      simp only [actualSteps] at hact
      rw [List.filter_append, lastActual_append] at hact
      have htk := lastActual_const (l := (tb.flatMap fun b => setOut m s b.1.1 0).filter fun s => s.1 = i) (w := 0)
        (by
          intro x hx
          obtain ⟨b, _, hb⟩ := List.mem_flatMap.mp (List.mem_filter.mp hx).1
          exact (setOut_mem hb).1) none
      rw [htk] at hact
      have htk_mem : ∀ x, x ∈ ((tb.flatMap fun b => setOut m s b.1.1 0).filter fun s => s.1 = i) ↔
          x = (i, Step.setActual 0) ∧ ∃ b ∈ tb, AtEnd m s b.1.1 i := by
        rintro ⟨j, st⟩
        simp only [List.mem_filter, List.mem_flatMap, mem_setOut_iff, decide_eq_true_eq, Prod.mk.injEq]
        constructor
        · rintro ⟨⟨b, hb, rfl, h2⟩, rfl⟩; exact ⟨⟨rfl, rfl⟩, b, hb, h2⟩
        · rintro ⟨⟨rfl, rfl⟩, b, hb, h2⟩; exact ⟨⟨b, hb, rfl, h2⟩, rfl⟩
      have hnt_mem : ∀ x, x ∈ ((nt.flatMap fun b => setOut m s b.1 b.2).filter fun s => s.1 = i) ↔
          ∃ b ∈ nt, x = (i, Step.setActual b.2) ∧ AtEnd m s b.1 i := by
        rintro ⟨j, st⟩
        simp only [List.mem_filter, List.mem_flatMap, mem_setOut_iff, decide_eq_true_eq, Prod.mk.injEq]
        constructor
        · rintro ⟨⟨b, hb, rfl, h2⟩, rfl⟩; exact ⟨b, hb, ⟨rfl, rfl⟩, h2⟩
        · rintro ⟨b, hb, ⟨rfl, rfl⟩, h2⟩; exact ⟨⟨b, hb, rfl, h2⟩, rfl⟩
      have uniq : ∀ a c a' c', (a, c) ∈ nt → (a', c') ∈ nt → AtEnd m s a i → AtEnd m s a' i → c = c' := by
        intro a c a' c' h1 h2 ⟨_, k, hk, e⟩ ⟨_, k', hk', e'⟩
        rw [hk] at hk'; cases hk'
        have haa : a = a' := by omega
        subst haa
        have := List.inj_on_of_nodup_map hnd h1 h2 rfl
        simpa using this
      refine ⟨?_, ?_, ?_⟩
      · intro a c hac hend
        rw [hact, lastActual_const (w := c)]
        · rw [if_neg]
          intro hnil
          have := (hnt_mem (i, Step.setActual c)).mpr ⟨(a, c), hac, rfl, hend⟩
          rw [hnil] at this; simp at this
        · intro x hx
          obtain ⟨b, hb, rfl, h2⟩ := (hnt_mem x).mp hx
          rw [uniq b.1 b.2 a c hb hac h2 hend]
      · intro hno ⟨b, hb, hend⟩
        have hnil : ((nt.flatMap fun b => setOut m s b.1 b.2).filter fun s => s.1 = i) = [] := by
          rw [List.eq_nil_iff_forall_not_mem]
          intro x hx
          obtain ⟨b, hb, _, h2⟩ := (hnt_mem x).mp hx
          exact hno b.1 b.2 hb h2
        rw [hact, hnil, if_neg]
        · rfl
        · intro hn
          have := (htk_mem (i, Step.setActual 0)).mpr ⟨rfl, b, hb, hend⟩
          rw [hn] at this; simp at this
      · intro hno hnot
        have hnil : ((nt.flatMap fun b => setOut m s b.1 b.2).filter fun s => s.1 = i) = [] := by
          rw [List.eq_nil_iff_forall_not_mem]
          intro x hx
          obtain ⟨b, hb, _, h2⟩ := (hnt_mem x).mp hx
          exact hno b.1 b.2 hb h2
        rw [hact, hnil, if_pos]
        · rfl
        · rw [List.eq_nil_iff_forall_not_mem]
          intro x hx
          obtain ⟨_, b, hb, h2⟩ := (htk_mem x).mp hx
          exact hnot b hb h2

/-- Concrete case: one function with blocks of 4 bytes; block 1 cannot fall through; 10 branches enter block 0 and
a not-taken branch (3 times) ends block 2. -/
def exM : Mapper := ⟨[⟨0x10, [⟨0, 4, true, false⟩, ⟨4, 4, false, false⟩, ⟨8, 4, true, false⟩, ⟨12, 4, true, false⟩]⟩],
  [⟨0, 0⟩, ⟨0, 1⟩, ⟨0, 2⟩, ⟨0, 3⟩]⟩

theorem infer_example : build exM.fns [0] = some exM ∧
    inferBlocks exM (some 4) [((0x100, 0x10), 10)] [(0x18, 3)] = [((0, 1), 10), ((2, 3), 3)] ∧
    canFallThrough exM 0 2 = false := by
  refine ⟨rfl, ?_, ?_⟩ <;> decide +kernel

end Verif.InferFT

import Verif.ChainBuildProps
import Mathlib.Data.Prod.Lex
import Mathlib.Order.Synonym

/-! # C50: the chain builder stops at a local optimum; both queues pick the same assembly -/
namespace Verif.Chain
open Verif

variable {sc : Edge → Int → Rat} {G : Prog} {o : Opts} {multi : Bool} {E : List Edge}

/-! ### The order of assemblies is total -/

/-- What `NodeChainAssemblyComparator` compares, most significant first. -/
def asmKey (a : Asm) : Rat ×ₗ (ℕᵒᵈ ×ₗ (ℕᵒᵈ ×ₗ (ℕ ×ₗ ℕ))) :=
  toLex (a.gain, toLex (OrderDual.toDual a.s, toLex (OrderDual.toDual a.u, toLex (a.ord.rank, a.ord.posKey))))

theorem asmLt_iff (a b : Asm) : asmLt a b = true ↔ asmKey a < asmKey b := by
  simp only [asmLt, asmKey, Prod.Lex.toLex_lt_toLex, Bool.or_eq_true, Bool.and_eq_true, decide_eq_true_eq,
    OrderDual.toDual_lt_toDual, OrderDual.toDual_inj, eq_comm (a := b.s), eq_comm (a := b.u)]

theorem asmKey_inj {a b : Asm} (h : asmKey a = asmKey b) : a = b := by
  obtain ⟨s, u, ord, g⟩ := a
  obtain ⟨s', u', ord', g'⟩ := b
  simp only [asmKey, EmbeddingLike.apply_eq_iff_eq, Prod.mk.injEq] at h
  obtain ⟨rfl, rfl, rfl, hr, hp⟩ := h
  have : ord = ord' := by
    cases ord <;> cases ord' <;> simp_all [Order.rank, Order.posKey, Order.pos]
  rw [this]

/-- `GetBestAssembly` of the iterative queue returns the greatest of the assemblies, whatever the order in which the hash map
yields them. -/
theorem best_spec (q : Queue) (a : Asm) : q.best = some a ↔ a ∈ q ∧ ∀ b ∈ q, asmKey b ≤ asmKey a := by
  have key : ∀ (l : Queue) (b : Asm), ∃ a, l.foldl pickMax (some b) = some a ∧ (a = b ∨ a ∈ l) ∧ asmKey b ≤ asmKey a ∧
      ∀ x ∈ l, asmKey x ≤ asmKey a := by
    intro l
    induction l with
    | nil => intro b; exact ⟨b, rfl, .inl rfl, le_refl _, by simp⟩
    | cons x t ih =>
      intro b
      rw [List.foldl_cons]
      by_cases h : asmLt b x = true
      · obtain ⟨a, e, h1, h2, h3⟩ := ih x
        refine ⟨a, by simp only [pickMax, h, if_true]; exact e, ?_, ((asmLt_iff _ _).1 h).le.trans h2, ?_⟩
        · rcases h1 with rfl | h1 <;> simp_all
        · intro y hy
          rcases List.mem_cons.1 hy with rfl | hy
          exacts [h2, h3 y hy]
      · obtain ⟨a, e, h1, h2, h3⟩ := ih b
        refine ⟨a, by simp only [pickMax, h]; exact e, ?_, h2, ?_⟩
        · rcases h1 with rfl | h1 <;> simp_all
        · intro y hy
          rcases List.mem_cons.1 hy with rfl | hy
          · exact (le_of_not_gt (fun hl => h ((asmLt_iff _ _).2 hl))).trans h2
          · exact h3 y hy
  have ex : q ≠ [] → ∃ a, q.best = some a ∧ a ∈ q ∧ ∀ b ∈ q, asmKey b ≤ asmKey a := by
    intro hq
    cases q with
    | nil => exact absurd rfl hq
    | cons x t =>
      obtain ⟨a, e, h1, h2, h3⟩ := key t x
      refine ⟨a, e, by rcases h1 with rfl | h1 <;> simp_all, ?_⟩
      intro y hy
      rcases List.mem_cons.1 hy with rfl | hy
      exacts [h2, h3 y hy]
  constructor
  · intro h
    obtain ⟨a', e, hm, hx⟩ := ex (by rintro rfl; cases h)
    rw [h] at e; cases e
    exact ⟨hm, hx⟩
  · rintro ⟨hm, hx⟩
    obtain ⟨a', e, hm', hx'⟩ := ex (List.ne_nil_of_mem hm)
    rw [e, asmKey_inj (le_antisymm (hx a' hm') (hx' a hm))]

/-- **The choice does not depend on the order in which a queue stores the assemblies.** -/
theorem best_perm {q q' : Queue} (h : ∀ a, a ∈ q ↔ a ∈ q') : q.best = q'.best := by
  cases hb : q.best with
  | none =>
    have := best_none hb
    subst this
    have : q' = [] := List.eq_nil_iff_forall_not_mem.2 fun a ha => by have := (h a).2 ha; cases this
    rw [this]; rfl
  | some a =>
    rw [best_spec] at hb
    exact ((best_spec q' a).2 ⟨(h a).1 hb.1, fun b hb' => hb.2 b ((h b).2 hb')⟩).symm

/-! ### The balanced-tree queue -/

/-- `NodeChainAssemblyBalancedTreeQueue`: `assemblies_`, in the order of the set, and `handles_`; a handle is represented by
the assembly that the iterator points to (llvm_propeller_node_chain_builder.h:54-101). -/
structure TreeQueue where
  items : List Asm := []
  handles : List ((Nat × Nat) × Asm) := []

/-- `std::set::erase(iterator)`. -/
def eraseItem (l : List Asm) (a : Asm) : List Asm := l.filter fun b => asmLt a b || asmLt b a
/-- `std::set::insert`: nothing happens if an equivalent element is there. -/
def insertItem (l : List Asm) (a : Asm) : List Asm :=
  if l.any fun b => !(asmLt a b || asmLt b a) then l
  else (l.filter fun b => asmLt b a) ++ a :: l.filter fun b => asmLt a b

def TreeQueue.handle (t : TreeQueue) (s u : Nat) : Option Asm := (t.handles.find? fun h => decide (h.1 = (s, u))).map (·.2)

/-- `RemoveAssembly` (llvm_propeller_node_chain_builder.h:65-70). -/
def TreeQueue.remove (t : TreeQueue) (s u : Nat) : TreeQueue :=
  match t.handle s u with
  | none => t
  | some a => ⟨eraseItem t.items a, t.handles.filter fun h => !decide (h.1 = (s, u))⟩

/-- `InsertAssembly` (llvm_propeller_node_chain_builder.h:72-79). -/
def TreeQueue.insert (t : TreeQueue) (a : Asm) : TreeQueue :=
  ⟨insertItem (match t.handle a.s a.u with | some b => eraseItem t.items b | none => t.items) a,
    (t.handles.filter fun h => !decide (h.1 = (a.s, a.u))) ++ [((a.s, a.u), a)]⟩

/-- `GetBestAssembly` (llvm_propeller_node_chain_builder.h:59-61); `none` if the queue is empty. -/
def TreeQueue.best (t : TreeQueue) : Option Asm := t.items.getLast?

/-- An operation on a queue. -/
inductive QOp
  | insert (a : Asm)
  | remove (s u : Nat)

def QOp.onList (q : Queue) : QOp → Queue
  | .insert a => q.insert a
  | .remove s u => q.remove s u
def QOp.onTree (t : TreeQueue) : QOp → TreeQueue
  | .insert a => t.insert a
  | .remove s u => t.remove s u

/-- The tree holds what the list holds, in order. -/
structure Agree (q : Queue) (t : TreeQueue) : Prop where
  items : ∀ a, a ∈ t.items ↔ a ∈ q
  sorted : t.items.Pairwise fun a b => asmKey a < asmKey b
  handles : ∀ s u a, t.handle s u = some a ↔ a ∈ q ∧ a.s = s ∧ a.u = u

theorem asm_equiv (a b : Asm) : (asmLt a b || asmLt b a) = true ↔ a ≠ b := by
  rw [Bool.or_eq_true, asmLt_iff, asmLt_iff]
  constructor
  · rintro (h | h) rfl <;> exact lt_irrefl _ h
  · intro h
    exact lt_or_gt_of_ne fun hk => h (asmKey_inj hk)

theorem mem_eraseItem {l : List Asm} {a b : Asm} : b ∈ eraseItem l a ↔ b ∈ l ∧ b ≠ a := by
  rw [eraseItem, List.mem_filter, asm_equiv, ne_comm]

theorem mem_insertItem {l : List Asm} {a b : Asm} : b ∈ insertItem l a ↔ b ∈ l ∨ b = a := by
  unfold insertItem
  split
  · rename_i h
    obtain ⟨c, hc, h⟩ := List.any_eq_true.1 h
    have : a = c := by
      by_contra hne
      rw [(asm_equiv a c).2 hne] at h; cases h
    subst this
    constructor
    · exact .inl
    · rintro (h | rfl); exacts [h, hc]
  · simp only [List.mem_append, List.mem_filter, List.mem_cons]
    constructor
    · rintro (h | h | h)
      exacts [.inl h.1, .inr h, .inl h.1]
    · rintro (h | h)
      · by_cases hab : a = b
        · exact .inr (.inl hab.symm)
        · rcases Bool.or_eq_true _ _ |>.mp ((asm_equiv a b).2 hab) with h' | h'
          · exact .inr (.inr ⟨h, h'⟩)
          · exact .inl ⟨h, h'⟩
      · exact .inr (.inl h)

theorem sorted_insertItem {l : List Asm} (h : l.Pairwise fun a b => asmKey a < asmKey b) (a : Asm) :
    (insertItem l a).Pairwise fun a b => asmKey a < asmKey b := by
  unfold insertItem
  split
  · exact h
  · rw [List.pairwise_append, List.pairwise_cons]
    refine ⟨h.filter _, ⟨fun b hb => (asmLt_iff _ _).1 (List.mem_filter.1 hb).2, h.filter _⟩, ?_⟩
    intro x hx y hy
    have hxa := (asmLt_iff _ _).1 (List.mem_filter.1 hx).2
    rcases List.mem_cons.1 hy with rfl | hy
    · exact hxa
    · exact hxa.trans ((asmLt_iff _ _).1 (List.mem_filter.1 hy).2)

theorem handle_filter (hs : List ((Nat × Nat) × Asm)) (p q : Nat × Nat) :
    ((hs.filter fun h => !decide (h.1 = p)).find? fun h => decide (h.1 = q)) =
      if q = p then none else hs.find? fun h => decide (h.1 = q) := by
  rw [List.find?_filter]
  by_cases h : q = p
  · subst h
    rw [if_pos rfl, List.find?_eq_none]
    intro x _; simp
  · rw [if_neg h]
    congr 1
    funext x
    by_cases hx : x.1 = q
    · simp [hx, h]
    · simp [hx]

theorem agree_step {q : Queue} {t : TreeQueue} (h : Agree q t) (op : QOp) : Agree (op.onList q) (op.onTree t) := by
  cases op with
  | remove s u =>
    simp only [QOp.onList, QOp.onTree, TreeQueue.remove]
    cases hh : t.handle s u with
    | none =>
      have hno : ∀ a ∈ q, ¬ (a.s = s ∧ a.u = u) := fun a ha hsu => by
        rw [(h.handles s u a).2 ⟨ha, hsu⟩] at hh; cases hh
      have hq : ∀ a, a ∈ q.remove s u ↔ a ∈ q := fun a => by
        rw [mem_remove]; exact ⟨fun h => h.1, fun h => ⟨h, hno a h⟩⟩
      exact ⟨fun a => by rw [h.items, hq], h.sorted, fun s' u' a => by rw [h.handles, hq]⟩
    | some b =>
      obtain ⟨hbq, hbs, hbu⟩ := (h.handles s u b).1 hh
      have huniq : ∀ a ∈ q, a.s = s → a.u = u → a = b := fun a ha h1 h2 => by
        have := (h.handles s u a).2 ⟨ha, h1, h2⟩
        rw [hh] at this; cases this; rfl
      refine ⟨fun a => ?_, h.sorted.filter _, fun s' u' a => ?_⟩
      · rw [mem_eraseItem, h.items, mem_remove]
        refine and_congr_right fun ha => not_congr ?_
        exact ⟨fun e => by subst e; exact ⟨hbs, hbu⟩, fun e => huniq a ha e.1 e.2⟩
      · rw [TreeQueue.handle, handle_filter, mem_remove]
        by_cases he : (s', u') = (s, u)
        · rw [if_pos he]
          cases he
          simp only [Option.map_none, reduceCtorEq, false_iff]
          tauto
        · rw [if_neg he]
          have := h.handles s' u' a
          rw [TreeQueue.handle] at this
          rw [this]
          constructor
          · rintro ⟨h1, h2, h3⟩
            exact ⟨⟨h1, fun hx => he (by rw [← h2, ← h3, hx.1, hx.2])⟩, h2, h3⟩
          · rintro ⟨⟨h1, _⟩, h2, h3⟩
            exact ⟨h1, h2, h3⟩
  | insert b =>
    simp only [QOp.onList, QOp.onTree, TreeQueue.insert, Queue.insert]
    refine ⟨fun a => ?_, sorted_insertItem ?_ _, fun s' u' a => ?_⟩
    · rw [mem_insertItem, List.mem_append, List.mem_singleton, mem_remove]
      refine or_congr_left ?_
      cases hh : t.handle b.s b.u with
      | none =>
        simp only
        rw [h.items]
        exact ⟨fun ha => ⟨ha, fun hx => by rw [(h.handles _ _ a).2 ⟨ha, hx⟩] at hh; cases hh⟩, fun h => h.1⟩
      | some c =>
        simp only
        obtain ⟨_, hcs, hcu⟩ := (h.handles _ _ c).1 hh
        rw [mem_eraseItem, h.items]
        refine and_congr_right fun ha => not_congr ⟨fun e => by subst e; exact ⟨hcs, hcu⟩, fun e => ?_⟩
        have := (h.handles _ _ a).2 ⟨ha, e⟩
        rw [hh] at this; cases this; rfl
    · cases t.handle b.s b.u with
      | none => exact h.sorted
      | some c => exact h.sorted.filter _
    · rw [TreeQueue.handle, List.find?_append, handle_filter, List.mem_append, List.mem_singleton, mem_remove]
      by_cases he : (s', u') = (b.s, b.u)
      · rw [if_pos he]
        cases he
        simp only [List.find?_cons, decide_true, Option.none_or, Option.map_some, Option.some.injEq]
        constructor
        · rintro rfl; exact ⟨.inr rfl, rfl, rfl⟩
        · rintro ⟨h1 | h1, h2⟩
          · exact absurd h2 h1.2
          · exact h1.symm
      · rw [if_neg he]
        have hne : ((b.s, b.u) = (s', u')) = False := eq_false fun h => he h.symm
        simp only [List.find?_cons, hne, decide_false, List.find?_nil, Option.or_none]
        have := h.handles s' u' a
        rw [TreeQueue.handle] at this
        rw [this]
        constructor
        · rintro ⟨h1, h2, h3⟩
          exact ⟨.inl ⟨h1, fun hx => he (by rw [← h2, ← h3, hx.1, hx.2])⟩, h2, h3⟩
        · rintro ⟨⟨h1, _⟩ | rfl, h2, h3⟩
          · exact ⟨h1, h2, h3⟩
          · exact absurd (by rw [h2, h3]) he

/-- **C50: after any sequence of insertions and removals, both queue implementations return the same assembly** (or are both
empty), so the layout does not depend on which one is used. -/
theorem queues_agree (ops : List QOp) : (ops.foldl QOp.onTree {}).best = (ops.foldl QOp.onList []).best := by
  have key : ∀ (ops : List QOp) q t, Agree q t → Agree (ops.foldl QOp.onList q) (ops.foldl QOp.onTree t) := by
    intro ops
    induction ops with
    | nil => intro q t h; exact h
    | cons op r ih => intro q t h; exact ih _ _ (agree_step h op)
  have h := key ops [] {} ⟨by simp, List.Pairwise.nil, by simp [TreeQueue.handle]⟩
  generalize ops.foldl QOp.onList [] = q at h
  generalize ops.foldl QOp.onTree {} = t at h
  cases hb : q.best with
  | none =>
    have := best_none hb
    subst this
    have : t.items = [] := List.eq_nil_iff_forall_not_mem.2 fun a ha => by have := (h.items a).1 ha; cases this
    rw [TreeQueue.best, this]; rfl
  | some a =>
    rw [best_spec] at hb
    rw [TreeQueue.best]
    obtain ⟨l, x, hl⟩ : ∃ l x, t.items = l ++ [x] := by
      have hne : t.items ≠ [] := List.ne_nil_of_mem ((h.items a).2 hb.1)
      exact ⟨_, _, (List.dropLast_append_getLast hne).symm⟩
    rw [hl, List.getLast?_concat]
    have hs := h.sorted
    rw [hl, List.pairwise_append] at hs
    have hxq : x ∈ q := (h.items x).1 (by rw [hl]; simp)
    have ha : a ∈ l ++ [x] := by rw [← hl]; exact (h.items a).2 hb.1
    rcases List.mem_append.1 ha with ha | ha
    · exact absurd (hb.2 x hxq) (not_le.2 (hs.2.2 a ha x (by simp)))
    · rw [List.mem_singleton] at ha; rw [ha]

/-! ### A local optimum -/

/-- Specification: what is gained by laying out `r` directly after `l`. -/
def concatGain (P : Nodes) (sc : Edge → Int → Rat) (E : List Edge) (l r : List Nat) : Rat :=
  totalScore P sc E (l ++ r) - totalScore P sc E l - totalScore P sc E r

/-- Without inter-function layout, no block may be put before an entry block. -/
def MayJoin (P : Nodes) (o : Opts) (l r : List Nat) : Prop :=
  o.inter = true ∨ isEntry P l.head? = true ∨ isEntry P r.head? = false

/-- The queue has an assembly for the pair of chains. -/
def Has (q : Queue) (c d : Nat) : Prop := ∃ a ∈ q, a.s = c ∧ a.u = d

/-- The queue has an assembly for each pair of chains that should be joined. -/
def Complete (sc : Edge → Int → Rat) (G : Prog) (o : Opts) (E : List Edge) (x : State × Queue) : Prop :=
  ∀ c ∈ x.1.chains, ∀ d ∈ x.1.chains, c ≠ d → MayJoin G.nodes o (nodesOf x.1 c) (nodesOf x.1 d) →
    0 < concatGain G.nodes sc E (nodesOf x.1 c) (nodesOf x.1 d) → Has x.2 c d

variable {st : State}

/-- A pair that should be joined is a candidate pair, and its best assembly exists. -/
theorem wants (h : Good G.nodes sc E st) (hm : Mapped G o multi st) {c d : Nat} (hc : c ∈ st.chains) (hd : d ∈ st.chains)
    (hne : c ≠ d) (hj : MayJoin G.nodes o (nodesOf st c) (nodesOf st d))
    (hg : 0 < concatGain G.nodes sc E (nodesOf st c) (nodesOf st d)) :
    ((outTo st c d).isSome = true ∨ (outTo st d c).isSome = true) ∧
    ∃ a, bestOf sc G o multi st c d = some (some a) ∧ a.s = c ∧ a.u = d := by
  have hord : OrdOk .SU st c := fun p hp => by cases hp
  obtain ⟨g, r, eg, er, h1, h2⟩ := buildAsm_ok (o := o) h hc hd hne hord true
  have hmb : nodesIn st.B (mergedBundles .SU st c d) = nodesOf st c ++ nodesOf st d := by
    simp [mergedBundles, slices, nodesIn_append, nodesOf]
  have hgg : g = concatGain G.nodes sc E (nodesOf st c) (nodesOf st d) := by
    obtain ⟨g0, hg0, hex⟩ := scoreGain_exact (sc := sc) h.wf h.edges h.sorted hc hd hne hord
    rw [eg] at hg0; cases hg0
    rw [concatGain, ← hmb, totalScore_merged h.wf hc hd hne hord, totalScore_chain h.wf hc, totalScore_chain h.wf hd, hex (.inr rfl)]
    ring
  have hsome : ∃ a, r = some a := by
    cases r with
    | some a => exact ⟨a, rfl⟩
    | none =>
      exfalso
      rcases h2 rfl with h | ⟨h, _⟩ | ⟨hi, hent, hf⟩
      · rw [hgg] at h; exact absurd hg (not_lt.2 h.le)
      · rw [hgg] at h; exact absurd hg (by rw [h]; exact lt_irrefl _)
      · rw [asmFirst_eq h.wf hc hd hord, hmb] at hf
        rw [firstNode_eq h.wf hc, firstNode_eq h.wf hd] at hent
        have hcn : (nodesOf st c ++ nodesOf st d).head? = (nodesOf st c).head? := by
          cases hn : nodesOf st c with
          | nil => exact absurd hn (nodesOf_ne h.wf hc)
          | cons x y => rfl
        rw [hcn] at hf
        rcases hj with hj | hj | hj
        · rw [hi] at hj; cases hj
        · rw [hf] at hj; cases hj
        · rw [hf, hj] at hent; simp at hent
  obtain ⟨a, rfl⟩ := hsome
  refine ⟨scoreGain_cand eg (by rw [hgg]; exact hg.ne'), ?_⟩
  obtain ⟨r', er', hr'⟩ := bestOf_ok h hm hc hd hne
  have : ∃ b, r' = some b := by
    obtain ⟨os, eo, _⟩ := splitOrders_ok h.wf hm (s := c) hd
    rw [bestOf, eo, Option.bind_some, List.foldlM_cons, er] at er'
    have key : ∀ (l : List Order) (b : Asm) r', l.foldlM (fun best ord => (buildAsm G.nodes sc o true st c d ord).map (pick best)) (some b) = some r' →
        ∃ b', r' = some b' := by
      intro l
      induction l with
      | nil => intro b r' h; cases h; exact ⟨b, rfl⟩
      | cons x t ih =>
        intro b r' h
        rw [List.foldlM_cons] at h
        obtain ⟨y, hy, h⟩ := Option.bind_eq_some_iff.1 h
        obtain ⟨z, hz, rfl⟩ := Option.map_eq_some_iff.1 hy
        have : ∃ b', pick (some b) z = some b' := by
          cases z with
          | none => exact ⟨b, rfl⟩
          | some z =>
            simp only [pick, pickMax]
            split <;> exact ⟨_, rfl⟩
        obtain ⟨b', hb'⟩ := this
        rw [hb'] at h
        exact ih b' r' h
    exact key os a r' er'
  obtain ⟨b, rfl⟩ := this
  exact ⟨b, er', (hr' b rfl).2⟩

theorem updateAsm_has {q q' : Queue} {s u : Nat} (h : updateAsm sc G o multi st q s u = some q') :
    (∀ c d, Has q c d → ¬(c = s ∧ d = u) → Has q' c d) ∧
    ((∃ a, bestOf sc G o multi st s u = some (some a) ∧ a.s = s ∧ a.u = u) → Has q' s u) := by
  obtain ⟨b, hb, rfl⟩ := Option.map_eq_some_iff.1 h
  constructor
  · rintro c d ⟨a, ha, rfl, rfl⟩ hne
    cases b with
    | none => exact ⟨a, mem_remove.2 ⟨ha, hne⟩, rfl, rfl⟩
    | some b =>
      by_cases hab : a.s = b.s ∧ a.u = b.u
      · exact ⟨b, by simp [Queue.insert], hab.1.symm, hab.2.symm⟩
      · exact ⟨a, by simp only [Queue.insert, List.mem_append]; exact .inl (mem_remove.2 ⟨ha, hab⟩), rfl, rfl⟩
  · rintro ⟨a, ha, h1, h2⟩
    rw [hb] at ha; cases ha
    exact ⟨a, by simp [Queue.insert], h1, h2⟩

/-- The best assembly of the pair exists. -/
def Wanted (sc : Edge → Int → Rat) (G : Prog) (o : Opts) (multi : Bool) (st : State) (c d : Nat) : Prop :=
  ∃ a, bestOf sc G o multi st c d = some (some a) ∧ a.s = c ∧ a.u = d

theorem updateAsm_has' {q q' : Queue} {s u : Nat} (h : updateAsm sc G o multi st q s u = some q') {c d : Nat}
    (hw : Wanted sc G o multi st c d) (hh : Has q c d ∨ (c = s ∧ d = u)) : Has q' c d := by
  obtain ⟨h1, h2⟩ := updateAsm_has h
  by_cases he : c = s ∧ d = u
  · obtain ⟨rfl, rfl⟩ := he; exact h2 hw
  · exact h1 c d (hh.resolve_right he) he

theorem updateAll_has {s : Nat} : ∀ (ds : List Nat) {q q' : Queue},
    ds.foldlM (fun q d => (updateAsm sc G o multi st q s d).bind fun q => updateAsm sc G o multi st q d s) q = some q' →
    (∀ c d, c ≠ s → d ≠ s → Has q c d → Has q' c d) ∧
    (∀ c d, Wanted sc G o multi st c d → (Has q c d ∨ (c = s ∧ d ∈ ds) ∨ (d = s ∧ c ∈ ds)) → Has q' c d) := by
  intro ds
  induction ds with
  | nil => intro q q' h; cases h; exact ⟨fun _ _ _ _ h => h, fun c d _ h => by simpa using h⟩
  | cons x t ih =>
    intro q q' h
    rw [List.foldlM_cons] at h
    obtain ⟨q2, h2, h3⟩ := Option.bind_eq_some_iff.1 h
    obtain ⟨q1, h1, h2⟩ := Option.bind_eq_some_iff.1 h2
    obtain ⟨k1, k2⟩ := ih h3
    constructor
    · intro c d hc hd hq
      refine k1 c d hc hd ((updateAsm_has h2).1 c d ((updateAsm_has h1).1 c d hq ?_) ?_)
      · rintro ⟨h, _⟩; exact hc h
      · rintro ⟨_, h⟩; exact hd h
    · intro c d hw hq
      refine k2 c d hw ?_
      have a1 : Has q c d → Has q2 c d := fun h => updateAsm_has' h2 hw (.inl (updateAsm_has' h1 hw (.inl h)))
      rcases hq with hq | ⟨rfl, hd⟩ | ⟨rfl, hc⟩
      · exact .inl (a1 hq)
      · rcases List.mem_cons.1 hd with rfl | hd
        · exact .inl (updateAsm_has' h2 hw (.inl (updateAsm_has' h1 hw (.inr ⟨rfl, rfl⟩))))
        · exact .inr (.inl ⟨rfl, hd⟩)
      · rcases List.mem_cons.1 hc with rfl | hc
        · exact .inl (updateAsm_has' h2 hw (.inr ⟨rfl, rfl⟩))
        · exact .inr (.inr ⟨rfl, hc⟩)

/-- One merge keeps the queue complete. -/
theorem complete_step {x x' : State × Queue} (h : Inv sc G o multi E x) (hc : Complete sc G o E x) {a : Asm}
    (ha : CanMerge G.nodes sc E o x.1 a) (he : mergeAsm sc G o multi x a = some x') : Complete sc G o E x' := by
  obtain ⟨y, e, hi', hch, _, hno, _⟩ := mergeAsm_ok h ha
  rw [he] at e; cases e
  rw [mergeAsm, if_neg (not_lt.2 ha.nonneg)] at he
  obtain ⟨st', _, he⟩ := Option.bind_eq_some_iff.1 he
  obtain ⟨q', hq, rfl⟩ := Option.map_eq_some_iff.1 he
  obtain ⟨k1, k2⟩ := updateAll_has _ hq
  simp only at hi' hch hno hq k1 k2 ⊢
  have hg' : Good G.nodes sc E st' := hi'.good
  intro c hcc d hd hne hj hg
  have hl : ∀ z ∈ st'.chains, z ≠ a.u ∧ z ∈ x.1.chains := fun z hz => by
    rw [hch, h.good.wf.live.mem_erase_iff] at hz; exact hz
  obtain ⟨hcand, hw⟩ := wants hg' hi'.mapped hcc hd hne hj hg
  by_cases hcs : c = a.s
  · refine k2 c d hw (.inr (.inl ⟨hcs, ?_⟩))
    rw [mem_cands hg'.edges.maps (hcs ▸ hcc)]
    exact ⟨hd, hcs ▸ hne, hcs ▸ hcand⟩
  · by_cases hds : d = a.s
    · refine k2 c d hw (.inr (.inr ⟨hds, ?_⟩))
      rw [mem_cands hg'.edges.maps (hds ▸ hd)]
      exact ⟨hcc, hds ▸ hne.symm, hds ▸ hcand.symm⟩
    · refine k1 c d hcs hds ?_
      obtain ⟨c1, c2⟩ := hl c hcc
      obtain ⟨d1, d2⟩ := hl d hd
      rw [hno c c2 hcs c1, hno d d2 hds d1] at hj hg
      obtain ⟨b, hb, hb1, hb2⟩ := hc c c2 d d2 hne hj hg
      refine ⟨b, (foldRemove _ _ _ _).2 ⟨hb, fun z _ => ⟨fun h => c1 (by rw [← hb1, h.1]), fun h => d1 (by rw [← hb2, h.2])⟩⟩, hb1, hb2⟩

theorem buildLoop_complete : ∀ (fuel : Nat) {x x' : State × Queue}, Inv sc G o multi E x → Complete sc G o E x →
    buildLoop sc G o multi fuel x = some x' → Complete sc G o E x' ∧ x'.2 = [] := by
  intro fuel
  induction fuel with
  | zero =>
    intro x x' _ hc he
    rw [buildLoop] at he
    cases hb : x.2.best with
    | none => rw [hb] at he; cases he; exact ⟨hc, best_none hb⟩
    | some a => rw [hb] at he; cases he
  | succ k ih =>
    intro x x' h hc he
    rw [buildLoop] at he
    cases hb : x.2.best with
    | none => rw [hb] at he; cases he; exact ⟨hc, best_none hb⟩
    | some a =>
      rw [hb] at he
      simp only at he
      obtain ⟨x1, h1, h2⟩ := Option.bind_eq_some_iff.1 he
      have ha := (h.queue a (best_ok hb)).toCanMerge
      obtain ⟨y, ey, py, _⟩ := progress_step h ha
      rw [h1] at ey; cases ey
      exact ih py.inv (complete_step h hc ha h1) h2

theorem initAsms_complete (h : Good G.nodes sc E st) (hm : Mapped G o multi st) {q : Queue} (hq : initAsms sc G o multi st = some q) :
    Complete sc G o E (st, q) := by
  intro c hc d hd hne hj hg
  obtain ⟨hcand, hw⟩ := wants h hm hc hd hne hj hg
  have key : ∀ (ps : List (Nat × Nat)) (q q' : Queue), ps.foldlM (fun q p => updateAsm sc G o multi st q p.1 p.2) q = some q' →
      (Has q c d ∨ (c, d) ∈ ps) → Has q' c d := by
    intro ps
    induction ps with
    | nil => intro q q' h hh; cases h; simpa using hh
    | cons p t ih =>
      intro q q' h hh
      rw [List.foldlM_cons] at h
      obtain ⟨q1, h1, h2⟩ := Option.bind_eq_some_iff.1 h
      refine ih q1 q' h2 ?_
      rcases hh with hh | hh
      · exact .inl (updateAsm_has' h1 hw (.inl hh))
      · rcases List.mem_cons.1 hh with rfl | hh
        · exact .inl (updateAsm_has' h1 hw (.inr ⟨rfl, rfl⟩))
        · exact .inr hh
  refine key _ [] q hq (.inr ?_)
  rw [List.mem_flatMap]
  exact ⟨c, hc, List.mem_map.2 ⟨d, (mem_cands h.edges.maps hc d).2 ⟨hd, hne, hcand⟩, rfl⟩⟩

/-- **C50: when the builder returns the chains of several functions, laying out one of them directly after another gains
nothing** (unless it would move a block before an entry block while inter-function layout is off). -/
theorem no_better_concatenation (k : Weights) {cs : List Cfg} (hf : Fits G cs) (hcl : Enclosed G o cs) (hin : ∀ c ∈ cs, c.initial = [])
    (hhot : ∀ c ∈ cs, o.reorderHot = false → cfgHot G c = true → c.nodes.filter (isHot G o c) ≠ []) (hl : cs.length ≠ 1) :
    ∃ st, buildChains (getEdgeScore k G.size) G o cs = some st ∧
      ∀ (i j : Nat) (l r : List Nat), (rowsOf st)[i]? = some l → (rowsOf st)[j]? = some r → i ≠ j → MayJoin G.nodes o l r →
        totalScore G.nodes (getEdgeScore k G.size) (visitedIn G o cs) (l ++ r) ≤
        totalScore G.nodes (getEdgeScore k G.size) (visitedIn G o cs) l + totalScore G.nodes (getEdgeScore k G.size) (visitedIn G o cs) r := by
  have hsub := sub_ok (getEdgeScore_nonneg k G.size) hf hcl hin hhot
  obtain ⟨st0, st1, e0, e1, hcore, _, hgood, hperm⟩ := init_good (sc := getEdgeScore k G.size) hf
    (fun e he hv hs => (hcl.visit he hv).1 hs) _ hsub hin hhot
  have hmap := mapped_of hf hcl hperm
  obtain ⟨q, eq, hinv⟩ := initAsms_ok hgood hmap
  obtain ⟨x, ex, _, px⟩ := buildLoop_ok _ _ hinv (le_refl _)
  have hb : buildChains (getEdgeScore k G.size) G o cs = some x.1 := by
    unfold buildChains
    rw [build, e0, Option.bind_some, e1, Option.bind_some, eq, Option.bind_some, ex, Option.bind_some, if_neg hl, Option.map_some]
  obtain ⟨hc, hq⟩ := buildLoop_complete _ hinv (initAsms_complete hgood hmap eq) ex
  refine ⟨x.1, hb, fun i j l r hi hj hij hm => ?_⟩
  simp only [rowsOf, List.getElem?_map, Option.map_eq_some_iff] at hi hj
  obtain ⟨c, hci, rfl⟩ := hi
  obtain ⟨d, hdj, rfl⟩ := hj
  have hne : c ≠ d := by
    rintro rfl
    have hnd := px.inv.good.wf.live
    obtain ⟨h1, h1'⟩ := List.getElem?_eq_some_iff.1 hci
    obtain ⟨h2, h2'⟩ := List.getElem?_eq_some_iff.1 hdj
    exact hij ((hnd.getElem_inj_iff).1 (h1'.trans h2'.symm))
  by_contra hgt
  have := hc c (List.mem_of_getElem? hci) d (List.mem_of_getElem? hdj) hne hm (by rw [concatGain]; linarith)
  rw [hq] at this
  obtain ⟨a, ha, _⟩ := this
  cases ha

/-! ### Examples -/

example : ([QOp.insert ⟨1, 2, .SU, 3⟩, .insert ⟨2, 1, .SU, 3⟩, .insert ⟨1, 3, .S1US2 1, 5⟩, .insert ⟨1, 3, .SU, 1⟩].foldl
    QOp.onTree {}).best.map (fun a => (a.s, a.u)) = some (1, 2) := by decide +kernel
example : ([QOp.insert ⟨1, 2, .SU, 3⟩, .insert ⟨2, 1, .SU, 3⟩, .insert ⟨1, 3, .S1US2 1, 5⟩, .remove 1 2].foldl
    QOp.onList []).best.map (fun a => (a.s, a.u)) = some (1, 3) := by decide +kernel

/-- Two functions, without inter-function layout: two chains remain. -/
example : (buildChains (getEdgeScore {} exTwo.size) exTwo {} exTwoCfgs).map rowsOf = some [[0, 2, 1], [3, 4]] := by decide +kernel

end Verif.Chain

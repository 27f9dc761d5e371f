import Verif.OMap
import Verif.Bytes
import Mathlib.Tactic.Linarith

/-! # C25: basic blocks by address (llvm_propeller_binary_address_mapper.cc) -/
namespace Verif.Mapper
open Verif

/-- `BBAddrMap::BBEntry`: offset in the function, size, and the flags used here. -/
structure BB where
  offset : Nat
  size : Nat
  canFT : Bool := true
  hasRet : Bool := false
  deriving DecidableEq

/-- `BBAddrMap` of one function. -/
structure Fn where
  addr : Nat
  bbs : List BB
  deriving DecidableEq

/-- `BbHandle` (bb_handle.h:11-13). -/
structure Handle where
  fn : Nat
  bb : Nat
  deriving DecidableEq

/-- `BinaryAddressMapper`: `bb_addr_map_` and `bb_handles_`. -/
structure Mapper where
  fns : List Fn
  handles : List Handle

/-- Which end of a branch is looked up. -/
inductive Dir where
  | from_
  | to_
  deriving DecidableEq

variable (m : Mapper)

/-- `GetBBEntry` (llvm_propeller_binary_address_mapper.h:177-180). -/
def Mapper.bb? (h : Handle) : Option BB := (m.fns[h.fn]?).bind fun f => f.bbs[h.bb]?

/-- `GetAddress` (llvm_propeller_binary_address_mapper.h:182-185). -/
def Mapper.addr (h : Handle) : Nat :=
  ((m.fns[h.fn]?).map (·.addr)).getD 0 + ((m.bb? h).map (·.offset)).getD 0

/-- `GetBBEntry(h).Size`. -/
def Mapper.size (h : Handle) : Nat := ((m.bb? h).map (·.size)).getD 0

/-- `GetEndAddress` (llvm_propeller_binary_address_mapper.h:187-189). -/
def Mapper.endAddr (h : Handle) : Nat := m.addr h + m.size h

/-- The `while` of `kTo` (llvm_propeller_binary_address_mapper.cc:246-252), at handle index `i`. -/
def firstAt (a fn : Nat) : Nat → Nat
  | 0 => 0
  | i + 1 =>
    match m.handles[i]? with
    | some h => if m.addr h = a ∧ h.fn = fn then firstAt a fn i else i + 1
    | none => i + 1

/-- `FindBbHandleIndexUsingBinaryAddress` (llvm_propeller_binary_address_mapper.cc:224-261); `upper_bound` is
the partition point of the ordered handles.  `DCHECK`s are not modelled (release build). -/
def find (a : Nat) (d : Dir) : Option Nat :=
  let ub := (m.handles.takeWhile fun h => decide (m.addr h ≤ a)).length
  match ub with
  | 0 => none
  | i + 1 =>
    match m.handles[i]? with
    | none => none
    | some h =>
      if m.addr h < a then (if m.addr h + m.size h ≤ a then none else some i)
      else
        match d with
        | .to_ => some (firstAt m a h.fn i)
        | .from_ => some i

/-- The handles of the selected functions (llvm_propeller_binary_address_mapper.cc:466-485); `none`: the
`CHECK_GT` on function addresses fails. -/
def buildHandles (fns : List Fn) : Option Nat → List Nat → Option (List Handle)
  | _, [] => some []
  | last, f :: sel =>
    match fns[f]? with
    | none => none
    | some fn =>
      if last.any (fun l => decide (fn.addr ≤ l)) then none
      else (buildHandles fns (some fn.addr) sel).map
        ((List.range fn.bbs.length).map (fun b => ⟨f, b⟩) ++ ·)

/-- `Build` (llvm_propeller_binary_address_mapper.cc:463-489) for the selected functions in order. -/
def build (fns : List Fn) (sel : List Nat) : Option Mapper :=
  (buildHandles fns none sel).map fun hs => ⟨fns, hs⟩

/-! ### Specification -/

/-- Blocks of one function in order and without overlap. -/
def FnOk (f : Fn) : Prop := f.bbs.Pairwise fun a b => a.offset + a.size ≤ b.offset

/-- All code of `f` is before `g`. -/
def Before (f g : Fn) : Prop := f.addr ≤ g.addr ∧ ∀ b ∈ f.bbs, f.addr + b.offset + b.size ≤ g.addr

/-- Selected functions are sorted, and do not overlap. -/
def Layout (fns : List Fn) (sel : List Nat) : Prop :=
  (∀ i ∈ sel, ∃ f, fns[i]? = some f ∧ FnOk f) ∧
  sel.Pairwise fun i j => ∀ f g, fns[i]? = some f → fns[j]? = some g → Before f g

/-- Handles in address order without overlap. -/
def Ordered : Prop := m.handles.Pairwise fun h k => m.endAddr h ≤ m.addr k

/-- Block `h` covers `a`: `a` is one of its bytes, or its (only) address when it is empty. -/
def Covers (h : Handle) (a : Nat) : Prop := m.addr h = a ∨ (m.addr h ≤ a ∧ a < m.endAddr h)

/-! ### Proofs -/

theorem takeWhile_spec {α : Type} (p : α → Bool) (l : List α) :
    (∀ i (_ : i < (l.takeWhile p).length), ∃ x, l[i]? = some x ∧ p x = true) ∧
    (∀ x, l[(l.takeWhile p).length]? = some x → p x = false) := by
  induction l with
  | nil => simp
  | cons a l ih =>
    by_cases h : p a
    · simp only [List.takeWhile_cons, h, if_true, List.length_cons]
      constructor
      · intro i hi
        cases i with
        | zero => exact ⟨a, rfl, h⟩
        | succ i => exact ih.1 i (by omega)
      · intro x hx; exact ih.2 x (by simpa using hx)
    · simp only [List.takeWhile_cons, h]
      simp at h
      constructor
      · intro i hi; simp at hi
      · intro x hx; simp at hx; subst hx; exact h

theorem ordered_getElem {hs : Ordered m} {i j : Nat} {h k : Handle} (hi : m.handles[i]? = some h)
    (hj : m.handles[j]? = some k) (hij : i < j) : m.endAddr h ≤ m.addr k := by
  obtain ⟨hi1, hi2⟩ := List.getElem?_eq_some_iff.mp hi
  obtain ⟨hj1, hj2⟩ := List.getElem?_eq_some_iff.mp hj
  have := List.pairwise_iff_getElem.mp hs i j hi1 hj1 hij
  rwa [hi2, hj2] at this

/-- The handle before the partition point is the last one starting at or before `a`. -/
theorem ub_spec (hs : Ordered m) (a : Nat) {i : Nat} {h : Handle}
    (hub : (m.handles.takeWhile fun h => decide (m.addr h ≤ a)).length = i + 1) (hi : m.handles[i]? = some h) :
    m.addr h ≤ a ∧ ∀ j k, m.handles[j]? = some k → i < j → a < m.addr k := by
  have sp := takeWhile_spec (fun h => decide (m.addr h ≤ a)) m.handles
  rw [hub] at sp
  obtain ⟨x, hx, hp⟩ := sp.1 i (by omega)
  rw [hi] at hx; cases hx
  refine ⟨by simpa using hp, ?_⟩
  intro j k hj hij
  obtain ⟨hj1, hj2⟩ := List.getElem?_eq_some_iff.mp hj
  have h1 : i + 1 < m.handles.length := by omega
  have h2 := sp.2 m.handles[i+1] (List.getElem?_eq_getElem h1)
  simp at h2
  rcases Nat.lt_or_ge (i + 1) j with hlt | hge
  · have := ordered_getElem m (hs := hs) (List.getElem?_eq_getElem h1) hj hlt
    unfold Mapper.endAddr at this
    omega
  · have : j = i + 1 := by omega
    subst this
    rw [hj2] at h2; exact h2

theorem firstAt_spec (a fn : Nat) : ∀ i h, m.handles[i]? = some h → m.addr h = a → h.fn = fn →
    firstAt m a fn i ≤ i ∧ (∃ k, m.handles[firstAt m a fn i]? = some k ∧ m.addr k = a ∧ k.fn = fn) ∧
    (∀ j k, firstAt m a fn i ≤ j → j ≤ i → m.handles[j]? = some k → m.addr k = a ∧ k.fn = fn) ∧
    (∀ j k, firstAt m a fn i = j + 1 → m.handles[j]? = some k → ¬ (m.addr k = a ∧ k.fn = fn)) := by
  intro i
  induction i with
  | zero =>
    intro h hi ha hf
    refine ⟨le_refl _, ⟨h, hi, ha, hf⟩, ?_, ?_⟩
    · intro j k _ hj hk
      have : j = 0 := by omega
      subst this; rw [hi] at hk; cases hk; exact ⟨ha, hf⟩
    · intro j k hh; simp [firstAt] at hh
  | succ i ih =>
    intro h hi ha hf
    have hlen := (List.getElem?_eq_some_iff.mp hi).1
    have hget : m.handles[i]? = some m.handles[i] := List.getElem?_eq_getElem (by omega)
    rw [firstAt, hget]
    simp only
    by_cases hc : m.addr m.handles[i] = a ∧ m.handles[i].fn = fn
    · rw [if_pos hc]
      obtain ⟨h1, h2, h3, h4⟩ := ih _ hget hc.1 hc.2
      refine ⟨by omega, h2, ?_, h4⟩
      intro j k hj1 hj2 hk
      rcases Nat.lt_or_ge j (i + 1) with hlt | hge
      · exact h3 j k hj1 (by omega) hk
      · have : j = i + 1 := by omega
        subst this; rw [hi] at hk; cases hk; exact ⟨ha, hf⟩
    · rw [if_neg hc]
      refine ⟨le_refl _, ⟨h, hi, ha, hf⟩, ?_, ?_⟩
      · intro j k hj1 hj2 hk
        have : j = i + 1 := by omega
        subst this; rw [hi] at hk; cases hk; exact ⟨ha, hf⟩
      · intro j k hj hk
        have : j = i := by omega
        subst this; rw [hget] at hk; cases hk; exact hc

/-- **C25**: what is found covers the address. -/
theorem find_covers (a : Nat) (d : Dir) (i : Nat) (hs : Ordered m) (h : find m a d = some i) :
    ∃ k, m.handles[i]? = some k ∧ Covers m k a := by
  unfold find at h
  simp only at h
  split at h
  · cases h
  · rename_i n hub
    split at h
    · cases h
    · rename_i k hk
      obtain ⟨h1, h2⟩ := ub_spec m hs a hub hk
      split at h
      · rename_i hlt
        split at h
        · cases h
        · cases h
          exact ⟨k, hk, Or.inr ⟨h1, by unfold Mapper.endAddr; omega⟩⟩
      · rename_i hge
        have ha : m.addr k = a := by omega
        cases d with
        | to_ =>
          cases h
          obtain ⟨_, ⟨k', hk', ha', _⟩, _⟩ := firstAt_spec m a k.fn n k hk ha rfl
          exact ⟨k', hk', Or.inl ha'⟩
        | from_ => cases h; exact ⟨k, hk, Or.inl ha⟩

/-- **C25**: nothing is found exactly when no block covers the address. -/
theorem find_none_iff (a : Nat) (d : Dir) (hs : Ordered m) :
    find m a d = none ↔ ∀ h ∈ m.handles, ¬ Covers m h a := by
  constructor
  · intro h k hk hc
    obtain ⟨j, hj⟩ := List.mem_iff_getElem?.mp hk
    have sp := takeWhile_spec (fun h => decide (m.addr h ≤ a)) m.handles
    have hka : m.addr k ≤ a := by rcases hc with hc | hc <;> omega
    unfold find at h
    simp only at h
    split at h
    · rename_i hub
      -- the first handle starts after `a`
      rw [hub] at sp
      obtain ⟨hj1, hj2⟩ := List.getElem?_eq_some_iff.mp hj
      have h0 : 0 < m.handles.length := by omega
      have h1 := sp.2 _ (List.getElem?_eq_getElem h0)
      simp at h1
      rcases Nat.eq_zero_or_pos j with rfl | hpos
      · rw [hj2] at h1; omega
      · have := ordered_getElem m (hs := hs) (List.getElem?_eq_getElem h0) hj hpos
        unfold Mapper.endAddr at this; omega
    · rename_i n hub
      split at h
      · rename_i hnone
        have : n < m.handles.length := by
          have := (List.takeWhile_sublist (fun h => decide (m.addr h ≤ a)) (l := m.handles)).length_le
          omega
        rw [List.getElem?_eq_getElem this] at hnone; cases hnone
      · rename_i k' hk'
        obtain ⟨h1, h2⟩ := ub_spec m hs a hub hk'
        split at h
        · rename_i hlt
          split at h
          · rename_i hend
            rcases Nat.lt_trichotomy j n with hlt' | heq | hgt
            · have := ordered_getElem m (hs := hs) hj hk' hlt'
              rcases hc with hc | hc
              · unfold Mapper.endAddr at this; omega
              · omega
            · subst heq
              rw [hj] at hk'; cases hk'
              rcases hc with hc | hc
              · omega
              · unfold Mapper.endAddr at hc; omega
            · have := h2 j k hj hgt; omega
          · cases h
        · cases d <;> cases h
  · intro h
    cases hf : find m a d with
    | none => rfl
    | some i =>
      obtain ⟨k, hk, hc⟩ := find_covers m a d i hs hf
      exact absurd hc (h k (List.mem_of_getElem? hk))

/-- **C25**, branch source: the block found is the last one starting at or before the address; if a non-empty
block contains the address it is the block found. -/
theorem find_from (a i : Nat) (hs : Ordered m) (h : find m a .from_ = some i) :
    (∀ j k, m.handles[j]? = some k → Covers m k a → j ≤ i) ∧
    (∀ j k, m.handles[j]? = some k → m.addr k ≤ a → a < m.endAddr k → j = i) := by
  have hc := find_covers m a .from_ i hs h
  unfold find at h
  simp only at h
  split at h
  · cases h
  · rename_i n hub
    split at h
    · cases h
    · rename_i k0 hk0
      obtain ⟨h1, h2⟩ := ub_spec m hs a hub hk0
      have hin : n = i := by
        split at h
        · split at h
          · cases h
          · cases h; rfl
        · cases h; rfl
      subst hin
      have first : ∀ j k, m.handles[j]? = some k → Covers m k a → j ≤ n := by
        intro j k hj hc
        by_contra hgt
        have := h2 j k hj (by omega)
        rcases hc with hc | hc <;> omega
      refine ⟨first, ?_⟩
      intro j k hj hle hlt
      have h3 := first j k hj (Or.inr ⟨hle, hlt⟩)
      by_contra hne
      obtain ⟨k', hk', hc'⟩ := hc
      have := ordered_getElem m (hs := hs) hj hk' (by omega)
      rcases hc' with hc' | hc' <;> omega

/-- **C25**, branch target: strictly inside a block, that block; at the start of blocks, the first block at
this address that belongs to the same function as the last one. -/
theorem find_to (a i : Nat) (hs : Ordered m) (h : find m a .to_ = some i) :
    ∃ k, m.handles[i]? = some k ∧
      ((m.addr k < a ∧ a < m.endAddr k ∧ ∀ j k', m.handles[j]? = some k' → Covers m k' a → j = i) ∨
       (m.addr k = a ∧ ∃ l kl, i ≤ l ∧ m.handles[l]? = some kl ∧ m.addr kl = a ∧ kl.fn = k.fn ∧
          (∀ j k', m.handles[j]? = some k' → l < j → a < m.addr k') ∧
          (∀ j k', m.handles[j]? = some k' → i ≤ j → j ≤ l → m.addr k' = a ∧ k'.fn = k.fn) ∧
          (∀ j k', i = j + 1 → m.handles[j]? = some k' → ¬ (m.addr k' = a ∧ k'.fn = k.fn)))) := by
  unfold find at h
  simp only at h
  split at h
  · cases h
  · rename_i n hub
    split at h
    · cases h
    · rename_i k0 hk0
      obtain ⟨h1, h2⟩ := ub_spec m hs a hub hk0
      split at h
      · rename_i hlt
        split at h
        · cases h
        · rename_i hend
          cases h
          refine ⟨k0, hk0, Or.inl ⟨hlt, by unfold Mapper.endAddr; omega, ?_⟩⟩
          intro j k' hj hc
          rcases Nat.lt_trichotomy j i with hlt' | heq | hgt
          · have := ordered_getElem m (hs := hs) hj hk0 hlt'
            rcases hc with hc | hc
            · unfold Mapper.endAddr at this; omega
            · omega
          · exact heq
          · have := h2 j k' hj hgt
            rcases hc with hc | hc <;> omega
      · rename_i hge
        have ha : m.addr k0 = a := by omega
        cases h
        obtain ⟨e1, ⟨k', e2, e3, e4⟩, e5, e6⟩ := firstAt_spec m a k0.fn n k0 hk0 ha rfl
        refine ⟨k', e2, Or.inr ⟨e3, n, k0, e1, hk0, ha, e4.symm, h2, ?_, ?_⟩⟩
        · intro j k'' hj h5 h6
          rw [e4]; exact e5 j k'' h5 h6 hj
        · intro j k'' hj hk''
          rw [e4]; exact e6 j k'' hj hk''

/-! ### The builder establishes the order -/

theorem buildHandles_mem {fns : List Fn} : ∀ sel last hs, buildHandles fns last sel = some hs →
    ∀ h ∈ hs, h.fn ∈ sel ∧ ∃ f, fns[h.fn]? = some f ∧ h.bb < f.bbs.length := by
  intro sel
  induction sel with
  | nil => intro last hs h k hk; simp [buildHandles] at h; subst h; simp at hk
  | cons f sel ih =>
    intro last hs h k hk
    rw [buildHandles] at h
    split at h
    · cases h
    · rename_i fn hfn
      split at h
      · cases h
      · rw [Option.map_eq_some_iff] at h
        obtain ⟨tl, h1, h2⟩ := h
        subst h2
        rcases List.mem_append.mp hk with hk | hk
        · obtain ⟨b, hb, rfl⟩ := List.mem_map.mp hk
          exact ⟨by simp, fn, hfn, List.mem_range.mp hb⟩
        · obtain ⟨h3, h4⟩ := ih _ _ h1 k hk
          exact ⟨by simp [h3], h4⟩

/-- All blocks of all selected functions, in order, are the handles. -/
theorem buildHandles_eq {fns : List Fn} : ∀ sel last hs, buildHandles fns last sel = some hs →
    hs = sel.flatMap fun f => (List.range ((fns[f]?).map (·.bbs.length) |>.getD 0)).map fun b => ⟨f, b⟩ := by
  intro sel
  induction sel with
  | nil => intro last hs h; simp [buildHandles] at h; subst h; rfl
  | cons f sel ih =>
    intro last hs h
    rw [buildHandles] at h
    split at h
    · cases h
    · rename_i fn hfn
      split at h
      · cases h
      · rw [Option.map_eq_some_iff] at h
        obtain ⟨tl, h1, h2⟩ := h
        subst h2
        rw [List.flatMap_cons, ← ih _ _ h1, hfn]; rfl

theorem addr_eq {fns : List Fn} {hs : List Handle} {h : Handle} {f : Fn} {b : BB} (hf : fns[h.fn]? = some f)
    (hb : f.bbs[h.bb]? = some b) : Mapper.addr ⟨fns, hs⟩ h = f.addr + b.offset ∧
      Mapper.endAddr ⟨fns, hs⟩ h = f.addr + b.offset + b.size := by
  simp [Mapper.addr, Mapper.endAddr, Mapper.size, Mapper.bb?, hf, hb]

/-- **C25**: for a well laid out binary the builder's handles are ordered, so that the lookup theorems apply. -/
theorem build_ordered (fns : List Fn) (sel : List Nat) (m : Mapper) (hl : Layout fns sel)
    (h : build fns sel = some m) : Ordered m := by
  unfold build at h
  rw [Option.map_eq_some_iff] at h
  obtain ⟨hs, hh, rfl⟩ := h
  have hm := buildHandles_mem sel none hs hh
  have he := buildHandles_eq sel none hs hh
  unfold Ordered
  show hs.Pairwise _
  have hp : ∀ H : Mapper, H.fns = fns → hs.Pairwise fun h k => H.endAddr h ≤ H.addr k := by
    intro H hH
    obtain ⟨Hf, Hh⟩ := H
    simp only at hH; subst hH
    have gen : ∀ sel : List Nat, Layout Hf sel → (sel.flatMap fun f =>
        (List.range ((Hf[f]?).map (·.bbs.length) |>.getD 0)).map fun b => (⟨f, b⟩ : Handle)).Pairwise
        fun h k => Mapper.endAddr ⟨Hf, Hh⟩ h ≤ Mapper.addr ⟨Hf, Hh⟩ k := by
      intro sel hl
      induction sel with
      | nil => simp
      | cons i sel ih =>
        obtain ⟨l1, l2⟩ := hl
        have l2' := List.pairwise_cons.mp l2
        obtain ⟨f, hf, fok⟩ := l1 i (by simp)
        rw [List.flatMap_cons, List.pairwise_append]
        refine ⟨?_, ih ⟨fun j hj => l1 j (by simp [hj]), l2'.2⟩, ?_⟩
        · rw [List.pairwise_map]
          rw [List.pairwise_iff_getElem]
          intro a b ha hb hab
          simp only [List.getElem_range]
          simp [hf] at ha hb
          obtain ⟨_, e1⟩ := addr_eq (hs := Hh) (h := ⟨i, a⟩) hf (List.getElem?_eq_getElem ha)
          obtain ⟨e2, _⟩ := addr_eq (hs := Hh) (h := ⟨i, b⟩) hf (List.getElem?_eq_getElem hb)
          rw [e1, e2]
          have := List.pairwise_iff_getElem.mp fok a b ha hb hab
          omega
        · intro h hh k hk
          obtain ⟨a, ha, rfl⟩ := List.mem_map.mp hh
          obtain ⟨j, hj, hk⟩ := List.mem_flatMap.mp hk
          obtain ⟨b, hb, rfl⟩ := List.mem_map.mp hk
          obtain ⟨g, hg, _⟩ := l1 j (by simp [hj])
          simp [hf] at ha
          simp [hg] at hb
          obtain ⟨_, e1⟩ := addr_eq (hs := Hh) (h := ⟨i, a⟩) hf (List.getElem?_eq_getElem ha)
          obtain ⟨e2, _⟩ := addr_eq (hs := Hh) (h := ⟨j, b⟩) hg (List.getElem?_eq_getElem hb)
          rw [e1, e2]
          have := (l2'.1 j hj f g hf hg).2 _ (List.getElem_mem ha)
          omega
    rw [he]; exact gen sel hl
  exact hp ⟨fns, hs⟩ rfl

theorem buildHandles_isSome {fns : List Fn} : ∀ sel last, (buildHandles fns last sel).isSome = true ↔
    (∀ f ∈ sel, f < fns.length) ∧ (last.toList ++ sel.filterMap fun f => (fns[f]?).map (·.addr)).Pairwise (· < ·) := by
  intro sel
  induction sel with
  | nil => intro last; cases last <;> simp [buildHandles]
  | cons f sel ih =>
    intro last
    rw [buildHandles]
    rcases Nat.lt_or_ge f fns.length with hf | hf
    · rw [List.getElem?_eq_getElem hf]
      simp only [List.mem_cons, forall_eq_or_imp, hf, true_and, List.filterMap_cons, List.getElem?_eq_getElem hf,
        Option.map_some]
      cases last with
      | none =>
        simp only [Option.any_none, Bool.false_eq_true, if_false, Option.isSome_map, ih]
        rfl
      | some l =>
        simp only [Option.any_some, decide_eq_true_eq]
        split
        · rename_i hle
          simp only [Option.isSome_none, Bool.false_eq_true, Option.toList_some, List.singleton_append, List.pairwise_cons,
            List.mem_cons, forall_eq_or_imp, false_iff, not_and]
          intro _ h
          omega
        · rename_i hle
          simp only [Option.isSome_map, ih, Option.toList_some, List.singleton_append, List.pairwise_cons, List.mem_cons,
            forall_eq_or_imp]
          constructor
          · rintro ⟨h1, h2, h3⟩
            exact ⟨h1, ⟨by omega, fun a ha => by have := h2 a ha; omega⟩, h2, h3⟩
          · rintro ⟨h1, _, h2⟩
            exact ⟨h1, h2⟩
    · rw [List.getElem?_eq_none hf]
      simp only [Option.isSome_none, Bool.false_eq_true, List.mem_cons, forall_eq_or_imp, false_iff, not_and]
      intro h; omega

/-- **C25**: the builder succeeds exactly when the selected functions start at strictly increasing addresses. -/
theorem build_isSome_iff (fns : List Fn) (sel : List Nat) : (build fns sel).isSome = true ↔
    (∀ f ∈ sel, f < fns.length) ∧ (sel.filterMap fun f => (fns[f]?).map (·.addr)).Pairwise (· < ·) := by
  rw [build, Option.isSome_map, buildHandles_isSome]; rfl

/-- The example of the header comment (llvm_propeller_binary_address_mapper.h:138-170): foo.5 .. foo.10 and
bar.0, with indices 0 .. 6. -/
def exFns : List Fn :=
  [⟨0x10, [⟨0, 6, true, false⟩, ⟨6, 4, true, false⟩, ⟨0xa, 0, true, false⟩, ⟨0xa, 0, true, false⟩,
    ⟨0xa, 6, true, false⟩, ⟨0x10, 0, true, false⟩]⟩, ⟨0x20, [⟨0, 0x10, true, false⟩]⟩]

theorem find_example : Layout exFns [0, 1] ∧ ∃ m, build exFns [0, 1] = some m ∧
    find m 0x12 .from_ = some 0 ∧ find m 0x12 .to_ = some 0 ∧ find m 0x16 .to_ = some 1 ∧
    find m 0x1a .to_ = some 2 ∧ find m 0x1a .from_ = some 4 ∧ find m 0x20 .to_ = some 6 ∧
    find m 0x20 .from_ = some 6 ∧ find m 0xf .to_ = none ∧ find m 0x30 .from_ = none := by
  constructor
  · constructor
    · intro i hi
      simp at hi
      rcases hi with rfl | rfl
      · exact ⟨_, rfl, by unfold FnOk; decide⟩
      · exact ⟨_, rfl, by unfold FnOk; decide⟩
    · simp [exFns, Before]
  · exact ⟨_, rfl, by decide +kernel⟩

end Verif.Mapper

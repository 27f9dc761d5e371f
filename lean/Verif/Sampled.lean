import Verif.AddrLookup
import Verif.Sample

/-!
# C83: the sampled functions of a binary
Model of `SampleReader::GetSampledAddresses` (sample_reader.cc:105-117) and `SymbolMap::GetSampledSymbolStartAddressSizeMap`
(symbol_map.cc:1161-1192).  The total counts of the functions (`map_`) are a function of the name, `none` if the map has no entry or a null
pointer.
-/
namespace Verif.Sampled
open Verif Verif.AddrLookup

/-- `GetSampledAddresses` (sample_reader.cc:105-117); the set as a map to `Unit`. -/
def sampledAddrs (S : Sample.Maps) : OMap Nat Unit :=
  if S.range.isEmpty then S.addr.foldl (fun r e => OMap.set e.1 () r) []
  else S.range.foldl (fun r e => OMap.set e.1.1 () r) []

/-- The first loop body of `GetSampledSymbolStartAddressSizeMap` (symbol_map.cc:1166-1180); the state is `ret` and `next_start_addr`; `none`:
the assertion in `get_static_vaddr` fails. -/
def sampledStep (syms : AddrMap) (segs : List Seg) (s : OMap Nat Nat × Nat) (a : Nat) : Option (OMap Nat Nat × Nat) :=
  (staticVaddr segs a).bind fun va =>
    if va < s.2 then some s
    else match OMap.floor? syms va with
      | none => some s
      | some (start, _, size) => some (OMap.emplace start size s.1, (start + size) % W)

/-- The second loop body (symbol_map.cc:1181-1190). -/
def countedStep (total : Name → Option Nat) (r : OMap Nat Nat) (e : Nat × Name × Nat) : OMap Nat Nat :=
  if (OMap.find? r e.1).isSome then r
  else match total e.2.1 with
    | none => r
    | some c => if c > 0 then OMap.set e.1 e.2.2 r else r

/-- `GetSampledSymbolStartAddressSizeMap` (symbol_map.cc:1161-1192). -/
def sampledSymbols (syms : AddrMap) (segs : List Seg) (total : Name → Option Nat) (addrs : OMap Nat Unit) : Option (OMap Nat Nat) :=
  ((addrs.map Prod.fst).foldlM (sampledStep syms segs) ([], 0)).map fun s => syms.foldl (countedStep total) s.1

/-! ## Specification -/

/-- `e` is the last function of the table that begins at or before `va`. -/
def LastBefore (syms : AddrMap) (va : Nat) (e : Nat × Name × Nat) : Prop :=
  e ∈ syms ∧ e.1 ≤ va ∧ ∀ x ∈ syms, x.1 ≤ va → x.1 ≤ e.1

/-- The file offset lies in a loaded segment. -/
def InLoaded (ls : List Loaded) (a : Nat) : Prop := ∃ l ∈ ls, l.seg.offset ≤ a ∧ a < l.seg.offset + l.size

/-- The function contains the address. -/
def Covers (va : Nat) (e : Nat × Name × Nat) : Prop := e.1 ≤ va ∧ va < e.1 + e.2.2

/-! ## Proofs -/

theorem foldl_set_mem {α : Type} (l : List α) (f : α → Nat) (r : OMap Nat Unit) (hr : OMap.Sorted r) :
    OMap.Sorted (l.foldl (fun r e => OMap.set (f e) () r) r) ∧
    ∀ a, (OMap.find? (l.foldl (fun r e => OMap.set (f e) () r) r) a).isSome ↔ (OMap.find? r a).isSome ∨ ∃ e ∈ l, f e = a := by
  induction l generalizing r with
  | nil => exact ⟨hr, by simp⟩
  | cons x t ih =>
    obtain ⟨h1, h2⟩ := ih (OMap.set (f x) () r) (OMap.Sorted.upsert hr _ _)
    refine ⟨h1, fun a => ?_⟩
    rw [List.foldl_cons, h2 a]
    unfold OMap.set
    rw [OMap.find?_upsert hr]
    by_cases h : a = f x
    · simp [h]
    · rw [if_neg h]
      have h' : f x ≠ a := fun e => h e.symm
      simp [h']

/-- **C83, the sampled addresses**: the begins of the ranges if there is any range, otherwise the sampled addresses. -/
theorem sampledAddrs_spec (S : Sample.Maps) :
    OMap.Sorted (sampledAddrs S) ∧
    ∀ a, (a, ()) ∈ sampledAddrs S ↔
      (S.range ≠ [] ∧ ∃ e ∈ S.range, e.1.1 = a) ∨ (S.range = [] ∧ ∃ e ∈ S.addr, e.1 = a) := by
  unfold sampledAddrs
  by_cases h : S.range = []
  · rw [if_pos (by simp [h])]
    obtain ⟨h1, h2⟩ := foldl_set_mem S.addr Prod.fst [] OMap.sorted_nil
    refine ⟨h1, fun a => ?_⟩
    rw [← OMap.find?_eq_some_iff h1]
    have := h2 a
    rw [Option.isSome_iff_exists] at this
    simp only [OMap.find?, Option.isSome_none, Bool.false_eq_true, false_or] at this
    simp only [h, ne_eq, not_true_eq_false, false_and, true_and, false_or]
    rw [← this]
    exact ⟨fun h => ⟨_, h⟩, fun ⟨_, h⟩ => h⟩
  · rw [if_neg (by simpa using h)]
    obtain ⟨h1, h2⟩ := foldl_set_mem S.range (fun e => e.1.1) [] OMap.sorted_nil
    refine ⟨h1, fun a => ?_⟩
    rw [← OMap.find?_eq_some_iff h1]
    have := h2 a
    rw [Option.isSome_iff_exists] at this
    simp only [OMap.find?, Option.isSome_none, Bool.false_eq_true, false_or] at this
    simp only [h, ne_eq, not_false_eq_true, true_and, false_and, or_false]
    rw [← this]
    exact ⟨fun h => ⟨_, h⟩, fun ⟨_, h⟩ => h⟩

theorem last_unique {syms : AddrMap} (hs : OMap.Sorted syms) {va : Nat} {e : Nat × Name × Nat} (h : LastBefore syms va e) :
    OMap.floor? syms va = some e := by
  rw [OMap.floor?_iff hs]
  exact ⟨h.1, h.2.1, fun x hx hk => h.2.2 x hx hk⟩

theorem last_of_floor {syms : AddrMap} (hs : OMap.Sorted syms) {va : Nat} {e : Nat × Name × Nat} (h : OMap.floor? syms va = some e) :
    LastBefore syms va e := by
  rw [OMap.floor?_iff hs] at h
  exact ⟨h.1, h.2.1, fun x hx hk => h.2.2 x hx hk⟩

/-- The invariant of the first loop: `done` are the addresses already seen. -/
structure Inv (syms : AddrMap) (segs : List Seg) (done : List Nat) (s : OMap Nat Nat × Nat) : Prop where
  sorted : OMap.Sorted s.1
  mem : ∀ st sz, (st, sz) ∈ s.1 ↔ ∃ n, ∃ a ∈ done, ∃ va, staticVaddr segs a = some va ∧ LastBefore syms va (st, n, sz)
  next : s.2 = 0 ∨ ∃ e, ∃ a ∈ done, ∃ va, staticVaddr segs a = some va ∧ LastBefore syms va e ∧ s.2 = e.1 + e.2.2

theorem step_inv (syms : AddrMap) (segs : List Seg) (hs : OMap.Sorted syms) (hn : NonOverlapping syms)
    (hw : ∀ e ∈ syms, e.1 + e.2.2 < W) (done : List Nat) (s : OMap Nat Nat × Nat) (hi : Inv syms segs done s) (a va : Nat)
    (ha : staticVaddr segs a = some va) (hmono : ∀ b ∈ done, ∀ vb, staticVaddr segs b = some vb → vb ≤ va) :
    ∃ s', sampledStep syms segs s a = some s' ∧ Inv syms segs (done ++ [a]) s' := by
  unfold sampledStep
  rw [ha, Option.bind_some]
  -- what the new set of addresses means
  have hnew : ∀ st sz, (∃ n, ∃ b ∈ done ++ [a], ∃ vb, staticVaddr segs b = some vb ∧ LastBefore syms vb (st, n, sz)) ↔
      (∃ n, ∃ b ∈ done, ∃ vb, staticVaddr segs b = some vb ∧ LastBefore syms vb (st, n, sz)) ∨ ∃ n, LastBefore syms va (st, n, sz) := by
    intro st sz
    constructor
    · rintro ⟨n, b, hb, vb, h1, h2⟩
      rcases List.mem_append.1 hb with hb | hb
      · exact Or.inl ⟨n, b, hb, vb, h1, h2⟩
      · rw [List.mem_singleton] at hb
        subst hb
        rw [ha] at h1
        cases h1
        exact Or.inr ⟨n, h2⟩
    · rintro (⟨n, b, hb, vb, h1, h2⟩ | ⟨n, h⟩)
      · exact ⟨n, b, List.mem_append_left _ hb, vb, h1, h2⟩
      · exact ⟨n, a, by simp, va, ha, h⟩
  have hext : ∀ (p : Nat × Name × Nat → Nat → Prop), (∃ e, ∃ b ∈ done, ∃ vb, staticVaddr segs b = some vb ∧ p e vb) →
      ∃ e, ∃ b ∈ done ++ [a], ∃ vb, staticVaddr segs b = some vb ∧ p e vb := by
    rintro p ⟨e, b, hb, h⟩
    exact ⟨e, b, List.mem_append_left _ hb, h⟩
  by_cases hlt : va < s.2
  · rw [if_pos hlt]
    refine ⟨s, rfl, hi.sorted, fun st sz => ?_, ?_⟩
    · rw [hnew, hi.mem]
      constructor
      · exact Or.inl
      · rintro (h | ⟨n, h⟩)
        · exact h
        · rcases hi.next with h0 | ⟨e, b, hb, vb, h1, h2, h3⟩
          · omega
          · have hvb := hmono b hb vb h1
            have he : LastBefore syms va e := by
              refine ⟨h2.1, Nat.le_trans h2.2.1 hvb, fun x hx hk => ?_⟩
              by_contra hc
              have := hn e h2.1 x hx (by omega)
              omega
            have := (last_unique hs he).symm.trans (last_unique hs h)
            rw [Option.some.injEq] at this
            subst this
            exact ⟨n, b, hb, vb, h1, h2⟩
    · rcases hi.next with h0 | h
      · exact Or.inl h0
      · exact Or.inr (hext (fun e vb => LastBefore syms vb e ∧ s.2 = e.1 + e.2.2) h)
  · rw [if_neg hlt]
    cases hf : OMap.floor? syms va with
    | none =>
      refine ⟨s, rfl, hi.sorted, fun st sz => ?_, ?_⟩
      · rw [hnew, hi.mem]
        constructor
        · exact Or.inl
        · rintro (h | ⟨n, h⟩)
          · exact h
          · rw [last_unique hs h] at hf; cases hf
      · rcases hi.next with h0 | h
        · exact Or.inl h0
        · exact Or.inr (hext (fun e vb => LastBefore syms vb e ∧ s.2 = e.1 + e.2.2) h)
    | some e =>
      obtain ⟨st0, n0, sz0⟩ := e
      have hl := last_of_floor hs hf
      refine ⟨_, rfl, OMap.Sorted.upsert hi.sorted _ _, fun st sz => ?_, Or.inr ⟨(st0, n0, sz0), a, by simp, va, ha, hl, ?_⟩⟩
      · rw [hnew, ← hi.mem, ← OMap.find?_eq_some_iff hi.sorted]
        simp only [OMap.emplace]
        rw [← OMap.find?_eq_some_iff (OMap.Sorted.upsert hi.sorted _ _), OMap.find?_upsert hi.sorted]
        by_cases hst : st = st0
        · subst hst
          rw [if_pos rfl]
          -- the entry, if present, has the same size
          have hsame : ∀ sz', OMap.find? s.1 st = some sz' → sz' = sz0 := by
            intro sz' h
            obtain ⟨n, b, hb, vb, h1, h2⟩ := (hi.mem st sz').1 (OMap.mem_of_find?_some h)
            have e1 := OMap.find?_some_of_mem hs h2.1
            have e2 := OMap.find?_some_of_mem hs hl.1
            rw [e1] at e2
            simp only [Option.some.injEq, Prod.mk.injEq] at e2
            exact e2.2
          have hval : (OMap.find? s.1 st).getD sz0 = sz0 := by
            cases hg : OMap.find? s.1 st with
            | none => rfl
            | some z => rw [Option.getD_some]; exact hsame z hg
          rw [hval]
          constructor
          · intro h
            cases h
            exact Or.inr ⟨n0, hl⟩
          · rintro (h | ⟨n, h⟩)
            · rw [hsame sz h]
            · have := (last_unique hs h).symm.trans hf
              cases this
              rfl
        · rw [if_neg hst]
          constructor
          · exact Or.inl
          · rintro (h | ⟨n, h⟩)
            · exact h
            · have := (last_unique hs h).symm.trans hf
              cases this
              exact absurd rfl hst
      · exact Nat.mod_eq_of_lt (hw _ hl.1)

theorem loop_inv (syms : AddrMap) (segs : List Seg) (hs : OMap.Sorted syms) (hn : NonOverlapping syms)
    (hw : ∀ e ∈ syms, e.1 + e.2.2 < W) (l done : List Nat) (s : OMap Nat Nat × Nat) (hi : Inv syms segs done s)
    (hd : ∀ a ∈ l, ∃ va, staticVaddr segs a = some va)
    (hm : (done ++ l).Pairwise fun a b => ∀ va vb, staticVaddr segs a = some va → staticVaddr segs b = some vb → va ≤ vb) :
    ∃ s', l.foldlM (sampledStep syms segs) s = some s' ∧ Inv syms segs (done ++ l) s' := by
  induction l generalizing done s with
  | nil => exact ⟨s, rfl, by simpa using hi⟩
  | cons a t ih =>
    obtain ⟨va, ha⟩ := hd a List.mem_cons_self
    obtain ⟨s1, h1, h2⟩ := step_inv syms segs hs hn hw done s hi a va ha
      (fun b hb vb hvb => (List.pairwise_append.1 hm).2.2 b hb a List.mem_cons_self vb va hvb ha)
    obtain ⟨s2, h3, h4⟩ := ih (done ++ [a]) s1 h2 (fun b hb => hd b (List.mem_cons_of_mem _ hb)) (by simpa using hm)
    refine ⟨s2, ?_, by simpa using h4⟩
    rw [List.foldlM_cons, h1]
    exact h3

theorem counted_loop (total : Name → Option Nat) (syms : AddrMap) (hs : OMap.Sorted syms) (r : OMap Nat Nat) (hr : OMap.Sorted r)
    (hc : ∀ st sz, (st, sz) ∈ r → ∀ e ∈ syms, e.1 = st → e.2.2 = sz) :
    OMap.Sorted (syms.foldl (countedStep total) r) ∧
    ∀ st sz, (st, sz) ∈ syms.foldl (countedStep total) r ↔
      (st, sz) ∈ r ∨ ∃ n c, (st, n, sz) ∈ syms ∧ total n = some c ∧ 0 < c := by
  induction syms generalizing r with
  | nil => exact ⟨hr, by simp⟩
  | cons e t ih =>
    obtain ⟨a, n, z⟩ := e
    have hs' : OMap.Sorted t := List.Pairwise.of_cons hs
    have hfresh : ∀ e ∈ t, e.1 ≠ a := fun e he => by
      have := (List.pairwise_cons.1 hs).1 e he
      simp only at this
      omega
    -- the step
    have key : OMap.Sorted (countedStep total r (a, n, z)) ∧ ∀ st sz, (st, sz) ∈ countedStep total r (a, n, z) ↔
        (st, sz) ∈ r ∨ (st = a ∧ sz = z ∧ ∃ c, total n = some c ∧ 0 < c) := by
      unfold countedStep
      split
      · rename_i hf
        refine ⟨hr, fun st sz => ⟨Or.inl, ?_⟩⟩
        rintro (h | ⟨rfl, rfl, _⟩)
        · exact h
        · obtain ⟨v, hv⟩ := Option.isSome_iff_exists.1 hf
          have := OMap.mem_of_find?_some hv
          have hz : sz = v := hc _ _ this (st, n, sz) List.mem_cons_self rfl
          rw [hz]
          exact this
      · rename_i hf
        simp only
        split
        · rename_i ht
          exact ⟨hr, fun st sz => by simp [ht]⟩
        · rename_i c ht
          split
          · rename_i hpos
            have hso : OMap.Sorted (OMap.set a z r) := OMap.Sorted.upsert hr _ _
            refine ⟨hso, fun st sz => ?_⟩
            rw [← OMap.find?_eq_some_iff hso, ← OMap.find?_eq_some_iff hr]
            unfold OMap.set
            rw [OMap.find?_upsert hr]
            by_cases h : st = a
            · subst h
              rw [if_pos rfl]
              simp only [Bool.not_eq_true, Option.isSome_eq_false_iff, Option.isNone_iff_eq_none] at hf
              rw [hf]
              simp only [reduceCtorEq, false_or, true_and]
              constructor
              · intro h; cases h; exact ⟨rfl, c, ht, hpos⟩
              · rintro ⟨rfl, _⟩; rfl
            · rw [if_neg h]
              simp [h]
          · rename_i hpos
            refine ⟨hr, fun st sz => ?_⟩
            simp only [ht, Option.some.injEq, exists_eq_left']
            simp [hpos]
    obtain ⟨k1, k2⟩ := key
    obtain ⟨i1, i2⟩ := ih hs' (countedStep total r (a, n, z)) k1 (by
      intro st sz h e he hst
      rcases (k2 st sz).1 h with h | ⟨rfl, _⟩
      · exact hc st sz h e (List.mem_cons_of_mem _ he) hst
      · exact absurd hst (hfresh e he))
    refine ⟨i1, fun st sz => ?_⟩
    rw [List.foldl_cons, i2, k2]
    constructor
    · rintro ((h | ⟨rfl, rfl, c, h1, h2⟩) | ⟨m, c, h1, h2, h3⟩)
      · exact Or.inl h
      · exact Or.inr ⟨n, c, List.mem_cons_self, h1, h2⟩
      · exact Or.inr ⟨m, c, List.mem_cons_of_mem _ h1, h2, h3⟩
    · rintro (h | ⟨m, c, h1, h2, h3⟩)
      · exact Or.inl (Or.inl h)
      · rcases List.mem_cons.1 h1 with h1 | h1
        · cases h1
          exact Or.inl (Or.inr ⟨rfl, rfl, c, h2, h3⟩)
        · exact Or.inr ⟨m, c, h1, h2, h3⟩

theorem layout_mono (ls : List Loaded) (h : Layout ls) (a b va vb : Nat) (ha : InLoaded ls a) (hb : InLoaded ls b) (hab : a ≤ b)
    (hva : staticVaddr (ls.map Loaded.seg) a = some va) (hvb : staticVaddr (ls.map Loaded.seg) b = some vb) : va ≤ vb := by
  obtain ⟨l, hl, h1, h2⟩ := ha
  obtain ⟨m, hm, h3, h4⟩ := hb
  have e1 := (offset_vaddr_offset ls h l hl (a - l.seg.offset) (by omega)).1
  have e2 := (offset_vaddr_offset ls h m hm (b - m.seg.offset) (by omega)).1
  rw [show l.seg.offset + (a - l.seg.offset) = a by omega, hva] at e1
  rw [show m.seg.offset + (b - m.seg.offset) = b by omega, hvb] at e2
  cases e1
  cases e2
  -- the segments are in order
  have hord : l = m ∨ (l.seg.offset + l.size ≤ m.seg.offset ∧ l.seg.vaddr + l.size ≤ m.seg.vaddr) ∨
      (m.seg.offset + m.size ≤ l.seg.offset ∧ m.seg.vaddr + m.size ≤ l.seg.vaddr) := by
    clear hva hvb h1 h2 h3 h4
    induction ls with
    | nil => cases hl
    | cons x t ih =>
      simp only [Layout] at h
      rcases List.mem_cons.1 hl with rfl | hl'
      · rcases List.mem_cons.1 hm with rfl | hm'
        · exact Or.inl rfl
        · exact Or.inr (Or.inl (h.2.2.1 m hm'))
      · rcases List.mem_cons.1 hm with rfl | hm'
        · exact Or.inr (Or.inr (h.2.2.1 l hl'))
        · exact ih h.2.2.2 hl' hm'
  rcases hord with rfl | h5 | h5 <;> omega

/-- **C83.** For a table of functions that do not overlap and sampled addresses in the loaded segments of a binary laid out in order, the result
has exactly the functions with a positive count and those that are the last function beginning at or before a sampled address; each with its
size. -/
theorem sampledSymbols_exact (syms : AddrMap) (ls : List Loaded) (total : Name → Option Nat) (addrs : OMap Nat Unit)
    (hs : OMap.Sorted syms) (hn : NonOverlapping syms) (hw : ∀ e ∈ syms, e.1 + e.2.2 < W)
    (hl : Layout ls) (ha : OMap.Sorted addrs) (hin : ∀ a, (a, ()) ∈ addrs → InLoaded ls a) :
    ∃ r, sampledSymbols syms (ls.map Loaded.seg) total addrs = some r ∧ OMap.Sorted r ∧
      ∀ st sz, (st, sz) ∈ r ↔ ∃ n, (st, n, sz) ∈ syms ∧
        ((∃ c, total n = some c ∧ 0 < c) ∨
          ∃ a va, (a, ()) ∈ addrs ∧ staticVaddr (ls.map Loaded.seg) a = some va ∧ LastBefore syms va (st, n, sz)) := by
  have hmem : ∀ a ∈ addrs.map Prod.fst, (a, ()) ∈ addrs := by
    intro a h
    obtain ⟨⟨b, u⟩, hb, rfl⟩ := List.mem_map.1 h
    exact hb
  have hdef : ∀ a ∈ addrs.map Prod.fst, ∃ va, staticVaddr (ls.map Loaded.seg) a = some va := by
    intro a h
    obtain ⟨l, hl', h1, h2⟩ := hin a (hmem a h)
    have e1 := (offset_vaddr_offset ls hl l hl' (a - l.seg.offset) (by omega)).1
    rw [show l.seg.offset + (a - l.seg.offset) = a by omega] at e1
    exact ⟨_, e1⟩
  have hpw : (addrs.map Prod.fst).Pairwise fun a b => ∀ va vb, staticVaddr (ls.map Loaded.seg) a = some va →
      staticVaddr (ls.map Loaded.seg) b = some vb → va ≤ vb := by
    rw [List.pairwise_map]
    refine List.Pairwise.imp_of_mem ?_ ha
    intro x y hx hy hxy va vb h1 h2
    exact layout_mono ls hl x.1 y.1 va vb (hin _ hx) (hin _ hy) (Nat.le_of_lt hxy) h1 h2
  obtain ⟨s, h1, h2⟩ := loop_inv syms (ls.map Loaded.seg) hs hn hw (addrs.map Prod.fst) [] ([], 0)
    ⟨OMap.sorted_nil, by simp, Or.inl rfl⟩ hdef (by simpa using hpw)
  rw [List.nil_append] at h2
  obtain ⟨h3, h4⟩ := counted_loop total syms hs s.1 h2.sorted (by
    intro st sz h e he hst
    obtain ⟨n, a, _, va, _, hla⟩ := (h2.mem st sz).1 h
    obtain ⟨e1, e2, e3⟩ := e
    simp only at hst
    subst hst
    have f1 := OMap.find?_some_of_mem hs he
    have f2 := OMap.find?_some_of_mem hs hla.1
    rw [f1] at f2
    simp only [Option.some.injEq, Prod.mk.injEq] at f2
    exact f2.2)
  refine ⟨_, ?_, h3, fun st sz => ?_⟩
  · unfold sampledSymbols
    rw [h1, Option.map_some]
  · rw [h4, h2.mem]
    constructor
    · rintro (⟨n, a, hm, va, h5, h6⟩ | ⟨n, c, h5, h6, h7⟩)
      · exact ⟨n, h6.1, Or.inr ⟨a, va, hmem a hm, h5, h6⟩⟩
      · exact ⟨n, h5, Or.inl ⟨c, h6, h7⟩⟩
    · rintro ⟨n, h5, (⟨c, h6, h7⟩ | ⟨a, va, h6, h7, h8⟩)⟩
      · exact Or.inr ⟨n, c, h5, h6, h7⟩
      · exact Or.inl ⟨n, a, List.mem_map.2 ⟨(a, ()), h6, rfl⟩, va, h7, h8⟩

/-- **C83, no sampled function is missing**: a function that contains a sampled address is in the result. -/
theorem sampled_included (syms : AddrMap) (ls : List Loaded) (total : Name → Option Nat) (addrs : OMap Nat Unit)
    (hs : OMap.Sorted syms) (hn : NonOverlapping syms) (hw : ∀ e ∈ syms, e.1 + e.2.2 < W)
    (hl : Layout ls) (ha : OMap.Sorted addrs) (hin : ∀ a, (a, ()) ∈ addrs → InLoaded ls a) (r : OMap Nat Nat)
    (hr : sampledSymbols syms (ls.map Loaded.seg) total addrs = some r)
    (a va : Nat) (e : Nat × Name × Nat) (h1 : (a, ()) ∈ addrs) (h2 : staticVaddr (ls.map Loaded.seg) a = some va)
    (he : e ∈ syms) (hc : Covers va e) : (e.1, e.2.2) ∈ r := by
  obtain ⟨r', h3, _, h4⟩ := sampledSymbols_exact syms ls total addrs hs hn hw hl ha hin
  rw [hr] at h3
  cases h3
  refine (h4 _ _).2 ⟨e.2.1, he, Or.inr ⟨a, va, h1, h2, he, hc.1, fun x hx hk => ?_⟩⟩
  by_contra hlt
  have := hn e he x hx (by omega)
  have := hc.2
  omega

/-- **C83, exactness**: if every sampled address lies in a function, the result has exactly the functions with a sampled address and those
with a positive count. -/
theorem sampled_exact (syms : AddrMap) (ls : List Loaded) (total : Name → Option Nat) (addrs : OMap Nat Unit)
    (hs : OMap.Sorted syms) (hn : NonOverlapping syms) (hw : ∀ e ∈ syms, e.1 + e.2.2 < W)
    (hl : Layout ls) (ha : OMap.Sorted addrs) (hin : ∀ a, (a, ()) ∈ addrs → InLoaded ls a)
    (hcov : ∀ a va, (a, ()) ∈ addrs → staticVaddr (ls.map Loaded.seg) a = some va → ∃ e ∈ syms, Covers va e)
    (r : OMap Nat Nat) (hr : sampledSymbols syms (ls.map Loaded.seg) total addrs = some r) (st sz : Nat) :
    (st, sz) ∈ r ↔ ∃ n, (st, n, sz) ∈ syms ∧
      ((∃ c, total n = some c ∧ 0 < c) ∨
        ∃ a va, (a, ()) ∈ addrs ∧ staticVaddr (ls.map Loaded.seg) a = some va ∧ Covers va (st, n, sz)) := by
  obtain ⟨r', h3, _, h4⟩ := sampledSymbols_exact syms ls total addrs hs hn hw hl ha hin
  rw [hr] at h3
  cases h3
  rw [h4]
  constructor
  · rintro ⟨n, h5, (h | ⟨a, va, h6, h7, h8⟩)⟩
    · exact ⟨n, h5, Or.inl h⟩
    · refine ⟨n, h5, Or.inr ⟨a, va, h6, h7, ?_⟩⟩
      obtain ⟨e, he, hce⟩ := hcov a va h6 h7
      have hle : LastBefore syms va e := by
        refine ⟨he, hce.1, fun x hx hk => ?_⟩
        by_contra hlt
        have := hn e he x hx (by omega)
        have := hce.2
        omega
      have := (last_unique hs h8).symm.trans (last_unique hs hle)
      rw [Option.some.injEq] at this
      rw [this]
      exact hce
  · rintro ⟨n, h5, (h | ⟨a, va, h6, h7, h8⟩)⟩
    · exact ⟨n, h5, Or.inl h⟩
    · refine ⟨n, h5, Or.inr ⟨a, va, h6, h7, h5, h8.1, fun x hx hk => ?_⟩⟩
      by_contra hlt
      have := hn _ h5 x hx (by simp only; omega)
      have := h8.2
      omega

/-! ## Examples -/

/-- Three functions; one segment. -/
def exSyms : AddrMap := [(0x1000, [97], 0x10), (0x1020, [98], 0x20), (0x1040, [99], 8)]
def exLoaded : List Loaded := [⟨⟨0, 0x1000⟩, 0x100⟩]
def exTotal : Name → Option Nat := fun n => if n = [99] then some 5 else if n = [98] then some 0 else none

/-- The example meets the hypotheses; `a` is sampled, `c` has a count, `b` neither. -/
theorem ex_holds : OMap.Sorted exSyms ∧ NonOverlapping exSyms ∧ (∀ e ∈ exSyms, e.1 + e.2.2 < W) ∧ Layout exLoaded ∧
    (∀ a, (a, ()) ∈ sampledAddrs ⟨[((4, 8), 1), ((4, 12), 2), ((6, 8), 1)], [], []⟩ → InLoaded exLoaded a) ∧
    sampledSymbols exSyms (exLoaded.map Loaded.seg) exTotal (sampledAddrs ⟨[((4, 8), 1), ((4, 12), 2), ((6, 8), 1)], [], []⟩) =
      some [(0x1000, 0x10), (0x1040, 8)] := by
  refine ⟨by unfold OMap.Sorted; decide, ?_, ?_, ?_, ?_, by decide +kernel⟩
  · intro a ha b hb
    simp only [exSyms, List.mem_cons, List.not_mem_nil, or_false] at ha hb
    rcases ha with rfl | rfl | rfl <;> rcases hb with rfl | rfl | rfl <;> simp
  · intro e he
    simp only [exSyms, List.mem_cons, List.not_mem_nil, or_false] at he
    rcases he with rfl | rfl | rfl <;> simp [W]
  · simp [Layout, exLoaded, W]
  · intro a ha
    have : (a, ()) ∈ ([(4, ()), (6, ())] : OMap Nat Unit) := ha
    simp only [List.mem_cons, Prod.mk.injEq, and_true, List.not_mem_nil, or_false] at this
    exact ⟨⟨⟨0, 0x1000⟩, 0x100⟩, by simp [exLoaded], by simp, by simp only; omega⟩

/-- A sampled address in the gap after a function puts that function in the result, although it has no sample. -/
theorem gap_violated : sampledSymbols exSyms (exLoaded.map Loaded.seg) (fun _ => none) [(0x18, ())] = some [(0x1000, 0x10)] ∧
    staticVaddr (exLoaded.map Loaded.seg) 0x18 = some 0x1018 ∧ ∀ e ∈ exSyms, ¬ Covers 0x1018 e := by
  refine ⟨by decide +kernel, by decide +kernel, ?_⟩
  intro e he
  simp only [exSyms, List.mem_cons, List.not_mem_nil, or_false] at he
  unfold Covers
  rcases he with rfl | rfl | rfl <;> simp

/-- If the order of the segments in the file is not that in memory, a sampled function may be missing: `a` is sampled at offset 0x100. -/
theorem order_violated : sampledSymbols exSyms [⟨0, 0x1020⟩, ⟨0x100, 0x1000⟩] (fun _ => none) [(0, ()), (0x100, ())] = some [(0x1020, 0x20)] ∧
    staticVaddr [⟨0, 0x1020⟩, ⟨0x100, 0x1000⟩] 0x100 = some 0x1000 ∧ Covers 0x1000 (0x1000, [97], 0x10) := by
  refine ⟨by decide +kernel, by decide +kernel, ?_⟩
  unfold Covers
  simp
end Verif.Sampled

import Verif.LlvmRead

/-! Reading several LLVM profiles, writing, and the round trip (C56, C57). -/
namespace Verif.SymbolMap

open Verif.Compute (sum_flatMap sum_zero sum_map_congr)

/-! ### Reading all profiles -/

/-- The profiles of one function, in the order in which they are read. -/
def entries (f : Name) (xs : List (Name × FSamples)) : List FSamples := (xs.filter fun x => x.1 = f).map Prod.snd

/-- A profile which LLVM's reader can deliver. -/
structure FSOk (pol : Policy) (s : FSamples) : Prop where
  wf : s.WF
  locs : s.LocsOk
  elided : s.TargetsElided pol

/-- What is known of the function `f` after reading the profiles `xs`, from what was known before. -/
structure ReadAll (f : Name) (xs : List (Name × FSamples)) (m m' : SymMap) : Prop where
  exists_ : (OMap.find? m' f).isSome = true ↔ (OMap.find? m f).isSome = true ∨ entries f xs ≠ []
  /-- nothing happens to functions without a profile -/
  other : entries f xs = [] → OMap.find? m' f = OMap.find? m f
  node : ∀ p, ((m'.get f).node? p).isSome = true ↔ ((m.get f).node? p).isSome = true ∨ ∃ s ∈ entries f xs, ∃ q d, s.node? q = some d ∧ p <+: q ∧ d.pos ≠ []
  /-- totals of inline instances are the counts in them and below -/
  total : ∀ p, p ≠ [] → (m'.get f).totalAt p = (m.get f).totalAt p + ((entries f xs).map fun s => s.bodyBelow p).sum
  /-- so are those of functions; a recorded total is used if there is nothing else so far -/
  total0 : (m'.get f).totalAt [] = (entries f xs).foldl (fun old s => if old + s.bodyBelow [] = 0 then s.data.total else old + s.bodyBelow []) ((m.get f).totalAt [])
  head : ∀ p, (m'.get f).headAt p = (m.get f).headAt p + if p = [] then ((entries f xs).map fun s => s.data.head).sum else 0
  count : ∀ p loc, (m'.get f).countAt p loc = (m.get f).countAt p loc + ((entries f xs).map fun s => s.countAt p loc).sum
  inst : ∀ p loc, (m'.get f).instAt p loc = (m.get f).instAt p loc + ((entries f xs).filter fun s => s.hasLoc p loc).length
  /-- the last recorded count of a call target wins -/
  target : ∀ p loc t, (m'.get f).targetAt p loc t = (entries f xs).foldl (fun old s => (s.target? p loc t).getD old) ((m.get f).targetAt p loc t)

theorem ReadAll.nil (f : Name) (m : SymMap) : ReadAll f [] m m := by
  refine ⟨?_, fun _ => rfl, ?_, ?_, rfl, ?_, ?_, ?_, ?_⟩ <;> intros <;> simp [entries]

theorem ReadAll.cons {pol : Policy} {f g : Name} {s : FSamples} {xs : List (Name × FSamples)} {m m1 m' : SymMap} (_ : FSOk pol s)
    (h : ReadEffect g s m m1) (h' : ReadAll f xs m1 m') : ReadAll f ((g, s) :: xs) m m' := by
  by_cases hg : g = f
  · subst hg
    have he : entries g ((g, s) :: xs) = s :: entries g xs := by
      unfold entries; rw [List.filter_cons_of_pos (by simp)]; rfl
    refine ⟨?_, ?_, ?_, ?_, ?_, ?_, ?_, ?_, ?_⟩
    · rw [h'.exists_, he]; simp [h.exists_]
    · rw [he]; intro e; cases e
    · intro p
      rw [h'.node, h.node, he]
      simp only [List.mem_cons, exists_eq_or_imp, or_assoc]
    · intro p hp
      rw [h'.total p hp, h.total p hp, he, List.map_cons, List.sum_cons]; omega
    · rw [h'.total0, h.total0, he, List.foldl_cons]
    · intro p
      rw [h'.head, h.head, he, List.map_cons, List.sum_cons]
      split <;> omega
    · intro p loc
      rw [h'.count, h.count, he, List.map_cons, List.sum_cons]; omega
    · intro p loc
      rw [h'.inst, h.inst, he]
      by_cases hl : s.hasLoc p loc = true
      · rw [List.filter_cons_of_pos (p := fun s : FSamples => s.hasLoc p loc) hl, if_pos hl, List.length_cons]; omega
      · rw [List.filter_cons_of_neg (p := fun s : FSamples => s.hasLoc p loc) hl, if_neg hl]; omega
    · intro p loc t
      rw [h'.target, h.target, he, List.foldl_cons]
  · have he : entries f ((g, s) :: xs) = entries f xs := by
      unfold entries; rw [List.filter_cons_of_neg (by simpa using hg)]
    have hf : OMap.find? m1 f = OMap.find? m f := h.others f (Ne.symm hg)
    have hget : m1.get f = m.get f := by unfold SymMap.get; rw [hf]
    refine ⟨?_, ?_, ?_, ?_, ?_, ?_, ?_, ?_, ?_⟩
    · rw [he, ← hf]; exact h'.exists_
    · rw [he, ← hf]; exact h'.other
    · rw [he, ← hget]; exact h'.node
    · rw [he, ← hget]; exact h'.total
    · rw [he, ← hget]; exact h'.total0
    · rw [he, ← hget]; exact h'.head
    · rw [he, ← hget]; exact h'.count
    · rw [he, ← hget]; exact h'.inst
    · rw [he, ← hget]; exact h'.target

/-- C56: reading any number of profiles, one after the other, never fails, and everything read is accounted for. -/
theorem read_profiles (pol : Policy) (xs : List (Name × FSamples)) (hx : ∀ x ∈ xs, FSOk pol x.2) : ∀ {m : SymMap}, m.WF →
    ∃ m', readProfiles pol none m xs = some (m', []) ∧ m'.WF ∧ ∀ f, ReadAll f xs m m' := by
  induction xs with
  | nil => intro m hm; exact ⟨m, rfl, hm, fun f => ReadAll.nil f m⟩
  | cons x t ih =>
    intro m hm
    obtain ⟨g, s⟩ := x
    have ho := hx (g, s) (by simp)
    obtain ⟨m1, e1, h1⟩ := readTop_effect pol hm g ho.wf ho.locs ho.elided
    obtain ⟨m', e', w', h'⟩ := ih (fun x hx' => hx x (by simp [hx'])) h1.wf
    refine ⟨m', ?_, w', fun f => ReadAll.cons ho h1 (h' f)⟩
    unfold readProfiles at e' ⊢
    rw [List.foldlM_cons]
    have : readOne pol none (m, []) (g, s) = some (m1, []) := by
      simp [readOne, shouldMerge, e1]
    rw [this]
    exact e'

/-! ### Writing -/

mutual
/-- The LLVM profile of a function or inlined instance: all but the instruction counts and the entry counts of inlined instances. -/
def Sym.llvm (top : Bool) : Sym → FSamples
  | .mk d cs => .mk ⟨d.total, if top then d.head else 0, d.pos.map fun x => (x.1, ⟨x.2.count, 0, x.2.targets⟩)⟩ (llvmCalls cs)
def llvmCalls : List (Callsite × Sym) → List (Callsite × FSamples)
  | [] => []
  | (k, c) :: t => (k, c.llvm false) :: llvmCalls t
end

/-- Counts fit 64 bits, and lines are below 2^16 (discriminators below 2^32). -/
structure Writable (d : Data) : Prop where
  total : d.total < 2 ^ 64
  count : ∀ x ∈ d.pos, x.2.count < 2 ^ 64
  target : ∀ x ∈ d.pos, ∀ t ∈ x.2.targets, t.2 < 2 ^ 64
  loc : ∀ x ∈ d.pos, x.1 < 2 ^ 48

/-- `Writable` for all instances, and for all call sites. -/
def Sym.BodyFits (s : Sym) : Prop := ∀ x ∈ s.nodes, SymbolMap.Writable x.2 ∧ ∀ k ∈ x.1, k.1 < 2 ^ 48

/-- So is the entry count (those of inlined instances are not written). -/
def Sym.Writable (s : Sym) : Prop := s.data.head < 2 ^ 64 ∧ s.BodyFits

theorem lineLoc_eq {o : Nat} (h : o < 2 ^ 48) : lineLoc o = o := by
  unfold lineLoc
  omega

theorem upsert_append {K V : Type} [LinearOrder K] (k : K) (f : Option V → V) : ∀ (m : OMap K V), (∀ x ∈ m, x.1 < k) → OMap.upsert k f m = m ++ [(k, f none)]
  | [], _ => rfl
  | (k', v) :: t, h => by
    have h1 : k' < k := h (k', v) (by simp)
    rw [OMap.upsert, if_neg (not_lt_of_gt h1), if_neg (ne_of_gt h1), upsert_append k f t fun x hx => h x (by simp [hx])]
    rfl

theorem find_none_lt {K V : Type} [LinearOrder K] (k : K) : ∀ (m : OMap K V), (∀ x ∈ m, x.1 < k) → OMap.find? m k = none
  | [], _ => rfl
  | (k', v) :: t, h => by
    rw [OMap.find?, if_neg (ne_of_gt (h (k', v) (by simp))), find_none_lt k t fun x hx => h x (by simp [hx])]

theorem set_append {K V : Type} [LinearOrder K] (k : K) (v : V) (m : OMap K V) (h : ∀ x ∈ m, x.1 < k) : OMap.set k v m = m ++ [(k, v)] :=
  upsert_append k _ m h

theorem addChecked_zero {n : Nat} (h : n < 2 ^ 64) : addChecked 0 n = some n := by
  unfold addChecked
  rw [Nat.zero_add, if_pos h]

theorem addTargets_eq : ∀ (xs : List (Name × Nat)) (acc : OMap Name Nat), OMap.Sorted (acc ++ xs) → (∀ t ∈ xs, t.2 < 2 ^ 64) → addTargets acc xs = some (acc ++ xs) := by
  intro xs
  induction xs with
  | nil => intro acc _ _; simp [addTargets]
  | cons x t ih =>
    intro acc hs hx
    have hlt : ∀ y ∈ acc, y.1 < x.1 := fun y hy => (List.pairwise_append.1 hs).2.2 y hy x (by simp)
    unfold addTargets at ih ⊢
    rw [List.foldlM_cons]
    have h1 : addChecked (OMap.get0 acc x.1) x.2 = some x.2 := by
      unfold OMap.get0
      rw [find_none_lt _ _ hlt]
      exact addChecked_zero (hx x (by simp))
    rw [h1, Option.map_some, set_append _ _ _ hlt]
    show List.foldlM _ (acc ++ [x]) t = _
    rw [ih (acc ++ [x]) (by simpa using hs) fun y hy => hx y (by simp [hy])]
    simp

theorem addBody_eq : ∀ (xs acc : PosMap), OMap.Sorted (acc ++ xs) → xs.TargetsOk → (∀ x ∈ xs, x.1 < 2 ^ 48 ∧ x.2.count < 2 ^ 64 ∧ ∀ t ∈ x.2.targets, t.2 < 2 ^ 64) →
    addBody acc xs = some (acc ++ xs.map fun x => (x.1, ⟨x.2.count, 0, x.2.targets⟩)) := by
  intro xs
  induction xs with
  | nil => intro acc _ _ _; simp [addBody]
  | cons x t ih =>
    intro acc hs ht hx
    have hlt : ∀ y ∈ acc, y.1 < x.1 := fun y hy => (List.pairwise_append.1 hs).2.2 y hy x (by simp)
    obtain ⟨x1, x2, x3⟩ := hx x (by simp)
    unfold addBody at ih ⊢
    rw [List.foldlM_cons]
    have h1 : addChecked (PosMap.countAt acc (lineLoc x.1)) x.2.count = some x.2.count := by
      unfold PosMap.countAt
      rw [lineLoc_eq x1, find_none_lt _ _ hlt]
      exact addChecked_zero x2
    have h2 : addTargets ((OMap.find? acc (lineLoc x.1)).getD PInfo.zero).targets x.2.targets = some x.2.targets := by
      rw [lineLoc_eq x1, find_none_lt _ _ hlt]
      exact addTargets_eq x.2.targets [] (ht x (by simp)) x3
    rw [h1, Option.bind_some, h2, Option.map_some, lineLoc_eq x1, set_append _ _ _ hlt]
    show List.foldlM _ (acc ++ [(x.1, ⟨x.2.count, 0, x.2.targets⟩)]) t = _
    rw [ih]
    · simp
    · unfold OMap.Sorted at hs ⊢
      rw [List.pairwise_append] at hs ⊢
      have hc := List.pairwise_cons.1 hs.2.1
      refine ⟨?_, hc.2, ?_⟩
      · rw [List.pairwise_append]
        refine ⟨hs.1, by simp, ?_⟩
        intro a ha b hb
        rw [List.mem_singleton.1 hb]
        exact hlt a ha
      · intro a ha b hb
        rcases List.mem_append.1 ha with ha | ha
        · exact hs.2.2 a ha b (by simp [hb])
        · rw [List.mem_singleton.1 ha]
          exact hc.1 b hb
    · exact fun p hp => ht p (by simp [hp])
    · exact fun y hy => hx y (by simp [hy])

theorem modifyAt_append {A : Type} (f : Option A → A) (k : Callsite) : ∀ (l : List (Callsite × A)), lookup l k = none → modifyAt l k f = l ++ [(k, f none)]
  | [], _ => rfl
  | (k', v) :: t, h => by
    rw [lookup] at h
    by_cases hk : k = k'
    · rw [if_pos hk] at h; cases h
    · rw [if_neg hk] at h
      rw [modifyAt, if_neg hk, modifyAt_append f k t h]
      rfl

theorem llvmCalls_keys : ∀ cs : List (Callsite × Sym), (llvmCalls cs).map Prod.fst = cs.map Prod.fst
  | [] => by simp [llvmCalls]
  | (k, c) :: t => by rw [llvmCalls, List.map_cons, List.map_cons, llvmCalls_keys t]

theorem Sym.BodyFits.top {d : Data} {cs : List (Callsite × Sym)} (h : (Sym.mk d cs).BodyFits) : SymbolMap.Writable d :=
  (h ([], d) (by rw [Sym.nodes]; simp)).1

theorem nodesCalls_mem {k : Callsite} {c : Sym} {x : List Callsite × Data} : ∀ {cs : List (Callsite × Sym)}, (k, c) ∈ cs → x ∈ c.nodes → (k :: x.1, x.2) ∈ nodesCalls cs
  | (k', c') :: t, h, hx => by
    rw [nodesCalls, List.mem_append]
    rcases List.mem_cons.1 h with e | h
    · injection e with e1 e2
      subst e1; subst e2
      exact Or.inl (List.mem_map.2 ⟨x, hx, rfl⟩)
    · exact Or.inr (nodesCalls_mem h hx)

theorem self_node (s : Sym) : ([], s.data) ∈ s.nodes := by
  obtain ⟨d, cs⟩ := s
  rw [Sym.nodes]; simp [Sym.data]

theorem Sym.BodyFits.child {d : Data} {cs : List (Callsite × Sym)} (h : (Sym.mk d cs).BodyFits) {k : Callsite} {c : Sym} (hk : (k, c) ∈ cs) :
    c.BodyFits ∧ k.1 < 2 ^ 48 := by
  have hin : ∀ x ∈ c.nodes, (k :: x.1, x.2) ∈ (Sym.mk d cs).nodes := fun x hx => by
    rw [Sym.nodes]; exact List.mem_cons_of_mem _ (nodesCalls_mem hk hx)
  refine ⟨fun x hx => ⟨(h _ (hin x hx)).1, fun k' hk' => (h _ (hin x hx)).2 k' (by simp [hk'])⟩, ?_⟩
  exact (h _ (hin _ (self_node c))).2 k (by simp)

mutual
theorem writeSym_eq (top : Bool) (n h : Nat) : (s : Sym) → s.WF → s.BodyFits → writeSym top (.mk ⟨n, h, []⟩ []) s =
    (if top then some n else addChecked n s.data.total).map fun n => .mk ⟨n, h, (s.llvm top).data.pos⟩ (s.llvm top).calls
  | .mk d cs, hw, hr => by
    have hw' := (Sym.WF_iff _).1 hw
    have hd := hr.top
    have hc := writeCalls_eq cs [] hw'.2.2.1 (fun x hx => hw'.2.2.2 x hx) (fun x hx => hr.child hx) (fun x _ => rfl)
    rw [writeSym, Sym.llvm]
    simp only [Sym.data, Sym.calls]
    rw [addBody_eq d.pos [] hw'.1 hw'.2.1 fun x hx => ⟨hd.loc x hx, hd.count x hx, hd.target x hx⟩, hc]
    cases (if top then some n else addChecked n d.total) <;> rfl
theorem writeCalls_eq : (cs : List (Callsite × Sym)) → (acc : List (Callsite × FSamples)) → (cs.map Prod.fst).Nodup → (∀ x ∈ cs, x.2.WF) →
    (∀ x ∈ cs, x.2.BodyFits ∧ x.1.1 < 2 ^ 48) → (∀ x ∈ cs, lookup acc x.1 = none) → writeCalls acc cs = some (acc ++ llvmCalls cs)
  | [], acc, _, _, _, _ => by rw [writeCalls, llvmCalls]; simp
  | (k, c) :: t, acc, hn, hw, hr, ha => by
    rw [List.map_cons] at hn
    have hn' := List.nodup_cons.1 hn
    have hk : lookup acc k = none := ha (k, c) (by simp)
    have h1 := writeSym_eq false 0 0 c (hw (k, c) (by simp)) (hr (k, c) (by simp)).1
    have hc : addChecked 0 c.data.total = some c.data.total :=
      addChecked_zero ((hr (k, c) (by simp)).1 _ (self_node c)).1.total
    have h2 : writeSym false Sym.new c = some (c.llvm false) := by
      refine h1.trans ?_
      simp only [Bool.false_eq_true, if_false, hc, Option.map_some]
      obtain ⟨d, cs⟩ := c
      rw [Sym.llvm]
      rfl
    have hkl : (lineLoc k.1, k.2) = k := by rw [lineLoc_eq (hr (k, c) (by simp)).2]
    rw [writeCalls, hkl, hk]
    simp only [Option.getD_none]
    rw [h2, Option.bind_some, modifyAt_append _ _ _ hk, writeCalls_eq t _ hn'.2 (fun x hx => hw x (by simp [hx])) (fun x hx => hr x (by simp [hx]))]
    · rw [llvmCalls]; simp
    · intro x hx
      have hne : x.1 ≠ k := fun e => hn'.1 (by
        have := List.mem_map_of_mem (f := Prod.fst) hx
        rw [e] at this
        exact this)
      rw [lookup_eq_none_iff]
      have h0 := lookup_eq_none_iff.1 (ha x (by simp [hx]))
      rw [List.map_append, List.mem_append]
      rintro (hy | hy)
      · exact h0 hy
      · exact hne (by simpa using hy)
end

theorem writeTop_eq {s : Sym} (hw : s.WF) (hr : s.Writable) : writeTop Sym.new s = some (s.llvm true) := by
  have hd := (hr.2 _ (self_node s)).1
  unfold writeTop
  have h1 : addChecked Sym.new.data.head s.data.head = some s.data.head := addChecked_zero hr.1
  have h2 : addChecked Sym.new.data.total s.data.total = some s.data.total := addChecked_zero hd.total
  rw [h1, h2]
  simp only [Option.bind_some]
  rw [show (Sym.mk ⟨s.data.total, s.data.head, Sym.new.data.pos⟩ Sym.new.calls) = Sym.mk ⟨s.data.total, s.data.head, []⟩ [] from rfl,
    writeSym_eq true _ _ s hw hr.2]
  obtain ⟨d, cs⟩ := s
  rw [Sym.llvm]
  rfl

theorem writeProfiles_eq (threshold : Nat) {m : SymMap} (hm : m.WF) (hr : ∀ x ∈ m, x.2.Writable) :
    writeProfiles threshold m = some ((m.filter fun x => Threshold.shouldEmit threshold x.2.data.total).map fun x => (x.1, x.2.llvm true)) := by
  have key : ∀ (xs : List (Name × Sym)) (acc : OMap Name FSamples), OMap.Sorted xs → (∀ x ∈ xs, ∀ y ∈ acc, y.1 < x.1) → (∀ x ∈ xs, x.2.WF ∧ x.2.Writable) →
      xs.foldlM (fun out x => (writeTop ((OMap.find? out x.1).getD Sym.new) x.2).map fun fs => OMap.set x.1 fs out) acc =
        some (acc ++ xs.map fun x => (x.1, x.2.llvm true)) := by
    intro xs
    induction xs with
    | nil => intro acc _ _ _; simp
    | cons x t ih =>
      intro acc hs hlt hx
      have hs' := List.pairwise_cons.1 hs
      have hl := hlt x (by simp)
      have hx1 := hx x (by simp)
      rw [List.foldlM_cons, find_none_lt _ _ hl, Option.getD_none, writeTop_eq hx1.1 hx1.2, Option.map_some, set_append _ _ _ hl]
      show List.foldlM _ (acc ++ [(x.1, x.2.llvm true)]) t = _
      rw [ih]
      · simp
      · exact hs'.2
      · intro y hy z hz
        rcases List.mem_append.1 hz with hz | hz
        · exact hlt y (by simp [hy]) z hz
        · rw [List.mem_singleton.1 hz]; exact hs'.1 y hy
      · exact fun y hy => hx y (by simp [hy])
  unfold writeProfiles
  rw [key]
  · simp
  · exact List.Pairwise.filter _ hm.1
  · intro x _ y hy; cases hy
  · intro x hx
    have := (List.mem_filter.1 hx).1
    exact ⟨hm.2 x this, hr x this⟩

/-! ### What is written -/

/-- What is written of an instance. -/
def Data.llvm (top : Bool) (d : Data) : Data := ⟨d.total, if top then d.head else 0, d.pos.map fun x => (x.1, ⟨x.2.count, 0, x.2.targets⟩)⟩

theorem llvmCalls_lookup (k : Callsite) : ∀ cs : List (Callsite × Sym), lookup (llvmCalls cs) k = (lookup cs k).map fun c => c.llvm false
  | [] => rfl
  | (k', c) :: t => by
    rw [llvmCalls, lookup, lookup, llvmCalls_lookup k t]
    split <;> rfl

theorem llvm_node (top : Bool) : ∀ (p : List Callsite) (s : Sym), (s.llvm top).node? p = (s.node? p).map (Data.llvm (top && p.isEmpty))
  | [], .mk d cs => by rw [Sym.llvm]; simp [Sym.node?, Sym.data, Data.llvm]
  | k :: p, .mk d cs => by
    rw [Sym.llvm]
    simp only [Sym.node?, Sym.calls]
    rw [llvmCalls_lookup]
    cases lookup cs k with
    | none => rfl
    | some c =>
      simp only [Option.map_some]
      rw [llvm_node false p c]
      simp

mutual
theorem llvm_nodes (top : Bool) : (s : Sym) → (s.llvm top).nodes = s.nodes.map fun x => (x.1, x.2.llvm (top && x.1.isEmpty))
  | .mk d cs => by
    rw [Sym.llvm, Sym.nodes, Sym.nodes, List.map_cons, llvm_nodesCalls cs]
    congr 1
    · simp [Data.llvm]
    · refine List.map_congr_left fun x hx => ?_
      have : x.1.isEmpty = false := by
        clear * - hx
        induction cs with
        | nil => rw [nodesCalls] at hx; cases hx
        | cons y t ih =>
          obtain ⟨k, c⟩ := y
          rw [nodesCalls, List.mem_append] at hx
          rcases hx with hx | hx
          · obtain ⟨z, _, rfl⟩ := List.mem_map.1 hx; rfl
          · exact ih hx
      rw [this, Bool.and_false]
theorem llvm_nodesCalls : (cs : List (Callsite × Sym)) → nodesCalls (llvmCalls cs) = (nodesCalls cs).map fun x => (x.1, x.2.llvm false)
  | [] => by rw [llvmCalls, nodesCalls]; rfl
  | (k, c) :: t => by
    rw [llvmCalls, nodesCalls, nodesCalls, llvm_nodes false c, llvm_nodesCalls t]
    simp [List.map_map, Function.comp_def]
end

theorem find_map_pos (f : PInfo → PInfo) (loc : Nat) : ∀ xs : PosMap, OMap.find? (xs.map fun x => (x.1, f x.2)) loc = (OMap.find? xs loc).map f
  | [] => rfl
  | (k, v) :: t => by
    rw [List.map_cons, OMap.find?, OMap.find?, find_map_pos f loc t]
    simp only
    split <;> rfl

mutual
theorem llvm_WF (top : Bool) : (s : Sym) → s.WF → (s.llvm top).WF
  | .mk d cs, h => by
    have hw := (Sym.WF_iff _).1 h
    rw [Sym.llvm]
    refine (Sym.WF_iff _).2 ⟨?_, ?_, ?_, llvmCalls_WF cs hw.2.2.2⟩
    · exact List.pairwise_map.2 hw.1
    · intro x hx
      obtain ⟨y, hy, rfl⟩ := List.mem_map.1 hx
      exact hw.2.1 y hy
    · show ((llvmCalls cs).map Prod.fst).Nodup
      rw [llvmCalls_keys]; exact hw.2.2.1
theorem llvmCalls_WF : (cs : List (Callsite × Sym)) → (∀ x ∈ cs, x.2.WF) → ∀ x ∈ llvmCalls cs, x.2.WF
  | [], _ => by rw [llvmCalls]; intro x hx; cases hx
  | (k, c) :: t, h => by
    rw [llvmCalls]
    intro x hx
    rcases List.mem_cons.1 hx with rfl | hx
    · exact llvm_WF false c (h (k, c) (by simp))
    · exact llvmCalls_WF t (fun y hy => h y (by simp [hy])) x hx
end

theorem llvm_ok {pol : Policy} (top : Bool) {s : Sym} (hw : s.WF) (hr : s.Writable) (he : s.TargetsElided pol) : FSOk pol (s.llvm top) := by
  refine ⟨llvm_WF top s hw, ?_, ?_⟩
  · intro x hx
    rw [llvm_nodes] at hx
    obtain ⟨y, hy, rfl⟩ := List.mem_map.1 hx
    have := hr.2 y hy
    refine ⟨fun k hk => ?_, fun z hz => ?_⟩
    · have := this.2 k hk; omega
    · obtain ⟨w, hw', rfl⟩ := List.mem_map.1 hz
      have := this.1.loc w hw'
      simp only; omega
  · intro x hx y hy t ht
    rw [llvm_nodes] at hx
    obtain ⟨x', hx', rfl⟩ := List.mem_map.1 hx
    obtain ⟨y', hy', rfl⟩ := List.mem_map.1 hy
    exact he x' hx' y' hy' t ht

theorem llvm_countAt (top : Bool) (s : Sym) (p : List Callsite) (loc : Nat) : (s.llvm top).countAt p loc = s.countAt p loc := by
  unfold Sym.countAt
  rw [llvm_node]
  cases s.node? p with
  | none => rfl
  | some d =>
    simp only [Option.map_some, Option.getD_some, Data.llvm]
    unfold PosMap.countAt
    rw [find_map_pos (fun i => ⟨i.count, 0, i.targets⟩)]
    cases OMap.find? d.pos loc <;> rfl

theorem llvm_hasLoc (top : Bool) (s : Sym) (p : List Callsite) (loc : Nat) : (s.llvm top).hasLoc p loc = s.hasLoc p loc := by
  unfold Sym.hasLoc
  rw [llvm_node]
  cases s.node? p with
  | none => rfl
  | some d =>
    simp only [Option.map_some, Option.bind_some, Data.llvm]
    rw [find_map_pos (fun i => ⟨i.count, 0, i.targets⟩)]
    cases OMap.find? d.pos loc <;> rfl

theorem llvm_target (top : Bool) (s : Sym) (p : List Callsite) (loc : Nat) (t : Name) : (s.llvm top).target? p loc t = s.target? p loc t := by
  unfold Sym.target?
  rw [llvm_node]
  cases s.node? p with
  | none => rfl
  | some d =>
    simp only [Option.map_some, Option.bind_some, Data.llvm]
    rw [find_map_pos (fun i => ⟨i.count, 0, i.targets⟩)]
    cases OMap.find? d.pos loc <;> rfl

theorem llvm_bodyBelow (top : Bool) (s : Sym) (p : List Callsite) : (s.llvm top).bodyBelow p = s.bodyBelow p := by
  unfold Sym.bodyBelow
  rw [llvm_nodes, List.filter_map, List.map_map]
  refine sum_map_congr _ _ _ fun x _ => ?_
  simp [Data.body, Data.llvm, List.map_map, Function.comp_def]

/-! ### The round trip -/

/-- What is left of the function `s` after writing and reading it (`s'`). -/
structure RoundTrip (s s' : Sym) : Prop where
  /-- instances are kept if there is a location in them or in something inlined into them -/
  node : ∀ p, p ≠ [] → ((s'.node? p).isSome = true ↔ ∃ q d, s.node? q = some d ∧ p <+: q ∧ d.pos ≠ [])
  count : ∀ p loc, s'.countAt p loc = s.countAt p loc
  target : ∀ p loc t, s'.targetAt p loc t = s.targetAt p loc t
  /-- the entry count of the function is kept, those of inlined instances are not -/
  head : ∀ p, s'.headAt p = if p = [] then s.data.head else 0
  /-- instruction counts are lost -/
  inst : ∀ p loc, s'.instAt p loc = if s.hasLoc p loc then 1 else 0
  /-- totals are recomputed -/
  total : ∀ p, p ≠ [] → s'.totalAt p = s.bodyBelow p
  total0 : s'.totalAt [] = if s.bodyBelow [] = 0 then s.data.total else s.bodyBelow []

theorem entries_perm_one {m : OMap Name FSamples} (hs : OMap.Sorted m) {xs : List (Name × FSamples)} (hp : xs.Perm m) (f : Name) :
    entries f xs = (OMap.find? m f).toList := by
  have h1 : (entries f xs).Perm (entries f m) := (hp.filter _).map _
  have h2 : entries f m = (OMap.find? m f).toList := by
    clear h1 hp
    unfold entries
    induction m with
    | nil => rfl
    | cons x t ih =>
      have hs' := List.pairwise_cons.1 hs
      rw [OMap.find?]
      by_cases h : f = x.1
      · rw [if_pos h, List.filter_cons_of_pos (by simpa using h.symm)]
        have : t.filter (fun x => decide (x.1 = f)) = [] := by
          rw [List.filter_eq_nil_iff]
          intro y hy e
          have e : y.1 = f := by simpa using e
          have := hs'.1 y hy
          rw [e, h] at this
          exact lt_irrefl _ this
        rw [this]; rfl
      · rw [if_neg h, List.filter_cons_of_neg (by simpa using Ne.symm h)]
        exact ih hs'.2
  rw [h2] at h1
  cases hf : OMap.find? m f with
  | none => rw [hf] at h1; exact h1.eq_nil
  | some s => rw [hf] at h1; exact List.perm_singleton.1 h1

theorem targetAt_eq (s : Sym) (p : List Callsite) (loc : Nat) (t : Name) : s.targetAt p loc t = (s.target? p loc t).getD 0 := by
  unfold Sym.targetAt Sym.target? PosMap.targetAt OMap.get0
  cases s.node? p with
  | none => rfl
  | some d =>
    simp only [Option.getD_some, Option.bind_some]
    cases OMap.find? d.pos loc <;> rfl

theorem find_filter {V : Type} {m : OMap Name V} (hs : OMap.Sorted m) (g : V → Bool) (f : Name) :
    OMap.find? (m.filter fun x => g x.2) f = (OMap.find? m f).filter g := by
  induction m with
  | nil => rfl
  | cons x t ih =>
    have hs' := List.pairwise_cons.1 hs
    rw [OMap.find?]
    by_cases hx : g x.2 = true
    · rw [List.filter_cons_of_pos (p := fun x : Name × V => g x.2) hx, OMap.find?]
      split
      · exact (show (some x.2 : Option V).filter g = some x.2 from by simp only [Option.filter, hx, if_true]).symm
      · exact ih hs'.2
    · rw [List.filter_cons_of_neg (p := fun x : Name × V => g x.2) hx, ih hs'.2]
      split
      · rename_i h
        rw [OMap.find?_eq_none_of_lt (fun y hy => by rw [h]; exact hs'.1 y hy)]
        exact (show (some x.2 : Option V).filter g = none from by simp only [Option.filter, hx]; rfl).symm
      · rfl

theorem find_map_snd {V W : Type} (g : V → W) (f : Name) : ∀ m : OMap Name V, OMap.find? (m.map fun x => (x.1, g x.2)) f = (OMap.find? m f).map g
  | [] => rfl
  | (k, v) :: t => by
    rw [List.map_cons, OMap.find?, OMap.find?, find_map_snd g f t]
    simp only
    split <;> rfl

/-- C56: a profile written in LLVM's format (with any threshold) and read back, the functions being read in any order. Writing does not
fail, nor does reading; exactly the functions whose total exceeds the threshold are there, and of those everything is as it was, but for
what `RoundTrip` says. -/
theorem llvm_round_trip (pol : Policy) (threshold : Nat) {m : SymMap} (hm : m.WF) (hr : ∀ x ∈ m, x.2.Writable) (he : ∀ x ∈ m, x.2.TargetsElided pol) :
    ∃ out, writeProfiles threshold m = some out ∧ ∀ xs, xs.Perm out → ∃ m', readProfiles pol none [] xs = some (m', []) ∧ m'.WF ∧
      ∀ f, ((OMap.find? m' f).isSome = true ↔ ∃ s, OMap.find? m f = some s ∧ s.data.total > threshold) ∧
        ∀ s, OMap.find? m f = some s → s.data.total > threshold → RoundTrip s (m'.get f) := by
  refine ⟨_, writeProfiles_eq threshold hm hr, fun xs hp => ?_⟩
  have hok : ∀ x ∈ xs, FSOk pol x.2 := by
    intro x hx
    obtain ⟨y, hy, rfl⟩ := List.mem_map.1 (hp.mem_iff.1 hx)
    have hy := (List.mem_filter.1 hy).1
    exact llvm_ok true (hm.2 y hy) (hr y hy) (he y hy)
  have h0 : SymMap.WF [] := ⟨List.Pairwise.nil, fun x hx => by cases hx⟩
  obtain ⟨m', e, w, h⟩ := read_profiles pol xs hok h0
  refine ⟨m', e, w, fun f => ?_⟩
  have hfs : OMap.Sorted (m.filter fun x => Threshold.shouldEmit threshold x.2.data.total) := List.Pairwise.filter _ hm.1
  have hent : entries f xs = (((OMap.find? m f).filter fun s => decide (s.data.total > threshold)).map fun s => s.llvm true).toList := by
    have hso : OMap.Sorted ((m.filter fun x => Threshold.shouldEmit threshold x.2.data.total).map fun x => (x.1, x.2.llvm true)) := List.pairwise_map.2 hfs
    rw [entries_perm_one hso hp f, find_map_snd (fun s : Sym => s.llvm true) f, find_filter hm.1 (fun s : Sym => Threshold.shouldEmit threshold s.data.total) f]
    rfl
  have hf := h f
  have hget : SymMap.get ([] : SymMap) f = Sym.new := rfl
  refine ⟨?_, fun s hs ht => ?_⟩
  · rw [hf.exists_, hent]
    cases hm' : OMap.find? m f with
    | none => simp [OMap.find?]
    | some s =>
      by_cases ht : s.data.total > threshold
      · simp [OMap.find?, ht]
      · simp [OMap.find?, ht]
  · have hent : entries f xs = [s.llvm true] := by rw [hent, hs]; simp [ht]
    have hnew : ∀ p, Sym.new.node? p = if p = [] then some Data.zero else none := by
      intro p; cases p <;> rfl
    refine ⟨?_, ?_, ?_, ?_, ?_, ?_, ?_⟩
    · intro p hp0
      rw [hf.node, hget, hent, hnew, if_neg hp0]
      simp only [Option.isSome_none, Bool.false_eq_true, false_or, List.mem_singleton, exists_eq_left]
      constructor
      · rintro ⟨q, d, h1, h2, h3⟩
        rw [llvm_node] at h1
        cases hq : s.node? q with
        | none => rw [hq] at h1; cases h1
        | some d' =>
          rw [hq] at h1
          injection h1 with h1
          refine ⟨q, d', hq, h2, fun e => h3 ?_⟩
          rw [← h1]
          simp [Data.llvm, e]
      · rintro ⟨q, d, h1, h2, h3⟩
        refine ⟨q, _, by rw [llvm_node, h1]; rfl, h2, ?_⟩
        simpa [Data.llvm] using h3
    · intro p loc
      rw [hf.count, hget, hent]
      have : Sym.new.countAt p loc = 0 := by unfold Sym.countAt; rw [hnew]; split <;> rfl
      simp [this, llvm_countAt]
    · intro p loc t
      rw [hf.target, hget, hent]
      have : Sym.new.targetAt p loc t = 0 := by unfold Sym.targetAt; rw [hnew]; split <;> rfl
      simp only [List.foldl_cons, List.foldl_nil, llvm_target, this, targetAt_eq s]
    · intro p
      rw [hf.head, hget, hent]
      have : Sym.new.headAt p = 0 := by unfold Sym.headAt; rw [hnew]; split <;> rfl
      rw [this]
      obtain ⟨d, cs⟩ := s
      simp [Sym.llvm, Sym.data]
    · intro p loc
      rw [hf.inst, hget, hent]
      have : Sym.new.instAt p loc = 0 := by unfold Sym.instAt; rw [hnew]; split <;> rfl
      rw [this]
      have := llvm_hasLoc true s p loc
      by_cases hl : s.hasLoc p loc = true
      · rw [if_pos hl, List.filter_cons_of_pos (p := fun s : FSamples => s.hasLoc p loc) (by rw [this]; exact hl)]; rfl
      · rw [if_neg hl, List.filter_cons_of_neg (p := fun s : FSamples => s.hasLoc p loc) (by rw [this]; exact hl)]; rfl
    · intro p hp0
      rw [hf.total p hp0, hget, hent]
      have : Sym.new.totalAt p = 0 := by unfold Sym.totalAt; rw [hnew]; split <;> rfl
      simp [this, llvm_bodyBelow]
    · rw [hf.total0, hget, hent]
      have : Sym.new.totalAt [] = 0 := rfl
      have hd : (s.llvm true).data.total = s.data.total := by obtain ⟨d, cs⟩ := s; rw [Sym.llvm]; rfl
      simp [this, llvm_bodyBelow, hd]

/-- C56: for a function whose totals are the counts in it and below, with a location in every instance, nothing but instruction counts and
entry counts of inlined instances is lost. -/
theorem llvm_round_trip_exact {s s' : Sym} (hw : s.WF) (h : RoundTrip s s') (ht : ∀ p d, s.node? p = some d → d.total = s.bodyBelow p)
    (hl : ∀ p d, s.node? p = some d → d.pos ≠ []) :
    ∀ p, ((s'.node? p).isSome = (s.node? p).isSome) ∧ s'.totalAt p = s.totalAt p ∧
      ∀ loc, s'.countAt p loc = s.countAt p loc ∧ ∀ t, s'.targetAt p loc t = s.targetAt p loc t := by
  have hroot : ∀ x : Sym, x.node? [] = some x.data := fun x => by cases x; rfl
  have hpre : ∀ (p q : List Callsite) (x : Sym), p <+: q → (x.node? q).isSome = true → (x.node? p).isSome = true := by
    intro p
    induction p with
    | nil => intro q x _ _; rw [hroot]; rfl
    | cons k p ih =>
      intro q x hp hq
      obtain ⟨r, rfl⟩ := hp
      rw [List.cons_append] at hq
      simp only [Sym.node?] at hq ⊢
      cases hc : lookup x.calls k with
      | none => rw [hc] at hq; exact hq
      | some c =>
        rw [hc] at hq
        exact ih _ c ⟨r, rfl⟩ hq
  intro p
  refine ⟨?_, ?_, fun loc => ⟨h.count p loc, h.target p loc⟩⟩
  · by_cases hp : p = []
    · subst hp; rw [hroot, hroot]; rfl
    · rw [Bool.eq_iff_iff, h.node p hp]
      constructor
      · rintro ⟨q, d, h1, h2, _⟩
        exact hpre p q s h2 (by rw [h1]; rfl)
      · intro hs
        obtain ⟨d, hd⟩ := Option.isSome_iff_exists.1 hs
        exact ⟨p, d, hd, List.prefix_refl p, hl p d hd⟩
  · by_cases hp : p = []
    · subst hp
      rw [h.total0]
      have := ht [] s.data (hroot s)
      unfold Sym.totalAt
      rw [hroot]
      simp only [Option.getD_some]
      split <;> omega
    · rw [h.total p hp]
      unfold Sym.totalAt
      cases hn : s.node? p with
      | some d => rw [Option.getD_some, ht p d hn]
      | none =>
        show s.bodyBelow p = 0
        by_contra hne
        have := (h.node p hp)
        -- nothing below an instance which does not exist
        unfold Sym.bodyBelow at hne
        have hall : ∀ x ∈ s.nodes.filter (fun x => p.isPrefixOf x.1), x.2.body = 0 := by
          intro x hx
          obtain ⟨hx, hpx⟩ := List.mem_filter.1 hx
          exact absurd hx (by
            intro hx
            have := hpre p x.1 s (by simpa using hpx) (by rw [(mem_nodes x.1 x.2 s hw).1 hx]; rfl)
            rw [hn] at this; cases this)
        exact hne (sum_zero _ _ hall)

end Verif.SymbolMap

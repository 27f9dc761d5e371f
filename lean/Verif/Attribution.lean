import Verif.AddSourceProps

/-!
# Attribution for arbitrary inline stacks (strengthens C15, C16)

`add_source_count_partial` asks every frame to carry line information.  Here every stack is covered:
attribution follows the call path of the stack as far as the outermost frames carry line information,
and the location is recorded there only if the innermost frame carries line information.  The effect
of a whole history of attributions, entry counts and call targets is given in closed form.
-/
namespace Verif.SymbolMap

/-- The part of the call path which is followed: when converting, the outermost frames that carry
line information; otherwise all of it. -/
def usedPath (conv : Bool) (src : List Frame) : List Callsite :=
  if conv then (callPath src).take (src.reverse.takeWhile (fun f => !f.invalid)).length
  else callPath src

theorem walk_eq_take (l : List Frame) :
    walk true l = ((l.zip l.tail).map (fun fg => (fg.1.off, fg.2.func))).take
      (l.takeWhile (fun f => !f.invalid)).length := by
  induction l with
  | nil => simp [walk]
  | cons f t ih =>
    cases t with
    | nil => simp [walk]
    | cons g t =>
      cases hf : f.invalid
      · simp only [walk, hf, Bool.and_false, Bool.false_eq_true, if_false, ih, List.takeWhile_cons,
          Bool.not_false, if_true, List.length_cons, List.tail_cons, List.zip_cons_cons,
          List.map_cons, List.take_succ_cons]
      · simp [walk, hf]

theorem walk_eq_usedPath (conv : Bool) (src : List Frame) :
    walk conv src.reverse = usedPath conv src := by
  unfold usedPath
  cases conv
  · rw [walk_eq_callPath false _ (Or.inl rfl)]; rfl
  · rw [walk_eq_take]; rfl

/-- With line information in all enclosing frames the whole call path is followed. -/
theorem usedPath_eq_callPath (conv : Bool) (src0 : Frame) (t : List Frame)
    (h : conv = false ∨ AllValid t) : usedPath conv (src0 :: t) = callPath (src0 :: t) := by
  unfold usedPath
  cases conv with
  | false => rfl
  | true =>
    rcases h with h | h
    · cases h
    · rw [if_pos rfl]
      apply List.take_of_length_le
      have h1 : ∀ a ∈ t.reverse, (fun f : Frame => !f.invalid) a = true := by
        intro a ha
        simp [h a (List.mem_reverse.1 ha)]
      have h2 : (callPath (src0 :: t)).length ≤ t.length := by
        unfold callPath
        simp
      rw [List.reverse_cons, List.takeWhile_append_of_pos h1, List.length_append,
        List.length_reverse]
      omega

/-- The stack is recorded at location `loc` of the inline instance `p`: the path followed ends in
`p`, and the innermost frame is at `loc` and carries line information (if that matters). -/
def lands (conv : Bool) (src : List Frame) (p : List Callsite) (loc : Nat) : Bool :=
  match src with
  | [] => false
  | src0 :: _ => decide (p = usedPath conv src) && decide (src0.off = loc) && !(conv && src0.invalid)

/-- The stack passes through the inline instance `p`. -/
def through (conv : Bool) (src : List Frame) (p : List Callsite) : Bool :=
  !src.isEmpty && p.isPrefixOf (usedPath conv src)

/-- One update of the profile. -/
inductive Op where
  | src (name : Name) (stack : List Frame) (count inst : Nat)
  | head (name : Name) (count : Nat)
  | target (name : Name) (stack : List Frame) (callee : Name) (count : Nat)

/-- The function updated. -/
def Op.name : Op → Name
  | .src n _ _ _ => n
  | .head n _ => n
  | .target n _ _ _ => n

/-- Perform one update. -/
def Op.run (pol : Policy) (ds : DataSource) (m : SymMap) : Op → Option SymMap
  | .src n s c i => addSourceCount m n s c i 1 false ds
  | .head n c => addSymbolEntryCount m n c 0
  | .target n s t c => (addIndirectCallTarget pol m n s t c ds).map Prod.fst

/-! ## Specification of the effect of one update -/

/-- What an update adds to the total of function `f`, inline path `p`. -/
def Op.total (conv : Bool) (f : Name) (p : List Callsite) : Op → Nat
  | .src n s c _ => if n = f ∧ through conv s p = true then c else 0
  | _ => 0

/-- What an update adds to the entry count. -/
def Op.entry (f : Name) (p : List Callsite) : Op → Nat
  | .head n c => if n = f ∧ p = [] then c else 0
  | _ => 0

/-- The count an update records at a location. -/
def Op.count (conv : Bool) (f : Name) (p : List Callsite) (loc : Nat) : Op → Nat
  | .src n s c _ => if n = f ∧ lands conv s p loc = true then c else 0
  | _ => 0

/-- The number of instructions an update adds to a location. -/
def Op.inst (conv : Bool) (f : Name) (p : List Callsite) (loc : Nat) : Op → Nat
  | .src n s _ i => if n = f ∧ lands conv s p loc = true then i else 0
  | _ => 0

/-- The call-target count after an update. -/
def Op.target' (pol : Policy) (conv : Bool) (f : Name) (p : List Callsite) (loc : Nat) (callee : Name)
    (old : Nat) : Op → Nat
  | .target n s t c =>
    if n = f ∧ lands conv s p loc = true ∧ callee = originalName pol t then c else old
  | _ => old

/-- Whether an update creates the inline instance `p` of `f`. -/
def Op.creates (conv : Bool) (f : Name) (p : List Callsite) : Op → Bool
  | .src n s _ _ => decide (n = f) && through conv s p
  | .target n s _ _ => decide (n = f) && through conv s p
  | .head _ _ => false

/-- The effect of one update, as observed from outside. -/
def Effect (pol : Policy) (conv : Bool) (o : Op) (m m' : SymMap) : Prop :=
  m'.WF ∧ (∀ f, (OMap.find? m' f).isSome = (OMap.find? m f).isSome) ∧
  ∀ f p, ((m'.get f).node? p).isSome = (((m.get f).node? p).isSome || o.creates conv f p) ∧
    (m'.get f).totalAt p = (m.get f).totalAt p + o.total conv f p ∧
    (m'.get f).headAt p = (m.get f).headAt p + o.entry f p ∧
    ∀ loc, (m'.get f).countAt p loc = combine conv ((m.get f).countAt p loc) (o.count conv f p loc) ∧
      (m'.get f).instAt p loc = (m.get f).instAt p loc + o.inst conv f p loc ∧
      ∀ n, (m'.get f).targetAt p loc n = o.target' pol conv f p loc n ((m.get f).targetAt p loc n)

theorem combine_zero (conv : Bool) (a : Nat) : combine conv a 0 = a := by
  cases conv <;> simp [combine]

theorem prefix_iff_through (conv : Bool) (src0 : Frame) (t : List Frame) (p : List Callsite) :
    through conv (src0 :: t) p = true ↔ p <+: usedPath conv (src0 :: t) := by
  simp [through]

/-- Observations of a symbol at a path are those of the data there. -/
theorem obs_of_node {s : Sym} {p : List Callsite} {d : Data} (h : s.node? p = some d) :
    s.totalAt p = d.total ∧ s.headAt p = d.head ∧ ∀ loc, s.countAt p loc = d.pos.countAt loc ∧
      s.instAt p loc = d.pos.instAt loc ∧ ∀ n, s.targetAt p loc n = d.pos.targetAt loc n := by
  simp [Sym.totalAt, Sym.headAt, Sym.countAt, Sym.instAt, Sym.targetAt, h]

theorem obs_nodeD (s : Sym) (p : List Callsite) :
    s.totalAt p = (s.nodeD p).total ∧ s.headAt p = (s.nodeD p).head ∧
      ∀ loc, s.countAt p loc = (s.nodeD p).pos.countAt loc ∧
      s.instAt p loc = (s.nodeD p).pos.instAt loc ∧
      ∀ n, s.targetAt p loc n = (s.nodeD p).pos.targetAt loc n := by
  simp [Sym.totalAt, Sym.headAt, Sym.countAt, Sym.instAt, Sym.targetAt, Sym.nodeD]

theorem src_effect (pol : Policy) (ds : DataSource) (m : SymMap) (hm : m.WF) (name : Name)
    (src : List Frame) (count inst : Nat) (hname : (OMap.find? m name).isSome) :
    ∃ m', addSourceCount m name src count inst 1 false ds = some m' ∧
      Effect pol ds.needConversion (.src name src count inst) m m' := by
  cases src with
  | nil =>
    refine ⟨m, rfl, hm, fun _ => rfl, fun f p => ⟨?_, ?_, ?_, fun loc => ⟨?_, ?_, fun n => ?_⟩⟩⟩ <;>
      simp [Op.creates, Op.total, Op.entry, Op.count, Op.inst, Op.target', through, lands, combine_zero]
  | cons src0 t =>
    cases hf : OMap.find? m name with
    | none => simp [hf] at hname
    | some s =>
      have hget : m.get name = s := by simp [SymMap.get, hf]
      have hs : s.WF := hget ▸ hm.get name
      refine ⟨_, by simp only [addSourceCount, hf]; rfl, ?_, ?_, ?_⟩
      · exact hm.set _ _ (addAlong_WF _ _ (fun d h1 h2 => leafCount_WF _ _ _ _ d h1 h2) _ _ hs)
      · intro f
        unfold OMap.set
        rw [OMap.find?_upsert hm.1]
        by_cases hfn : f = name
        · subst hfn; simp [hf]
        · simp [hfn]
      · intro f p
        rw [SymMap.get_set hm]
        by_cases hfn : f = name
        swap
        · have hfn' : ¬ name = f := fun h => hfn h.symm
          rw [if_neg hfn]
          refine ⟨?_, ?_, ?_, fun loc => ⟨?_, ?_, fun n => ?_⟩⟩ <;>
            simp [Op.creates, Op.total, Op.entry, Op.count, Op.inst, Op.target', hfn', combine_zero]
        subst hfn
        rw [if_pos rfl, hget, walk_eq_usedPath]
        simp only [ne_eq, not_true_eq_false, Bool.false_eq_true, and_false, if_false]
        have hnode := addAlong_node? count (leafCount ds.needConversion src0 count inst)
          (usedPath ds.needConversion (src0 :: t)) s p
        obtain ⟨o1, o2, o3⟩ := obs_nodeD s p
        have hsn : OMap.Sorted (s.nodeD p).pos := (hs.node p).1
        by_cases h1 : p = usedPath ds.needConversion (src0 :: t)
        · have h2 : through ds.needConversion (src0 :: t) p = true := by
            rw [prefix_iff_through, ← h1]; exact List.prefix_refl _
          rw [if_pos h1] at hnode
          obtain ⟨a1, a2, a3⟩ := obs_of_node hnode
          by_cases hv : (ds.needConversion && src0.invalid) = true
          · have hl : ∀ loc, lands ds.needConversion (src0 :: t) p loc = false := by
              intro loc; simp [lands, hv]
            simp only [leafCount, hv, if_true] at a1 a2 a3
            refine ⟨?_, ?_, ?_, fun loc => ⟨?_, ?_, fun n => ?_⟩⟩
            · rw [hnode]; simp [Op.creates, h2]
            · rw [a1, o1]; simp [Op.total, h2]
            · rw [a2, o2]; simp [Op.entry]
            · rw [(a3 loc).1, (o3 loc).1]; simp [Op.count, hl, combine_zero]
            · rw [(a3 loc).2.1, (o3 loc).2.1]; simp [Op.inst, hl]
            · rw [(a3 loc).2.2, (o3 loc).2.2]; simp [Op.target']
          · have hv' : ds.needConversion = false ∨ src0.invalid = false := by
              rw [Bool.and_eq_true, not_and_or] at hv
              simpa using hv
            obtain ⟨b1, b2, b3⟩ := leafCount_obs ds.needConversion src0 count inst
              { s.nodeD p with total := (s.nodeD p).total + count } hv' hsn
            have hl : ∀ loc, lands ds.needConversion (src0 :: t) p loc = true ↔ loc = src0.off := by
              intro loc
              simp only [lands, Bool.and_eq_true, decide_eq_true_eq, Bool.not_eq_true']
              constructor
              · exact fun h => h.1.2.symm
              · exact fun h => ⟨⟨h1, h.symm⟩, by simpa using hv⟩
            refine ⟨?_, ?_, ?_, fun loc => ⟨?_, ?_, fun n => ?_⟩⟩
            · rw [hnode]; simp [Op.creates, h2]
            · rw [a1, b1, o1]; simp [Op.total, h2]
            · rw [a2, b2, o2]; simp [Op.entry]
            · rw [(a3 loc).1, (b3 loc).1, (o3 loc).1]
              simp only [Op.count, hl, true_and]
              by_cases h : loc = src0.off
              · rw [if_pos h, if_pos h]
              · rw [if_neg h, if_neg h, combine_zero]
            · rw [(a3 loc).2.1, (b3 loc).2.1, (o3 loc).2.1]
              simp only [Op.inst, hl, true_and]
              by_cases h : loc = src0.off
              · rw [if_pos h, if_pos h]
              · rw [if_neg h, if_neg h, Nat.add_zero]
            · rw [(a3 loc).2.2, (b3 loc).2.2, (o3 loc).2.2]; simp [Op.target']
        · rw [if_neg h1] at hnode
          have hl : ∀ loc, lands ds.needConversion (src0 :: t) p loc = false := by
            intro loc; simp [lands, h1]
          by_cases h2 : p <+: usedPath ds.needConversion (src0 :: t)
          · rw [if_pos h2] at hnode
            have h2' := (prefix_iff_through ds.needConversion src0 t p).2 h2
            obtain ⟨a1, a2, a3⟩ := obs_of_node hnode
            refine ⟨?_, ?_, ?_, fun loc => ⟨?_, ?_, fun n => ?_⟩⟩
            · rw [hnode]; simp [Op.creates, h2']
            · rw [a1, o1]; simp [Op.total, h2']
            · rw [a2, o2]; simp [Op.entry]
            · rw [(a3 loc).1, (o3 loc).1]; simp [Op.count, hl, combine_zero]
            · rw [(a3 loc).2.1, (o3 loc).2.1]; simp [Op.inst, hl]
            · rw [(a3 loc).2.2, (o3 loc).2.2]; simp [Op.target']
          · rw [if_neg h2] at hnode
            have h2' : through ds.needConversion (src0 :: t) p = false := by
              rw [Bool.eq_false_iff, ne_eq, prefix_iff_through]; exact h2
            refine ⟨?_, ?_, ?_, fun loc => ⟨?_, ?_, fun n => ?_⟩⟩
            · rw [hnode]; simp [Op.creates, h2']
            · simp only [Sym.totalAt, hnode]; simp [Op.total, h2']
            · simp only [Sym.headAt, hnode]; simp [Op.entry]
            · simp only [Sym.countAt, hnode]; simp [Op.count, hl, combine_zero]
            · simp only [Sym.instAt, hnode]; simp [Op.inst, hl]
            · simp only [Sym.targetAt, hnode]; simp [Op.target']

theorem head_effect (pol : Policy) (conv : Bool) (m : SymMap) (hm : m.WF) (name : Name) (count : Nat)
    (hname : (OMap.find? m name).isSome) :
    ∃ m', addSymbolEntryCount m name count 0 = some m' ∧ Effect pol conv (.head name count) m m' := by
  cases hf : OMap.find? m name with
  | none => simp [hf] at hname
  | some s =>
    obtain ⟨d, cs⟩ := s
    have hget : m.get name = .mk d cs := by simp [SymMap.get, hf]
    have hs : (Sym.mk d cs).WF := hget ▸ hm.get name
    refine ⟨_, by simp only [addSymbolEntryCount, hf]; rfl, ?_, ?_, ?_⟩
    · refine hm.set _ _ ?_
      rw [Sym.WF_iff] at hs ⊢
      exact hs
    · intro f
      unfold OMap.set
      rw [OMap.find?_upsert hm.1]
      by_cases hfn : f = name
      · subst hfn; simp [hf]
      · simp [hfn]
    · intro f p
      rw [SymMap.get_set hm]
      by_cases hfn : f = name
      swap
      · have hfn' : ¬ name = f := fun h => hfn h.symm
        rw [if_neg hfn]
        refine ⟨?_, ?_, ?_, fun loc => ⟨?_, ?_, fun n => ?_⟩⟩ <;>
          simp [Op.creates, Op.total, Op.entry, Op.count, Op.inst, Op.target', hfn', combine_zero]
      subst hfn
      rw [if_pos rfl, hget]
      cases p with
      | nil =>
        refine ⟨?_, ?_, ?_, fun loc => ⟨?_, ?_, fun n => ?_⟩⟩ <;>
          simp [Op.creates, Op.total, Op.entry, Op.count, Op.inst, Op.target', combine_zero,
            Sym.node?, Sym.data, Sym.totalAt, Sym.headAt, Sym.countAt, Sym.instAt, Sym.targetAt]
      | cons k p =>
        refine ⟨?_, ?_, ?_, fun loc => ⟨?_, ?_, fun n => ?_⟩⟩ <;>
          simp [Op.creates, Op.total, Op.entry, Op.count, Op.inst, Op.target', combine_zero,
            Sym.node?, Sym.calls, Sym.totalAt, Sym.headAt, Sym.countAt, Sym.instAt, Sym.targetAt]

theorem leafTarget_WF (conv : Bool) (src0 : Frame) (tgt : Name) (count : Nat) (d : Data)
    (h1 : OMap.Sorted d.pos) (h2 : d.pos.TargetsOk) :
    OMap.Sorted (leafTarget conv src0 tgt count d).pos ∧
      (leafTarget conv src0 tgt count d).pos.TargetsOk := by
  unfold leafTarget
  split
  · exact ⟨h1, h2⟩
  · dsimp only
    refine ⟨PosMap.sorted_modify h1 _ _, ?_⟩
    refine PosMap.targetsOk_modify h1 h2 _ _ ?_
    intro p hp
    exact OMap.Sorted.upsert hp _ _

theorem leafTarget_obs (conv : Bool) (f : Frame) (tgt : Name) (count : Nat) (d : Data)
    (hv : (conv && f.invalid) = false) (hs : OMap.Sorted d.pos) (ht : d.pos.TargetsOk) :
    (leafTarget conv f tgt count d).total = d.total ∧
    (leafTarget conv f tgt count d).head = d.head ∧
    ∀ loc, (leafTarget conv f tgt count d).pos.countAt loc = d.pos.countAt loc ∧
      (leafTarget conv f tgt count d).pos.instAt loc = d.pos.instAt loc ∧
      ∀ n, (leafTarget conv f tgt count d).pos.targetAt loc n =
        if loc = f.off ∧ n = tgt then count else d.pos.targetAt loc n := by
  simp only [leafTarget, hv, Bool.false_eq_true, if_false, PosMap.countAt, PosMap.instAt,
    PosMap.targetAt, PosMap.find?_modify hs]
  refine ⟨trivial, trivial, ?_⟩
  intro loc
  by_cases hl : loc = f.off
  · subst hl
    simp only [if_true, Option.getD_some]
    refine ⟨trivial, trivial, ?_⟩
    intro n
    unfold OMap.get0 OMap.set
    rw [OMap.find?_upsert (PosMap.targetsOk_getD ht _)]
    by_cases hn : n = tgt <;> simp [hn]
  · refine ⟨by rw [if_neg hl], by rw [if_neg hl], ?_⟩
    intro n
    rw [if_neg hl, if_neg (fun h => hl h.1)]

theorem target_effect (pol : Policy) (ds : DataSource) (m : SymMap) (hm : m.WF) (name : Name)
    (src : List Frame) (callee : Name) (count : Nat) (hname : (OMap.find? m name).isSome) :
    ∃ m', addIndirectCallTarget pol m name src callee count ds =
        some (m', match src with
          | [] => false | src0 :: _ => !(ds.needConversion && src0.invalid)) ∧
      Effect pol ds.needConversion (.target name src callee count) m m' := by
  cases src with
  | nil =>
    refine ⟨m, rfl, hm, fun _ => rfl, fun f p => ⟨?_, ?_, ?_, fun loc => ⟨?_, ?_, fun n => ?_⟩⟩⟩ <;>
      simp [Op.creates, Op.total, Op.entry, Op.count, Op.inst, Op.target', through, lands, combine_zero]
  | cons src0 t =>
    cases hf : OMap.find? m name with
    | none => simp [hf] at hname
    | some s =>
      have hget : m.get name = s := by simp [SymMap.get, hf]
      have hs : s.WF := hget ▸ hm.get name
      refine ⟨_, by simp only [addIndirectCallTarget, hf]; rfl, ?_, ?_, ?_⟩
      · exact hm.set _ _ (addAlong_WF _ _ (fun d h1 h2 => leafTarget_WF _ _ _ _ d h1 h2) _ _ hs)
      · intro f
        unfold OMap.set
        rw [OMap.find?_upsert hm.1]
        by_cases hfn : f = name
        · subst hfn; simp [hf]
        · simp [hfn]
      · intro f p
        rw [SymMap.get_set hm]
        by_cases hfn : f = name
        swap
        · have hfn' : ¬ name = f := fun h => hfn h.symm
          rw [if_neg hfn]
          refine ⟨?_, ?_, ?_, fun loc => ⟨?_, ?_, fun n => ?_⟩⟩ <;>
            simp [Op.creates, Op.total, Op.entry, Op.count, Op.inst, Op.target', hfn', combine_zero]
        subst hfn
        rw [if_pos rfl, hget, walk_eq_usedPath]
        have hnode := addAlong_node? 0 (leafTarget ds.needConversion src0 (originalName pol callee) count)
          (usedPath ds.needConversion (src0 :: t)) s p
        obtain ⟨o1, o2, o3⟩ := obs_nodeD s p
        have hsn := hs.node p
        by_cases h1 : p = usedPath ds.needConversion (src0 :: t)
        · have h2 : through ds.needConversion (src0 :: t) p = true := by
            rw [prefix_iff_through, ← h1]; exact List.prefix_refl _
          rw [if_pos h1] at hnode
          obtain ⟨a1, a2, a3⟩ := obs_of_node hnode
          by_cases hv : (ds.needConversion && src0.invalid) = true
          · have hl : ∀ loc, lands ds.needConversion (src0 :: t) p loc = false := by
              intro loc; simp [lands, hv]
            simp only [leafTarget, hv, if_true] at a1 a2 a3
            refine ⟨?_, ?_, ?_, fun loc => ⟨?_, ?_, fun n => ?_⟩⟩
            · rw [hnode]; simp [Op.creates, h2]
            · rw [a1, o1]; simp [Op.total]
            · rw [a2, o2]; simp [Op.entry]
            · rw [(a3 loc).1, (o3 loc).1]; simp [Op.count, combine_zero]
            · rw [(a3 loc).2.1, (o3 loc).2.1]; simp [Op.inst]
            · rw [(a3 loc).2.2, (o3 loc).2.2]; simp [Op.target', hl]
          · have hv' : (ds.needConversion && src0.invalid) = false := by simpa using hv
            obtain ⟨b1, b2, b3⟩ := leafTarget_obs ds.needConversion src0 (originalName pol callee) count
              { s.nodeD p with total := (s.nodeD p).total + 0 } hv' hsn.1 hsn.2
            have hl : ∀ loc, lands ds.needConversion (src0 :: t) p loc = true ↔ loc = src0.off := by
              intro loc
              simp only [lands, Bool.and_eq_true, decide_eq_true_eq, Bool.not_eq_true']
              constructor
              · exact fun h => h.1.2.symm
              · exact fun h => ⟨⟨h1, h.symm⟩, by simpa using hv⟩
            refine ⟨?_, ?_, ?_, fun loc => ⟨?_, ?_, fun n => ?_⟩⟩
            · rw [hnode]; simp [Op.creates, h2]
            · rw [a1, b1, o1]; simp [Op.total]
            · rw [a2, b2, o2]; simp [Op.entry]
            · rw [(a3 loc).1, (b3 loc).1, (o3 loc).1]; simp [Op.count, combine_zero]
            · rw [(a3 loc).2.1, (b3 loc).2.1, (o3 loc).2.1]; simp [Op.inst]
            · rw [(a3 loc).2.2, (b3 loc).2.2, (o3 loc).2.2]
              simp only [Op.target', hl, true_and]
        · rw [if_neg h1] at hnode
          have hl : ∀ loc, lands ds.needConversion (src0 :: t) p loc = false := by
            intro loc; simp [lands, h1]
          by_cases h2 : p <+: usedPath ds.needConversion (src0 :: t)
          · rw [if_pos h2] at hnode
            have h2' := (prefix_iff_through ds.needConversion src0 t p).2 h2
            obtain ⟨a1, a2, a3⟩ := obs_of_node hnode
            refine ⟨?_, ?_, ?_, fun loc => ⟨?_, ?_, fun n => ?_⟩⟩
            · rw [hnode]; simp [Op.creates, h2']
            · rw [a1, o1]; simp [Op.total]
            · rw [a2, o2]; simp [Op.entry]
            · rw [(a3 loc).1, (o3 loc).1]; simp [Op.count, combine_zero]
            · rw [(a3 loc).2.1, (o3 loc).2.1]; simp [Op.inst]
            · rw [(a3 loc).2.2, (o3 loc).2.2]; simp [Op.target', hl]
          · rw [if_neg h2] at hnode
            have h2' : through ds.needConversion (src0 :: t) p = false := by
              rw [Bool.eq_false_iff, ne_eq, prefix_iff_through]; exact h2
            refine ⟨?_, ?_, ?_, fun loc => ⟨?_, ?_, fun n => ?_⟩⟩
            · rw [hnode]; simp [Op.creates, h2']
            · simp only [Sym.totalAt, hnode]; simp [Op.total]
            · simp only [Sym.headAt, hnode]; simp [Op.entry]
            · simp only [Sym.countAt, hnode]; simp [Op.count, combine_zero]
            · simp only [Sym.instAt, hnode]; simp [Op.inst]
            · simp only [Sym.targetAt, hnode]; simp [Op.target', hl]

/-- The effect of every update, for every stack. -/
theorem op_effect (pol : Policy) (ds : DataSource) (m : SymMap) (hm : m.WF) (o : Op)
    (hname : (OMap.find? m o.name).isSome) :
    ∃ m', o.run pol ds m = some m' ∧ Effect pol ds.needConversion o m m' := by
  cases o with
  | src n s c i => exact src_effect pol ds m hm n s c i hname
  | head n c => exact head_effect pol _ m hm n c hname
  | target n s t c =>
    obtain ⟨m', h1, h2⟩ := target_effect pol ds m hm n s t c hname
    exact ⟨m', by simp only [Op.run, h1, Option.map_some], h2⟩

/-- Perform updates in order. -/
def runOps (pol : Policy) (ds : DataSource) (m : SymMap) (ops : List Op) : Option SymMap :=
  ops.foldlM (Op.run pol ds) m

/-- The effect of a whole history of updates: totals, entry counts and instruction counts are sums,
location counts are combined (maximum or sum), the last recorded call-target count wins. -/
def History (pol : Policy) (conv : Bool) (ops : List Op) (m m' : SymMap) : Prop :=
  m'.WF ∧ (∀ f, (OMap.find? m' f).isSome = (OMap.find? m f).isSome) ∧
  ∀ f p, ((m'.get f).node? p).isSome =
      (((m.get f).node? p).isSome || ops.any (fun o => o.creates conv f p)) ∧
    (m'.get f).totalAt p = (m.get f).totalAt p + (ops.map (Op.total conv f p)).sum ∧
    (m'.get f).headAt p = (m.get f).headAt p + (ops.map (Op.entry f p)).sum ∧
    ∀ loc, (m'.get f).countAt p loc =
        (ops.map (Op.count conv f p loc)).foldl (combine conv) ((m.get f).countAt p loc) ∧
      (m'.get f).instAt p loc =
        (m.get f).instAt p loc + (ops.map (Op.inst conv f p loc)).sum ∧
      ∀ n, (m'.get f).targetAt p loc n =
        ops.foldl (fun old o => o.target' pol conv f p loc n old) ((m.get f).targetAt p loc n)

/-- C15, C16 (histories, every stack): see `History`. -/
theorem runOps_history (pol : Policy) (ds : DataSource) (m : SymMap) (hm : m.WF) (ops : List Op)
    (hops : ∀ o ∈ ops, (OMap.find? m o.name).isSome) :
    ∃ m', runOps pol ds m ops = some m' ∧ History pol ds.needConversion ops m m' := by
  induction ops generalizing m with
  | nil => exact ⟨m, rfl, hm, fun _ => rfl, fun f p => by simp⟩
  | cons o t ih =>
    obtain ⟨m1, e1, w1, k1, at1⟩ := op_effect pol ds m hm o (hops o List.mem_cons_self)
    obtain ⟨m', e2, w2, k2, at2⟩ := ih m1 w1 (fun b hb => by
      rw [k1]; exact hops b (List.mem_cons_of_mem _ hb))
    refine ⟨m', ?_, w2, fun f => by rw [k2, k1], ?_⟩
    · unfold runOps at e2 ⊢
      rw [List.foldlM_cons, e1]
      exact e2
    · intro f p
      obtain ⟨b1, b2, b3, b4⟩ := at1 f p
      obtain ⟨c1, c2, c3, c4⟩ := at2 f p
      refine ⟨?_, ?_, ?_, fun loc => ⟨?_, ?_, fun n => ?_⟩⟩
      · rw [c1, b1, List.any_cons, Bool.or_assoc]
      · rw [c2, b2, List.map_cons, List.sum_cons, Nat.add_assoc]
      · rw [c3, b3, List.map_cons, List.sum_cons, Nat.add_assoc]
      · rw [(c4 loc).1, (b4 loc).1, List.map_cons, List.foldl_cons]
      · rw [(c4 loc).2.1, (b4 loc).2.1, List.map_cons, List.sum_cons, Nat.add_assoc]
      · rw [(c4 loc).2.2, (b4 loc).2.2, List.foldl_cons]

end Verif.SymbolMap

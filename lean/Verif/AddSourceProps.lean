import Verif.AddSource
import Verif.MergeProps

/-!
# Properties C15 (attribution along an inline stack) and C16 (call-target counts)
-/
namespace Verif.SymbolMap

/-! ## Helper lemmas -/

/-- Data at a path, zero when absent. -/
def Sym.nodeD (s : Sym) (p : List Callsite) : Data := (s.node? p).getD Data.zero

theorem addAlong_node? (count : Nat) (leaf : Data → Data) (path : List Callsite) (s : Sym)
    (p : List Callsite) :
    (Sym.addAlong count leaf path s).node? p =
      if p = path then some (leaf { s.nodeD p with total := (s.nodeD p).total + count })
      else if p <+: path then some { s.nodeD p with total := (s.nodeD p).total + count }
      else s.node? p := by
  induction path generalizing s p with
  | nil =>
    cases s with
    | mk d cs =>
      cases p with
      | nil => simp [Sym.addAlong, Sym.node?, Sym.data, Sym.nodeD]
      | cons k p => simp [Sym.addAlong, Sym.node?, Sym.calls]
  | cons k path ih =>
    cases s with
    | mk d cs =>
      cases p with
      | nil => simp [Sym.addAlong, Sym.node?, Sym.data, Sym.nodeD]
      | cons k' p =>
        simp only [Sym.addAlong, Sym.node?, Sym.calls, lookup_modifyAt, Sym.nodeD]
        by_cases hk : k' = k
        · subst hk
          simp only [if_true, ih, List.cons.injEq, true_and, List.cons_prefix_cons]
          have : ((lookup cs k').getD Sym.new).nodeD p =
              (match lookup cs k' with | none => none | some c => c.node? p).getD Data.zero := by
            unfold Sym.nodeD
            cases lookup cs k' with
            | none => rw [Option.getD_none, Sym.new_node?]; split <;> simp
            | some c => simp
          rw [this]
          by_cases h1 : p = path
          · simp only [h1, if_true]; rfl
          · by_cases h2 : p <+: path
            · simp only [h1, h2, if_true, if_false]; rfl
            · simp only [h1, h2, if_false]
              cases lookup cs k' with
              | none =>
                rw [Option.getD_none, Sym.new_node?, if_neg]
                rintro rfl; exact h2 List.nil_prefix
              | some c => simp
        · simp [hk]

theorem addAlong_WF (count : Nat) (leaf : Data → Data)
    (hl : ∀ d : Data, OMap.Sorted d.pos → d.pos.TargetsOk →
      OMap.Sorted (leaf d).pos ∧ (leaf d).pos.TargetsOk) (path : List Callsite) (s : Sym)
    (h : s.WF) : (Sym.addAlong count leaf path s).WF := by
  induction path generalizing s with
  | nil =>
    cases s with
    | mk d cs =>
      rw [Sym.WF_iff] at h ⊢
      have := hl { d with total := d.total + count } h.1 h.2.1
      exact ⟨this.1, this.2, h.2.2⟩
  | cons k p ih =>
    cases s with
    | mk d cs =>
      rw [Sym.WF_iff] at h ⊢
      refine ⟨h.1, h.2.1, modifyAt_nodup h.2.2.1 _ _, ?_⟩
      refine WFCalls_modifyAt h.2.2.2 k _ ?_
      intro o ho
      cases o with
      | none => exact ih _ Sym.WF.new
      | some c => exact ih _ (ho c rfl)

/-! ## Specification -/

/-- The inline path described by a source stack (innermost frame first): each enclosing frame gives
the location of the call, the next inner one the callee. -/
def callPath (src : List Frame) : List Callsite :=
  (src.reverse.zip src.reverse.tail).map (fun fg => (fg.1.off, fg.2.func))

/-- All frames carry line information. -/
def AllValid (src : List Frame) : Prop := ∀ f ∈ src, f.invalid = false

theorem walk_eq_callPath (conv : Bool) (l : List Frame)
    (h : conv = false ∨ ∀ f ∈ l, f.invalid = false) :
    walk conv l = (l.zip l.tail).map (fun fg => (fg.1.off, fg.2.func)) := by
  induction l with
  | nil => simp [walk]
  | cons f t ih =>
    cases t with
    | nil => simp [walk]
    | cons g t =>
      have hf : (conv && f.invalid) = false := by
        rcases h with h | h
        · simp [h]
        · simp [h f List.mem_cons_self]
      have := ih (by
        rcases h with h | h
        · exact Or.inl h
        · exact Or.inr (fun x hx => h x (List.mem_cons_of_mem _ hx)))
      simp only [walk, hf, Bool.false_eq_true, if_false, this]
      simp

/-- What the location count becomes: maximum when converting perf data or protos, sum when reading
profiles. -/
def combine (conv : Bool) (old new : Nat) : Nat := if conv then Nat.max old new else old + new

theorem leafCount_obs (conv : Bool) (f : Frame) (count inst : Nat) (d : Data)
    (hv : conv = false ∨ f.invalid = false) (hs : OMap.Sorted d.pos) :
    (leafCount conv f count inst d).total = d.total ∧
    (leafCount conv f count inst d).head = d.head ∧
    ∀ loc, (leafCount conv f count inst d).pos.countAt loc =
        (if loc = f.off then combine conv (d.pos.countAt loc) count else d.pos.countAt loc) ∧
      (leafCount conv f count inst d).pos.instAt loc =
        (if loc = f.off then d.pos.instAt loc + inst else d.pos.instAt loc) ∧
      ∀ n, (leafCount conv f count inst d).pos.targetAt loc n = d.pos.targetAt loc n := by
  have hf : (conv && f.invalid) = false := by rcases hv with h | h <;> simp [h]
  unfold leafCount
  simp only [hf, Bool.false_eq_true, if_false]
  refine ⟨trivial, trivial, ?_⟩
  intro loc
  simp only [PosMap.countAt, PosMap.instAt, PosMap.targetAt, PosMap.find?_modify hs]
  by_cases h : loc = f.off
  · subst h
    simp only [if_true, Option.getD_some]
    refine ⟨?_, trivial, fun _ => trivial⟩
    unfold combine
    cases conv
    · simp
    · simp only [if_true]
      split
      · exact (Nat.max_eq_right (by omega)).symm
      · exact (Nat.max_eq_left (by omega)).symm
  · simp [h]

theorem leafCount_WF (conv : Bool) (f : Frame) (count inst : Nat) (d : Data) (hs : OMap.Sorted d.pos)
    (ht : d.pos.TargetsOk) : OMap.Sorted (leafCount conv f count inst d).pos ∧
      (leafCount conv f count inst d).pos.TargetsOk := by
  unfold leafCount
  split
  · exact ⟨hs, ht⟩
  · dsimp only
    refine ⟨PosMap.sorted_modify hs _ _, ?_⟩
    refine PosMap.targetsOk_modify hs ht _ _ ?_
    intro p hp
    exact hp

/-- All symbols of a map are well formed. -/
def SymMap.WF (m : SymMap) : Prop := OMap.Sorted m ∧ ∀ p ∈ m, p.2.WF

/-- The symbol of a function, empty when absent. -/
def SymMap.get (m : SymMap) (f : Name) : Sym := (OMap.find? m f).getD Sym.new

theorem SymMap.WF.get {m : SymMap} (h : m.WF) (f : Name) : (m.get f).WF := by
  unfold SymMap.get
  cases hf : OMap.find? m f with
  | none => exact Sym.WF.new
  | some s => exact h.2 _ (OMap.mem_of_find?_some hf)

theorem SymMap.WF.set {m : SymMap} (h : m.WF) (f : Name) (s : Sym) (hs : s.WF) :
    SymMap.WF (OMap.set f s m) := by
  refine ⟨OMap.Sorted.upsert h.1 _ _, ?_⟩
  intro p hp
  have h1 := OMap.find?_some_of_mem (OMap.Sorted.upsert h.1 _ _) hp
  rw [OMap.find?_upsert h.1] at h1
  by_cases hk : p.1 = f
  · rw [if_pos hk] at h1; cases h1; exact hs
  · rw [if_neg hk] at h1; exact h.2 _ (OMap.mem_of_find?_some h1)

theorem SymMap.get_set {m : SymMap} (h : m.WF) (f g : Name) (s : Sym) :
    SymMap.get (OMap.set f s m) g = if g = f then s else m.get g := by
  unfold SymMap.get OMap.set
  rw [OMap.find?_upsert h.1]
  split <;> simp

/-- The effect of attributing `count` samples of `inst` instructions to `src`, as observed through
function `f`, path `p` and location `loc`; `conv` selects maximum or sum. -/
def Attributed (conv : Bool) (name : Name) (src : List Frame) (count inst : Nat) (m m' : SymMap) :
    Prop :=
  ∀ f p, (m'.get f).totalAt p =
      (m.get f).totalAt p + (if f = name ∧ p <+: callPath src then count else 0) ∧
    (m'.get f).headAt p = (m.get f).headAt p ∧
    ∀ loc, (m'.get f).countAt p loc =
        (if f = name ∧ p = callPath src ∧ src.head?.map Frame.off = some loc
          then combine conv ((m.get f).countAt p loc) count else (m.get f).countAt p loc) ∧
      (m'.get f).instAt p loc = (m.get f).instAt p loc +
        (if f = name ∧ p = callPath src ∧ src.head?.map Frame.off = some loc then inst else 0) ∧
      ∀ n, (m'.get f).targetAt p loc n = (m.get f).targetAt p loc n

theorem addAlong_attr (conv : Bool) (src0 : Frame) (t : List Frame) (count inst : Nat) (s : Sym)
    (hs : s.WF) (hv : conv = false ∨ AllValid (src0 :: t)) (p : List Callsite) :
    let s' := Sym.addAlong count (leafCount conv src0 count inst) (walk conv (src0 :: t).reverse) s
    s'.totalAt p = s.totalAt p + (if p <+: callPath (src0 :: t) then count else 0) ∧
    s'.headAt p = s.headAt p ∧
    ∀ loc, s'.countAt p loc = (if p = callPath (src0 :: t) ∧ src0.off = loc
          then combine conv (s.countAt p loc) count else s.countAt p loc) ∧
      s'.instAt p loc = s.instAt p loc +
        (if p = callPath (src0 :: t) ∧ src0.off = loc then inst else 0) ∧
      ∀ n, s'.targetAt p loc n = s.targetAt p loc n := by
  have hw : walk conv (src0 :: t).reverse = callPath (src0 :: t) := by
    rw [walk_eq_callPath]
    · rfl
    · rcases hv with h | h
      · exact Or.inl h
      · exact Or.inr (fun f hf => h f (List.mem_reverse.1 hf))
  intro s'
  have hnode : s'.node? p = _ := addAlong_node? count (leafCount conv src0 count inst) _ s p
  rw [hw] at hnode
  have hsn := hs.node p
  have hv0 : conv = false ∨ src0.invalid = false := by
    rcases hv with h | h
    · exact Or.inl h
    · exact Or.inr (h _ List.mem_cons_self)
  simp only [Sym.totalAt, Sym.headAt, Sym.countAt, Sym.instAt, Sym.targetAt, hnode]
  by_cases h1 : p = callPath (src0 :: t)
  · have h2 : p <+: callPath (src0 :: t) := by rw [h1]; exact List.prefix_refl _
    obtain ⟨a1, a2, a3⟩ := leafCount_obs conv src0 count inst
      { s.nodeD p with total := (s.nodeD p).total + count } hv0 hsn.1
    rw [if_pos h1, if_pos h2]
    simp only [Option.getD_some]
    refine ⟨by rw [a1]; rfl, by rw [a2]; rfl, ?_⟩
    intro loc
    obtain ⟨b1, b2, b3⟩ := a3 loc
    refine ⟨?_, ?_, ?_⟩
    · rw [b1]
      by_cases hl : loc = src0.off
      · rw [if_pos hl, if_pos ⟨h1, hl.symm⟩]; rfl
      · rw [if_neg hl, if_neg (fun h => hl h.2.symm)]; rfl
    · rw [b2]
      by_cases hl : loc = src0.off
      · rw [if_pos hl, if_pos ⟨h1, hl.symm⟩]; rfl
      · rw [if_neg hl, if_neg (fun h => hl h.2.symm)]; rfl
    · intro n; rw [b3]; rfl
  · rw [if_neg h1]
    by_cases h2 : p <+: callPath (src0 :: t)
    · rw [if_pos h2]
      simp [h1, h2, Sym.nodeD]
    · rw [if_neg h2]
      simp [h1, h2]

/-- C15 (one attribution), for stacks whose frames all carry line information when converting perf
data or protos, and for all stacks when reading a profile: the count (times the duplication factor if
enabled) is added to the total of every function on the stack and to nothing else, and only the
innermost function's location count changes, to the maximum resp. sum. -/
theorem add_source_count_partial (m : SymMap) (hm : m.WF) (name : Name) (src : List Frame)
    (count inst dup : Nat) (mul : Bool) (ds : DataSource)
    (hname : (OMap.find? m name).isSome) (hsrc : src ≠ [])
    (hv : ds.needConversion = false ∨ AllValid src) :
    ∃ m', addSourceCount m name src count inst dup mul ds = some m' ∧ m'.WF ∧
      Attributed ds.needConversion name src (if mul then count * dup else count) inst m m' ∧
      (∀ f, (OMap.find? m' f).isSome = (OMap.find? m f).isSome) := by
  cases src with
  | nil => exact absurd rfl hsrc
  | cons src0 t =>
    cases hf : OMap.find? m name with
    | none => simp [hf] at hname
    | some s =>
      have hc : (if dup ≠ 1 ∧ mul = true then count * dup else count) =
          (if mul then count * dup else count) := by
        cases mul <;> by_cases h : dup = 1 <;> simp [h]
      have hget : m.get name = s := by simp [SymMap.get, hf]
      have hs : s.WF := hget ▸ hm.get name
      refine ⟨_, by simp only [addSourceCount, hf, hc]; rfl, ?_, ?_, ?_⟩
      · exact hm.set _ _ (addAlong_WF _ _ (fun d h1 h2 => leafCount_WF _ _ _ _ d h1 h2) _ _ hs)
      · intro f p
        rw [SymMap.get_set hm]
        by_cases hfn : f = name
        · subst hfn
          rw [hget, if_pos rfl]
          have := addAlong_attr ds.needConversion src0 t (if mul then count * dup else count) inst s
            hs hv p
          simpa using this
        · simp [hfn]
      · intro f
        unfold OMap.set
        rw [OMap.find?_upsert hm.1]
        by_cases hfn : f = name
        · subst hfn; simp [hf]
        · simp [hfn]

/-- C15: an empty stack changes nothing. -/
theorem add_source_count_empty (m : SymMap) (name : Name) (count inst dup : Nat) (mul : Bool)
    (ds : DataSource) : addSourceCount m name [] count inst dup mul ds = some m := rfl

/-- A valid frame `f` at line 2 of a function starting at line 1. -/
def vframe (f : Name) : Frame := ⟨f, 1, 2, 0⟩
/-- A frame without line information. -/
def iframe (f : Name) : Frame := ⟨f, 0, 0, 0⟩

/-- C15 violated: if an enclosing frame lacks line information, perf data attribution stops at the
frame's function (here the outer function `a`) and records the innermost frame's location there,
although the innermost function is `c`. -/
theorem add_source_count_violated :
    ∃ m', addSourceCount [([97], Sym.new)] [97] [vframe [99], iframe [98], vframe [97]] 7 1 1 false
        .perfData = some m' ∧
      (m'.get [97]).countAt [((vframe [97]).off, [98])] (vframe [99]).off = 7 ∧
      (m'.get [97]).totalAt (callPath [vframe [99], iframe [98], vframe [97]]) = 0 := by
  refine ⟨_, rfl, ?_, ?_⟩ <;> decide +kernel

example : ∃ m : SymMap, m.WF ∧ (OMap.find? m [97]).isSome ∧
    AllValid [vframe [98], vframe [97]] := by
  refine ⟨[([97], Sym.new)], ⟨by simp [OMap.Sorted], by simp [Sym.WF.new]⟩, by decide, ?_⟩
  intro f hf
  simp only [List.mem_cons, List.not_mem_nil, or_false] at hf
  rcases hf with rfl | rfl <;> decide

/-! ## Whole histories -/

/-- One attribution of a sample. -/
structure Attribution where
  name : Name
  src : List Frame
  count : Nat
  inst : Nat

/-- Attribute a list of samples in order (no duplication factor). -/
def addAllSources (ds : DataSource) (m : SymMap) (xs : List Attribution) : Option SymMap :=
  xs.foldlM (fun m a => addSourceCount m a.name a.src a.count a.inst 1 false ds) m

/-- The records that fall on function `f`, inline path `p`, location `loc`. -/
def hits (xs : List Attribution) (f : Name) (p : List Callsite) (loc : Nat) : List Nat :=
  (xs.filter (fun a => a.name = f ∧ callPath a.src = p ∧ a.src.head?.map Frame.off = some loc)).map
    Attribution.count

/-- The records that pass through function `f`, inline path `p`. -/
def passes (xs : List Attribution) (f : Name) (p : List Callsite) : List Nat :=
  (xs.filter (fun a => a.name = f ∧ p.isPrefixOf (callPath a.src))).map Attribution.count

/-- C15 (histories): after attributing any list of samples to an empty profile of the given
functions, the total of every inline instance is the sum of the counts that passed through it, and
every location count is the maximum (perf data) or the sum (profile input) of the counts recorded
exactly there — whatever their order.  Same restriction to frames with line information. -/
theorem add_all_sources_partial (ds : DataSource) (m : SymMap) (hm : m.WF)
    (xs : List Attribution)
    (hx : ∀ a ∈ xs, (OMap.find? m a.name).isSome ∧ a.src ≠ [] ∧
      (ds.needConversion = false ∨ AllValid a.src)) :
    ∃ m', addAllSources ds m xs = some m' ∧ m'.WF ∧
      ∀ f p, (m'.get f).totalAt p = (m.get f).totalAt p + (passes xs f p).sum ∧
        ∀ loc, (m'.get f).countAt p loc =
          (if ds.needConversion then (hits xs f p loc).foldl Nat.max ((m.get f).countAt p loc)
            else (m.get f).countAt p loc + (hits xs f p loc).sum) := by
  induction xs generalizing m with
  | nil => exact ⟨m, rfl, hm, fun f p => ⟨by simp [passes], fun loc => by simp [hits]⟩⟩
  | cons a t ih =>
    obtain ⟨h1, h2, h3⟩ := hx a List.mem_cons_self
    obtain ⟨m1, e1, w1, at1, k1⟩ :=
      add_source_count_partial m hm a.name a.src a.count a.inst 1 false ds h1 h2 h3
    obtain ⟨m', e2, w2, at2⟩ := ih m1 w1 (fun b hb => by
      have := hx b (List.mem_cons_of_mem _ hb)
      rw [k1]; exact this)
    refine ⟨m', ?_, w2, ?_⟩
    · unfold addAllSources at e2 ⊢
      rw [List.foldlM_cons, e1]
      exact e2
    · intro f p
      obtain ⟨b1, _, b3⟩ := at1 f p
      obtain ⟨c1, c2⟩ := at2 f p
      refine ⟨?_, ?_⟩
      · rw [c1, b1]
        unfold passes
        rw [List.filter_cons]
        by_cases hc : a.name = f ∧ p.isPrefixOf (callPath a.src) = true
        · have hd : f = a.name ∧ p <+: callPath a.src :=
            ⟨hc.1.symm, List.isPrefixOf_iff_prefix.1 hc.2⟩
          simp only [if_pos hd, decide_eq_true hc, if_true, List.map_cons, List.sum_cons,
            Bool.false_eq_true, if_false]
          omega
        · have hd : ¬ (f = a.name ∧ p <+: callPath a.src) := fun h =>
            hc ⟨h.1.symm, List.isPrefixOf_iff_prefix.2 h.2⟩
          simp only [if_neg hd, decide_eq_false hc, Bool.false_eq_true, if_false]
          omega
      · intro loc
        rw [c2, (b3 loc).1]
        unfold hits
        rw [List.filter_cons]
        by_cases hc : a.name = f ∧ callPath a.src = p ∧ a.src.head?.map Frame.off = some loc
        · have hd : f = a.name ∧ p = callPath a.src ∧ a.src.head?.map Frame.off = some loc :=
            ⟨hc.1.symm, hc.2.1.symm, hc.2.2⟩
          simp only [if_pos hd, decide_eq_true hc, if_true, List.map_cons, List.foldl_cons,
            List.sum_cons, Bool.false_eq_true, if_false]
          cases ds.needConversion
          · simp [combine]; omega
          · simp [combine]
        · have hd : ¬ (f = a.name ∧ p = callPath a.src ∧ a.src.head?.map Frame.off = some loc) :=
            fun h => hc ⟨h.1.symm, h.2.1.symm, h.2.2⟩
          simp only [if_neg hd, decide_eq_false hc, Bool.false_eq_true, if_false]

/-! ## C16 -/

/-- C16 violated: recording a target twice keeps only the last count. -/
theorem indirect_target_accumulates_violated :
    ∃ m1 m2, addIndirectCallTarget .none [([97], Sym.new)] [97] [vframe [97]] [98] 5 .afdoProfile =
        some (m1, true) ∧
      addIndirectCallTarget .none m1 [97] [vframe [97]] [98] 3 .afdoProfile = some (m2, true) ∧
      (m2.get [97]).targetAt [] (vframe [97]).off [98] = 3 := by
  refine ⟨_, _, rfl, rfl, ?_⟩
  decide +kernel

/-- C16, what does hold: recording a call target at a stack with line information sets the count of
that target (under its base name) at that location of the innermost function, and changes no other
count; so counts only add up if the target was not recorded there before. -/
theorem indirect_target_partial (pol : Policy) (m : SymMap) (hm : m.WF) (name : Name)
    (src : List Frame) (target : Name) (count : Nat) (ds : DataSource)
    (hname : (OMap.find? m name).isSome) (hsrc : src ≠ [])
    (hv : ds.needConversion = false ∨ AllValid src) :
    ∃ m', addIndirectCallTarget pol m name src target count ds = some (m', true) ∧ m'.WF ∧
      ∀ f p, (m'.get f).totalAt p = (m.get f).totalAt p ∧
        (m'.get f).headAt p = (m.get f).headAt p ∧
        ∀ loc, (m'.get f).countAt p loc = (m.get f).countAt p loc ∧
          (m'.get f).instAt p loc = (m.get f).instAt p loc ∧
          ∀ n, (m'.get f).targetAt p loc n =
            if f = name ∧ p = callPath src ∧ src.head?.map Frame.off = some loc ∧
              n = originalName pol target then count else (m.get f).targetAt p loc n := by
  cases src with
  | nil => exact absurd rfl hsrc
  | cons src0 t =>
    cases hf : OMap.find? m name with
    | none => simp [hf] at hname
    | some s =>
      have hget : m.get name = s := by simp [SymMap.get, hf]
      have hs : s.WF := hget ▸ hm.get name
      have hv0 : (ds.needConversion && src0.invalid) = false := by
        rcases hv with h | h
        · simp [h]
        · simp [h src0 List.mem_cons_self]
      have hw : walk ds.needConversion (src0 :: t).reverse = callPath (src0 :: t) := by
        rw [walk_eq_callPath]
        · rfl
        · rcases hv with h | h
          · exact Or.inl h
          · exact Or.inr (fun f hf => h f (List.mem_reverse.1 hf))
      have hlw : ∀ d : Data, OMap.Sorted d.pos → d.pos.TargetsOk →
          OMap.Sorted (leafTarget ds.needConversion src0 (originalName pol target) count d).pos ∧
          (leafTarget ds.needConversion src0 (originalName pol target) count d).pos.TargetsOk := by
        intro d h1 h2
        unfold leafTarget
        simp only [hv0, Bool.false_eq_true, if_false]
        refine ⟨PosMap.sorted_modify h1 _ _, ?_⟩
        refine PosMap.targetsOk_modify h1 h2 _ _ ?_
        intro p hp
        exact OMap.Sorted.upsert hp _ _
      refine ⟨_, by simp only [addIndirectCallTarget, hf, hv0, Bool.not_false]; rfl, ?_, ?_⟩
      · exact hm.set _ _ (addAlong_WF _ _ hlw _ _ hs)
      · intro f p
        rw [SymMap.get_set hm]
        by_cases hfn : f = name
        · subst hfn
          rw [hget, if_pos rfl, hw]
          have hsn := hs.node p
          simp only [Sym.totalAt, Sym.headAt, Sym.countAt, Sym.instAt, Sym.targetAt, addAlong_node?]
          by_cases h1 : p = callPath (src0 :: t)
          · rw [if_pos h1]
            simp only [Option.getD_some, leafTarget, hv0, Bool.false_eq_true, if_false,
              PosMap.countAt, PosMap.instAt, PosMap.targetAt, PosMap.find?_modify hsn.1, Sym.nodeD]
            refine ⟨by simp, trivial, ?_⟩
            intro loc
            by_cases hl : loc = src0.off
            · subst hl
              simp only [if_true, Option.getD_some]
              refine ⟨trivial, trivial, ?_⟩
              intro n
              unfold OMap.get0 OMap.set
              rw [OMap.find?_upsert (PosMap.targetsOk_getD hsn.2 _)]
              by_cases hn : n = originalName pol target <;> simp [hn, h1]
            · refine ⟨by rw [if_neg hl], by rw [if_neg hl], ?_⟩
              intro n
              rw [if_neg hl, if_neg]
              rintro ⟨_, _, h, _⟩
              simp only [List.head?_cons, Option.map_some, Option.some.injEq] at h
              exact hl h.symm
          · rw [if_neg h1]
            by_cases h2 : p <+: callPath (src0 :: t)
            · rw [if_pos h2]
              simp [h1, Sym.nodeD]
            · rw [if_neg h2]
              simp [h1]
        · simp [hfn]

end Verif.SymbolMap

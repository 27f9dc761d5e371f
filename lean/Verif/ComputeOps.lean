import Verif.ComputeAgg
import Mathlib.Algebra.BigOperators.Group.List.Basic

/-!
# Profile computation as a history of updates (second part of C53)
-/
namespace Verif.Compute
open Verif Verif.SymbolMap Verif.AddrLookup Verif.Sample

/-- Duplication factor of an address (1 without source information). -/
def dupAt (b : Bin) (a : Nat) : Nat :=
  match b.stack a with
  | [] => 1
  | _ :: _ => b.dup a

/-- Count after applying the duplication factor. -/
def scale (b : Bin) (c : Cfg) (a n : Nat) : Nat := if c.mul then n * dupAt b a else n

/-- Updates of `buildInst`. -/
def instOps (b : Bin) (p : Name × FnMaps) : List Op :=
  (List.range' p.2.start (p.2.stop - p.2.start)).map (fun a => Op.src p.1 (b.stack a) 0 1)

/-- Updates of the weight loop. -/
def weightOps (b : Bin) (c : Cfg) (p : Name × FnMaps) : List Op :=
  ((weights c.lbr p.2).filter (fun e => p.2.has e.1)).map
    (fun e => Op.src p.1 (b.stack e.1) (scale b c e.1 e.2) 0)

/-- Updates for one branch. -/
def branchOp (b : Bin) (E : Name → Bool) (p : Name × FnMaps) (e : Pair × Nat) : List Op :=
  if p.2.has (ofLex e.1).1 then
    match nameByStart b.syms (ofLex e.1).2 with
    | none => []
    | some callee =>
      if E callee then [Op.head callee e.2, Op.target p.1 (b.stack (ofLex e.1).1) callee e.2] else []
  else []

/-- Updates of `process`, when `E` are the functions of the profile. -/
def opsOf (b : Bin) (c : Cfg) (E : Name → Bool) (p : Name × FnMaps) : List Op :=
  instOps b p ++ if c.lbr = true ∧ p.2.maps.range.isEmpty = true then []
    else weightOps b c p ++ p.2.maps.branch.flatMap (branchOp b E p)

theorem runOps_append (pol : Policy) (ds : DataSource) (m : SymMap) (a l : List Op) :
    runOps pol ds m (a ++ l) = (runOps pol ds m a).bind (fun m => runOps pol ds m l) := by
  unfold runOps
  rw [List.foldlM_append]
  rfl

theorem runOps_cons (pol : Policy) (ds : DataSource) (m : SymMap) (o : Op) (l : List Op) :
    runOps pol ds m (o :: l) = (o.run pol ds m).bind (fun m => runOps pol ds m l) := rfl

theorem foldlM_cons' {A B : Type} (f : B → A → Option B) (m : B) (x : A) (l : List A) :
    (x :: l).foldlM f m = (f m x).bind (fun m => l.foldlM f m) := by
  rw [List.foldlM_cons]; rfl

theorem buildInst_eq (b : Bin) (pol : Policy) (p : Name × FnMaps) (m : SymMap) :
    buildInst b p.1 p.2 m = runOps pol .perfData m (instOps b p) := by
  unfold buildInst instOps runOps
  rw [List.foldlM_map]
  rfl

theorem addSourceCount_scale (m : SymMap) (n : Name) (s : List Frame) (c i d : Nat) (mul : Bool)
    (ds : DataSource) : addSourceCount m n s c i d mul ds =
      addSourceCount m n s (if mul then c * d else c) i 1 false ds := by
  have h : (if d ≠ 1 ∧ mul = true then c * d else c) = if mul then c * d else c := by
    cases mul <;> by_cases h : d = 1 <;> simp [h]
  unfold addSourceCount
  rw [h]
  simp

theorem weightStep_one (b : Bin) (c : Cfg) (p : Name × FnMaps) (m : SymMap) (e : Nat × Nat)
    (h : p.2.has e.1 = true) : weightStep b c p.1 p.2 m e =
      addSourceCount m p.1 (b.stack e.1) (scale b c e.1 e.2) 0 1 false .perfData := by
  unfold weightStep
  rw [if_pos h]
  cases hs : b.stack e.1 with
  | nil => rfl
  | cons f t =>
    simp only
    rw [addSourceCount_scale, scale, dupAt, hs]

theorem weightStep_eq (b : Bin) (c : Cfg) (p : Name × FnMaps) (m : SymMap) (l : List (Nat × Nat)) :
    l.foldlM (weightStep b c p.1 p.2) m = runOps c.pol .perfData m
      ((l.filter (fun e => p.2.has e.1)).map
        (fun e => Op.src p.1 (b.stack e.1) (scale b c e.1 e.2) 0)) := by
  induction l generalizing m with
  | nil => rfl
  | cons e t ih =>
    rw [foldlM_cons', List.filter_cons]
    cases h : p.2.has e.1
    · have : weightStep b c p.1 p.2 m e = some m := by simp [weightStep, h]
      rw [this]
      simp only [Bool.false_eq_true, if_false, Option.bind_some]
      exact ih m
    · simp only [if_true, List.map_cons, runOps_cons, Op.run]
      rw [weightStep_one b c p m e h]
      congr 1
      funext m
      exact ih m

theorem branchStep_eq (b : Bin) (c : Cfg) (E : Name → Bool) (p : Name × FnMaps) (m : SymMap)
    (hm : m.WF) (hE : ∀ n, E n = (OMap.find? m n).isSome) (hp : E p.1 = true)
    (l : List (Pair × Nat)) :
    l.foldlM (branchStep b c p.1 p.2) m =
      runOps c.pol .perfData m (l.flatMap (branchOp b E p)) := by
  induction l generalizing m with
  | nil => rfl
  | cons e t ih =>
    rw [foldlM_cons', List.flatMap_cons, runOps_append]
    have key : branchStep b c p.1 p.2 m e = runOps c.pol .perfData m (branchOp b E p e) := by
      unfold branchStep branchOp
      cases p.2.has (ofLex e.1).1
      · simp [runOps]
      · simp only [if_true]
        cases nameByStart b.syms (ofLex e.1).2 with
        | none => simp [runOps]
        | some callee =>
          simp only [hE]
          cases h : (OMap.find? m callee).isSome
          · simp [runOps]
          · simp only [if_true, runOps_cons, Op.run]
            congr 1
            funext m'
            cases addIndirectCallTarget c.pol m' p.1 (b.stack (ofLex e.1).1) callee e.2 .perfData <;>
              rfl
    rw [key]
    have hnames : ∀ o ∈ branchOp b E p e, (OMap.find? m o.name).isSome := by
      intro o ho
      unfold branchOp at ho
      split at ho
      · split at ho
        · cases ho
        · split at ho
          · rename_i callee _ h
            simp only [List.mem_cons, List.not_mem_nil, or_false] at ho
            rcases ho with rfl | rfl
            · rw [← hE]; exact h
            · rw [← hE]; exact hp
          · cases ho
      · cases ho
    obtain ⟨m', e1, w, k, _⟩ := runOps_history c.pol .perfData m hm _ hnames
    rw [e1]
    simp only [Option.bind_some]
    exact ih m' w (fun n => by rw [hE, k])

theorem opsOf_names (b : Bin) (c : Cfg) (E : Name → Bool) (p : Name × FnMaps) (hp : E p.1 = true) :
    ∀ o ∈ opsOf b c E p, E o.name = true := by
  have hb : ∀ e, ∀ o ∈ branchOp b E p e, E o.name = true := by
    intro e o ho
    unfold branchOp at ho
    split at ho
    · split at ho
      · cases ho
      · split at ho
        · rename_i callee _ h
          simp only [List.mem_cons, List.not_mem_nil, or_false] at ho
          rcases ho with rfl | rfl
          · exact h
          · exact hp
        · cases ho
    · cases ho
  intro o ho
  unfold opsOf instOps weightOps at ho
  rw [List.mem_append] at ho
  rcases ho with ho | ho
  · obtain ⟨a, _, rfl⟩ := List.mem_map.1 ho
    exact hp
  · split at ho
    · cases ho
    · rw [List.mem_append] at ho
      rcases ho with ho | ho
      · obtain ⟨a, _, rfl⟩ := List.mem_map.1 ho
        exact hp
      · obtain ⟨e, _, he⟩ := List.mem_flatMap.1 ho
        exact hb e o he

theorem process_eq (b : Bin) (c : Cfg) (E : Name → Bool) (p : Name × FnMaps) (m : SymMap)
    (hm : m.WF) (hE : ∀ n, E n = (OMap.find? m n).isSome) (hp : E p.1 = true) :
    process b c m p = runOps c.pol .perfData m (opsOf b c E p) := by
  have hn := opsOf_names b c E p hp
  unfold process opsOf at *
  rw [runOps_append, ← buildInst_eq]
  obtain ⟨m1, e1, w1, k1, _⟩ := runOps_history c.pol .perfData m hm (instOps b p) (by
    intro o ho
    rw [← hE]
    exact hn o (List.mem_append_left _ ho))
  rw [buildInst_eq b c.pol, e1]
  simp only [Option.bind_some]
  by_cases hc : c.lbr = true ∧ p.2.maps.range.isEmpty = true
  · simp only [if_pos hc]; rfl
  · simp only [if_neg hc] at hn ⊢
    rw [runOps_append, weightStep_eq]
    obtain ⟨m2, e2, w2, k2, _⟩ := runOps_history c.pol .perfData m1 w1 (weightOps b c p) (by
      intro o ho
      rw [k1, ← hE]
      exact hn o (List.mem_append_right _ (List.mem_append_left _ ho)))
    unfold weightOps at e2 ⊢
    rw [e2]
    simp only [Option.bind_some]
    exact branchStep_eq b c E p m2 w2 (fun n => by rw [hE, k2, k1]) hp _

theorem processAll_eq (b : Bin) (c : Cfg) (E : Name → Bool) (l : List (Name × FnMaps)) (m : SymMap)
    (hm : m.WF) (hE : ∀ n, E n = (OMap.find? m n).isSome) (hl : ∀ p ∈ l, E p.1 = true) :
    l.foldlM (process b c) m = runOps c.pol .perfData m (l.flatMap (opsOf b c E)) := by
  induction l generalizing m with
  | nil => rfl
  | cons p t ih =>
    have hp := hl p List.mem_cons_self
    rw [foldlM_cons', List.flatMap_cons, runOps_append, process_eq b c E p m hm hE hp]
    obtain ⟨m', e1, w, k, _⟩ := runOps_history c.pol .perfData m hm (opsOf b c E p) (by
      intro o ho
      rw [← hE]
      exact opsOf_names b c E p hp o ho)
    rw [e1]
    simp only [Option.bind_some]
    exact ih m' w (fun n => by rw [hE, k]) (fun q hq => hl q (List.mem_cons_of_mem _ hq))

/-- The initial profile: empty symbols for the written functions. -/
theorem initial_spec (l : List (Name × FnMaps)) (m : SymMap) (hm : OMap.Sorted m)
    (h0 : ∀ n s, OMap.find? m n = some s → s = Sym.new) :
    OMap.Sorted (l.foldl (fun m p => OMap.emplace p.1 Sym.new m) m) ∧
    ∀ n, OMap.find? (l.foldl (fun m p => OMap.emplace p.1 Sym.new m) m) n =
      if n ∈ l.map Prod.fst ∨ (OMap.find? m n).isSome then some Sym.new else none := by
  induction l generalizing m with
  | nil =>
    refine ⟨hm, ?_⟩
    intro n
    simp only [List.foldl_nil, List.map_nil, List.not_mem_nil, false_or]
    cases h : OMap.find? m n with
    | none => simp
    | some s => simp [h0 n s h]
  | cons p t ih =>
    rw [List.foldl_cons]
    have hs : OMap.Sorted (OMap.emplace p.1 Sym.new m) := OMap.Sorted.upsert hm _ _
    have hf : ∀ n, OMap.find? (OMap.emplace p.1 Sym.new m) n =
        if n = p.1 then some ((OMap.find? m p.1).getD Sym.new) else OMap.find? m n := by
      intro n; unfold OMap.emplace; rw [OMap.find?_upsert hm]; split <;> simp_all
    obtain ⟨i1, i2⟩ := ih _ hs (by
      intro n s h
      rw [hf] at h
      by_cases hn : n = p.1
      · rw [if_pos hn] at h
        cases ho : OMap.find? m p.1 with
        | none => rw [ho] at h; cases h; rfl
        | some y => rw [ho] at h; cases h; exact h0 _ _ ho
      · rw [if_neg hn] at h; exact h0 _ _ h)
    refine ⟨i1, ?_⟩
    intro n
    rw [i2, hf]
    by_cases hn : n = p.1
    · subst hn; simp
    · simp only [List.map_cons, List.mem_cons, hn, false_or, if_false]

/-- The functions of the profile. -/
def inList (l : List (Name × FnMaps)) (n : Name) : Bool := decide (n ∈ l.map Prod.fst)

theorem new_obs (p : List Callsite) : Sym.new.totalAt p = 0 ∧ Sym.new.headAt p = 0 ∧
    ∀ loc, Sym.new.countAt p loc = 0 ∧ Sym.new.instAt p loc = 0 ∧
      ∀ n, Sym.new.targetAt p loc n = 0 := by
  have h : ((Sym.new.node? p).getD Data.zero) = Data.zero := by
    rw [Sym.new_node?]; split <;> rfl
  simp only [Sym.totalAt, Sym.headAt, Sym.countAt, Sym.instAt, Sym.targetAt, h]
  simp [Data.zero, PosMap.countAt, PosMap.instAt, PosMap.targetAt, OMap.find?, PInfo.zero, OMap.get0]

/-- The computed profile, in terms of the updates made. -/
theorem computeOrder_history (b : Bin) (c : Cfg) (thr : Nat) (order : List (Name × FnMaps)) :
    ∃ m, computeOrder b c thr order = some m ∧ m.WF ∧
      (∀ f, (OMap.find? m f).isSome = inList (emitted c thr order) f) ∧
      ∀ ops, ops = (emitted c thr order).flatMap (opsOf b c (inList (emitted c thr order))) →
      ∀ f p, ((m.get f).node? p).isSome = (decide (p = []) || ops.any (fun o => o.creates true f p)) ∧
        (m.get f).totalAt p = (ops.map (Op.total true f p)).sum ∧
        (m.get f).headAt p = (ops.map (Op.entry f p)).sum ∧
        ∀ loc, (m.get f).countAt p loc = (ops.map (Op.count true f p loc)).foldl Nat.max 0 ∧
          (m.get f).instAt p loc = (ops.map (Op.inst true f p loc)).sum ∧
          ∀ n, (m.get f).targetAt p loc n =
            ops.foldl (fun old o => o.target' c.pol true f p loc n old) 0 := by
  unfold computeOrder
  obtain ⟨i1, i2⟩ := initial_spec (emitted c thr order) [] OMap.sorted_nil (by simp [OMap.find?])
  obtain ⟨m0, hm0⟩ : ∃ m0 : SymMap, m0 = (emitted c thr order).foldl
    (fun m p => OMap.emplace p.1 Sym.new m) ([] : SymMap) := ⟨_, rfl⟩
  rw [← hm0] at i1 i2 ⊢
  have i2' : ∀ n, OMap.find? m0 n = if n ∈ (emitted c thr order).map Prod.fst then some Sym.new
      else none := by
    intro n; rw [i2]; simp only [OMap.find?, Option.isSome_none, Bool.false_eq_true, or_false]
  have hget : ∀ n, m0.get n = Sym.new := by
    intro n; unfold SymMap.get; rw [i2']; split <;> rfl
  have hwf : m0.WF := by
    refine ⟨i1, ?_⟩
    intro p hp
    have h1 := OMap.find?_some_of_mem i1 hp
    rw [i2'] at h1
    split at h1
    · injection h1 with h1; rw [← h1]; exact Sym.WF.new
    · cases h1
  have hE : ∀ n, inList (emitted c thr order) n = (OMap.find? m0 n).isSome := by
    intro n; rw [i2']; unfold inList; split <;> simp_all
  have hl : ∀ p ∈ emitted c thr order, inList (emitted c thr order) p.1 = true := by
    intro p hp
    simp only [inList, decide_eq_true_eq]
    exact List.mem_map_of_mem hp
  rw [processAll_eq b c (inList (emitted c thr order)) _ m0 hwf hE hl]
  obtain ⟨m, e, w, k, at1⟩ := runOps_history c.pol .perfData m0 hwf
    ((emitted c thr order).flatMap (opsOf b c (inList (emitted c thr order)))) (by
      intro o ho
      obtain ⟨p, hp, ho⟩ := List.mem_flatMap.1 ho
      rw [← hE]
      exact opsOf_names b c _ p (hl p hp) o ho)
  refine ⟨m, e, w, fun f => by rw [k, hE], ?_⟩
  rintro ops rfl f p
  obtain ⟨a0, a1, a2, a3⟩ := at1 f p
  obtain ⟨z1, z2, z3⟩ := new_obs p
  rw [hget] at a0 a1 a2 a3
  refine ⟨?_, ?_, ?_, fun loc => ⟨?_, ?_, fun n => ?_⟩⟩
  · rw [a0, Sym.new_node?]
    by_cases hp : p = [] <;> simp [hp] <;> rfl
  · rw [a1, z1, Nat.zero_add]; rfl
  · rw [a2, z2, Nat.zero_add]
  · rw [(a3 loc).1, (z3 loc).1]; rfl
  · rw [(a3 loc).2.1, (z3 loc).2.1, Nat.zero_add]; rfl
  · rw [(a3 loc).2.2, (z3 loc).2.2]; rfl

end Verif.Compute

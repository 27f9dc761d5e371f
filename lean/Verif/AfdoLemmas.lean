import Verif.Afdo
import Verif.AddSourceProps
import Verif.ThrottleProps
import Verif.SourceOffsetProps

/-!
# Lemmas for the AFDO round trip
-/
namespace Verif.Afdo
open Verif Verif.Gcov Verif.SymbolMap

/-! ## Events: what reading a symbol does to the root symbol -/

/-- A location count or a call target recorded below a root symbol. -/
inductive Ev where
  | cnt (path : List Callsite) (loc c : Nat)
  | tgt (path : List Callsite) (loc : Nat) (n : Name) (c : Nat)

def Ev.path : Ev → List Callsite
  | .cnt p _ _ => p
  | .tgt p _ _ _ => p

/-- Samples carried by an event. -/
def Ev.weight : Ev → Nat
  | .cnt _ _ c => c
  | .tgt _ _ _ _ => 0

/-- Effect on the location map of the leaf. -/
def Ev.onPos : Ev → PosMap → PosMap
  | .cnt _ loc c, m => m.modify loc (fun i => { i with count := i.count + c, numInst := i.numInst + 1 })
  | .tgt _ loc n c, m => m.modify loc (fun i => { i with targets := OMap.set n c i.targets })

/-- Effect on the root symbol. -/
def Ev.app (s : Sym) (e : Ev) : Sym :=
  Sym.addAlong e.weight (fun d => { d with pos := e.onPos d.pos }) e.path s

theorem app_node? (s : Sym) (e : Ev) (p : List Callsite) :
    (Ev.app s e).node? p =
      if p <+: e.path then some ⟨(s.nodeD p).total + e.weight, (s.nodeD p).head,
        if e.path = p then e.onPos (s.nodeD p).pos else (s.nodeD p).pos⟩
      else s.node? p := by
  unfold Ev.app
  rw [addAlong_node?]
  by_cases h : p = e.path
  · have h2 : p <+: e.path := by rw [h]; exact List.prefix_refl _
    rw [if_pos h, if_pos h2, if_pos h.symm]
  · by_cases h2 : p <+: e.path
    · rw [if_neg h, if_pos h2, if_pos h2, if_neg (Ne.symm h)]
    · rw [if_neg h, if_neg h2, if_neg h2]

theorem foldl_app_node? (es : List Ev) (s : Sym) (p : List Callsite) :
    (es.foldl Ev.app s).node? p =
      if (es.filter (fun e => decide (p <+: e.path))) = [] then s.node? p
      else some ⟨(s.nodeD p).total +
          ((es.filter (fun e => decide (p <+: e.path))).map Ev.weight).sum,
        (s.nodeD p).head,
        (es.filter (fun e => decide (e.path = p))).foldl (fun m e => e.onPos m) (s.nodeD p).pos⟩ := by
  induction es generalizing s with
  | nil => simp
  | cons e t ih =>
    rw [List.foldl_cons, ih]
    have hn := app_node? s e p
    by_cases h : p <+: e.path
    · rw [if_pos h] at hn
      have hd : (Ev.app s e).nodeD p = ⟨(s.nodeD p).total + e.weight, (s.nodeD p).head,
        if e.path = p then e.onPos (s.nodeD p).pos else (s.nodeD p).pos⟩ := by
        simp only [Sym.nodeD, hn, Option.getD_some]
      rw [hn, hd]
      simp only [List.filter_cons, h, decide_true, if_true, reduceCtorEq, if_false, List.map_cons,
        List.sum_cons]
      by_cases hc : t.filter (fun e => decide (p <+: e.path)) = []
      · have hc2 : t.filter (fun e => decide (e.path = p)) = [] := by
          rw [List.filter_eq_nil_iff] at hc ⊢
          intro x hx
          have := hc x hx
          simp only [decide_eq_true_eq] at this ⊢
          intro e; exact this (by rw [e]; exact List.prefix_refl _)
        rw [if_pos hc, hc, hc2]
        by_cases hp : e.path = p <;> simp [hp]
      · rw [if_neg hc]
        by_cases hp : e.path = p
        · simp only [hp, decide_true, if_true, List.foldl_cons]
          rw [Nat.add_assoc]
        · simp only [hp, decide_false, Bool.false_eq_true, if_false]
          rw [Nat.add_assoc]
    · rw [if_neg h] at hn
      have hd : (Ev.app s e).nodeD p = s.nodeD p := by simp only [Sym.nodeD, hn]
      have hp : ¬ e.path = p := fun hh => h (by rw [hh]; exact List.prefix_refl _)
      rw [hn, hd]
      simp only [List.filter_cons, h, decide_false, Bool.false_eq_true, if_false, hp]

/-- Events of the locations of one inline instance. -/
def posEvents (pre : List Callsite) (m : PosMap) : List Ev :=
  m.flatMap (fun p => .cnt pre p.1 p.2.count :: p.2.targets.map (fun t => .tgt pre p.1 t.1 t.2))

mutual
/-- Events of a whole symbol. -/
def symEvents (pre : List Callsite) : Sym → List Ev
  | .mk d cs => posEvents pre d.pos ++ callEvents pre cs
def callEvents (pre : List Callsite) : List (Callsite × Sym) → List Ev
  | [] => []
  | (k, s) :: t => symEvents (pre ++ [k]) s ++ callEvents pre t
end

theorem posEvents_path {pre : List Callsite} {m : PosMap} {e : Ev} (h : e ∈ posEvents pre m) :
    e.path = pre := by
  unfold posEvents at h
  rw [List.mem_flatMap] at h
  obtain ⟨p, _, h⟩ := h
  rcases List.mem_cons.1 h with rfl | h
  · rfl
  · rw [List.mem_map] at h
    obtain ⟨t, _, rfl⟩ := h
    rfl

mutual
theorem symEvents_path (pre : List Callsite) : (s : Sym) → ∀ e ∈ symEvents pre s, pre <+: e.path
  | .mk d cs => by
    intro e he
    rw [symEvents, List.mem_append] at he
    rcases he with he | he
    · rw [posEvents_path he]; exact List.prefix_refl _
    · obtain ⟨k, _, hk⟩ := callEvents_path pre cs e he
      exact (List.prefix_append pre [k]).trans hk
theorem callEvents_path (pre : List Callsite) : (cs : List (Callsite × Sym)) →
    ∀ e ∈ callEvents pre cs, ∃ k ∈ cs.map Prod.fst, pre ++ [k] <+: e.path
  | [] => by simp [callEvents]
  | (k, s) :: t => by
    intro e he
    rw [callEvents, List.mem_append] at he
    rcases he with he | he
    · exact ⟨k, by simp, symEvents_path (pre ++ [k]) s e he⟩
    · obtain ⟨k', hk', h⟩ := callEvents_path pre t e he
      exact ⟨k', by simp only [List.map_cons, List.mem_cons]; exact Or.inr hk', h⟩
end

theorem prefix_key_unique {pre : List Callsite} {k k' : Callsite} {p l : List Callsite}
    (h1 : pre ++ k :: p <+: l) (h2 : pre ++ [k'] <+: l) : k = k' := by
  obtain ⟨a, rfl⟩ := h1
  obtain ⟨b, hb⟩ := h2
  have : pre ++ ([k'] ++ b) = pre ++ (k :: p ++ a) := by simpa using hb
  have := List.append_cancel_left this
  simp at this
  exact this.1.symm

theorem filter_callEvents (pre : List Callsite) (k : Callsite) (p : List Callsite)
    (cs : List (Callsite × Sym)) (hn : (cs.map Prod.fst).Nodup) :
    (callEvents pre cs).filter (fun e => decide (pre ++ k :: p <+: e.path)) =
      match lookup cs k with
      | none => []
      | some c => (symEvents (pre ++ [k]) c).filter
          (fun e => decide (pre ++ k :: p <+: e.path)) := by
  induction cs with
  | nil => simp [callEvents, lookup]
  | cons a t ih =>
    obtain ⟨k', s⟩ := a
    rw [List.map_cons, List.nodup_cons] at hn
    rw [callEvents, List.filter_append, ih hn.2]
    by_cases hk : k = k'
    · subst hk
      have : lookup t k = none := lookup_eq_none_iff.2 hn.1
      simp [lookup, this]
    · have : (symEvents (pre ++ [k']) s).filter (fun e => decide (pre ++ k :: p <+: e.path)) = [] := by
        rw [List.filter_eq_nil_iff]
        intro e he
        simp only [decide_eq_true_eq]
        intro h
        exact hk (prefix_key_unique h (symEvents_path _ s e he))
      simp [this, lookup, hk]

theorem filter_symEvents (pre : List Callsite) (p : List Callsite) (s : Sym) (h : s.WF) :
    (symEvents pre s).filter (fun e => decide (pre ++ p <+: e.path)) =
      match s.at? p with
      | none => []
      | some n => symEvents (pre ++ p) n := by
  induction p generalizing pre s with
  | nil =>
    simp only [Sym.at?, List.append_nil]
    rw [List.filter_eq_self]
    intro e he
    simpa using symEvents_path pre s e he
  | cons k p ih =>
    cases s with
    | mk d cs =>
      have hw := (Sym.WF_iff _).1 h
      rw [symEvents, List.filter_append, filter_callEvents pre k p cs hw.2.2.1]
      have : (posEvents pre d.pos).filter (fun e => decide (pre ++ k :: p <+: e.path)) = [] := by
        rw [List.filter_eq_nil_iff]
        intro e he
        rw [posEvents_path he]
        simp only [decide_eq_true_eq]
        intro hp
        have := hp.length_le
        simp at this
      rw [this, List.nil_append]
      simp only [Sym.at?, Sym.calls]
      cases hk : lookup cs k with
      | none => rfl
      | some c =>
        have hc := ih (pre ++ [k]) c (h.child hk)
        simpa using hc

theorem filter_eq_symEvents (pre : List Callsite) (s : Sym) :
    (symEvents pre s).filter (fun e => decide (e.path = pre)) = posEvents pre s.data.pos := by
  cases s with
  | mk d cs =>
    rw [symEvents, List.filter_append, List.filter_eq_self.2, List.filter_eq_nil_iff.2,
      List.append_nil]
    · rfl
    · intro e he
      obtain ⟨k, _, hk⟩ := callEvents_path pre cs e he
      simp only [decide_eq_true_eq]
      intro hp
      rw [hp] at hk
      have := hk.length_le
      simp at this
    · intro e he
      simpa using posEvents_path he

theorem filter_eq_symEvents' (p : List Callsite) (s : Sym) (h : s.WF) :
    (symEvents [] s).filter (fun e => decide (e.path = p)) =
      match s.at? p with
      | none => []
      | some n => posEvents p n.data.pos := by
  have h1 := filter_symEvents [] p s h
  rw [List.nil_append] at h1
  have : (symEvents [] s).filter (fun e => decide (e.path = p)) =
      ((symEvents [] s).filter (fun e => decide (p <+: e.path))).filter
        (fun e => decide (e.path = p)) := by
    rw [List.filter_filter]
    apply List.filter_congr
    intro e _
    by_cases he : e.path = p
    · have : p <+: e.path := by rw [he]; exact List.prefix_refl _
      simp [he]
    · simp [he]
  rw [this, h1]
  cases s.at? p with
  | none => rfl
  | some n => exact filter_eq_symEvents p n

/-! ## Rebuilding a location map -/

theorem upsert_append_gt {K V : Type} [LinearOrder K] (acc : OMap K V) (k : K) (f : Option V → V)
    (h : ∀ p ∈ acc, p.1 < k) : OMap.upsert k f acc = acc ++ [(k, f none)] := by
  induction acc with
  | nil => rfl
  | cons a t ih =>
    have ha := h a List.mem_cons_self
    simp only [OMap.upsert]
    rw [if_neg (not_lt_of_gt ha), if_neg (ne_of_gt ha), ih (fun p hp => h p (List.mem_cons_of_mem _ hp))]
    rfl

theorem upsert_append_last {K V : Type} [LinearOrder K] (acc : OMap K V) (k : K) (v : V)
    (f : Option V → V) (h : ∀ p ∈ acc, p.1 < k) :
    OMap.upsert k f (acc ++ [(k, v)]) = acc ++ [(k, f (some v))] := by
  induction acc with
  | nil => simp [OMap.upsert]
  | cons a t ih =>
    have ha := h a List.mem_cons_self
    simp only [List.cons_append, OMap.upsert]
    rw [if_neg (not_lt_of_gt ha), if_neg (ne_of_gt ha), ih (fun p hp => h p (List.mem_cons_of_mem _ hp))]

theorem targets_fold (pre : List Callsite) (loc c : Nat) (acc : PosMap) (hacc : ∀ p ∈ acc, p.1 < loc)
    (ts tacc : OMap Name Nat) (hs : OMap.Sorted ts) (ht : ∀ p ∈ tacc, ∀ q ∈ ts, p.1 < q.1) :
    (ts.map (fun t => Ev.tgt pre loc t.1 t.2)).foldl (fun m e => e.onPos m)
      (acc ++ [(loc, ⟨c, 1, tacc⟩)]) = acc ++ [(loc, ⟨c, 1, tacc ++ ts⟩)] := by
  induction ts generalizing tacc with
  | nil => simp
  | cons t r ih =>
    have hs' := List.pairwise_cons.1 hs
    rw [List.map_cons, List.foldl_cons]
    have : Ev.onPos (.tgt pre loc t.1 t.2) (acc ++ [(loc, ⟨c, 1, tacc⟩)]) =
        acc ++ [(loc, ⟨c, 1, tacc ++ [t]⟩)] := by
      simp only [Ev.onPos, PosMap.modify]
      rw [upsert_append_last acc loc _ _ hacc]
      simp only [Option.getD_some, OMap.set]
      rw [upsert_append_gt tacc t.1 _ (fun p hp => ht p hp t List.mem_cons_self)]
    rw [this, ih _ hs'.2]
    · simp
    · intro p hp q hq
      rcases List.mem_append.1 hp with hp | hp
      · exact ht p hp q (List.mem_cons_of_mem _ hq)
      · rw [List.mem_singleton] at hp
        subst hp
        exact hs'.1 q hq

theorem pos_fold (pre : List Callsite) (m acc : PosMap) (hm : OMap.Sorted m) (ht : m.TargetsOk)
    (ha : ∀ p ∈ acc, ∀ q ∈ m, p.1 < q.1) :
    (posEvents pre m).foldl (fun m e => e.onPos m) acc =
      acc ++ m.map (fun p => (p.1, { p.2 with numInst := 1 })) := by
  induction m generalizing acc with
  | nil => simp [posEvents]
  | cons x r ih =>
    obtain ⟨loc, i⟩ := x
    have hs' := List.pairwise_cons.1 hm
    have e1 : posEvents pre ((loc, i) :: r) =
        (Ev.cnt pre loc i.count :: i.targets.map (fun t => Ev.tgt pre loc t.1 t.2)) ++
          posEvents pre r := by simp [posEvents]
    have hlt : ∀ p ∈ acc, p.1 < loc := fun p hp => ha p hp _ List.mem_cons_self
    have e2 : Ev.onPos (.cnt pre loc i.count) acc = acc ++ [(loc, ⟨i.count, 1, []⟩)] := by
      simp only [Ev.onPos, PosMap.modify]
      rw [upsert_append_gt acc loc _ hlt]
      simp [PInfo.zero]
    rw [e1, List.foldl_append, List.foldl_cons, e2,
      targets_fold pre loc i.count acc hlt i.targets [] (ht _ List.mem_cons_self) (by simp),
      List.nil_append, ih _ hs'.2 (fun p hp => ht p (List.mem_cons_of_mem _ hp))]
    · simp
    · intro p hp q hq
      rcases List.mem_append.1 hp with hp | hp
      · exact ha p hp q (List.mem_cons_of_mem _ hq)
      · rw [List.mem_singleton] at hp
        subst hp
        exact hs'.1 q hq

/-! ## Maps -/

theorem set_set {m : SymMap} (hm : OMap.Sorted m) (k : Name) (a b : Sym) :
    OMap.set k b (OMap.set k a m) = OMap.set k b m := by
  apply OMap.ext
  · exact OMap.Sorted.upsert (OMap.Sorted.upsert hm _ _) _ _
  · exact OMap.Sorted.upsert hm _ _
  · intro x
    unfold OMap.set
    rw [OMap.find?_upsert (OMap.Sorted.upsert hm _ _), OMap.find?_upsert hm, OMap.find?_upsert hm]
    split <;> simp_all

theorem set_self {m : SymMap} (hm : OMap.Sorted m) (k : Name) (a : Sym)
    (h : OMap.find? m k = some a) : OMap.set k a m = m := by
  apply OMap.ext
  · exact OMap.Sorted.upsert hm _ _
  · exact hm
  · intro x
    unfold OMap.set
    rw [OMap.find?_upsert hm]
    split
    · next hx => rw [hx, h]
    · rfl

theorem find?_set_self {m : SymMap} (hm : OMap.Sorted m) (k : Name) (a : Sym) :
    OMap.find? (OMap.set k a m) k = some a := by
  unfold OMap.set; rw [OMap.find?_upsert hm, if_pos rfl]

/-! ## Stacks -/

theorem walk_append_pair (l : List Frame) (g f : Frame) :
    walk false (l ++ [g, f]) = walk false (l ++ [g]) ++ [(g.off, f.func)] := by
  induction l with
  | nil => simp [walk]
  | cons a t ih =>
    cases t with
    | nil => simp [walk]
    | cons b t =>
      simp only [List.cons_append, walk, Bool.false_and, Bool.false_eq_true, if_false] at ih ⊢
      rw [ih]

/-- Path followed for a frame of function `name` called through `stack`. -/
def pathOf (name : Name) (stack : List Frame) : List Callsite :=
  walk false ((frameOf name 0 :: stack).reverse)

theorem pathOf_nil (name : Name) : pathOf name [] = [] := rfl

theorem walk_frame (f : Frame) (stack : List Frame) :
    walk false ((f :: stack).reverse) = pathOf f.func stack := by
  cases stack with
  | nil => rfl
  | cons g t =>
    unfold pathOf
    simp only [List.reverse_cons, List.append_assoc, List.singleton_append, walk_append_pair]
    rfl

theorem pathOf_cons (name : Name) (g : Frame) (t : List Frame) :
    pathOf name (g :: t) = pathOf g.func t ++ [(g.off, name)] := by
  rw [← walk_frame g t]
  unfold pathOf
  simp only [List.reverse_cons, List.append_assoc, List.singleton_append, walk_append_pair]
  rfl

/-- Locations that survive the on-disk form: line and discriminator below 2^16. -/
def LocFits (off : Nat) : Prop := off / 4294967296 < 65536 ∧ off % 4294967296 < 65536

theorem frameOf_off (name : Name) (loc : Nat) (h : LocFits loc) :
    (frameOf name (compressWord loc)).off = loc := by
  have h1 := h.1
  have h2 := h.2
  have hb : BitVec.ofNat 64 loc = SourceOffset.generateOffset
      (BitVec.ofNat 32 (loc / 4294967296)) (BitVec.ofNat 32 (loc % 4294967296)) := by
    apply BitVec.eq_of_toNat_eq
    rw [SourceOffset.generateOffset_toNat]
    simp only [BitVec.toNat_ofNat]
    omega
  have hr := SourceOffset.compressed_roundtrip (BitVec.ofNat 32 (loc / 4294967296))
    (BitVec.ofNat 32 (loc % 4294967296)) (by simp only [BitVec.toNat_ofNat]; omega)
    (by simp only [BitVec.toNat_ofNat]; omega)
  rw [← hb] at hr
  unfold Frame.off frameOf compressWord
  simp only [BitVec.ofNat_toNat, BitVec.setWidth_eq]
  unfold SourceOffset.readerOffset at hr
  rw [hr]
  simp only [BitVec.toNat_ofNat]
  omega

theorem compressWord_lt (loc : Nat) : compressWord loc < 4294967296 := by
  unfold compressWord
  exact (SourceOffset.generateCompressedOffset (BitVec.ofNat 64 loc)).isLt

/-! ## Reading back -/

theorem readU {n : Nat} (h : n < 4294967296) (r : List UInt8) :
    readUnsigned (writeUnsigned n ++ r) = some (n, r) := by
  unfold writeUnsigned; rw [readUnsigned_le32, Nat.mod_eq_of_lt h]

theorem readC {n : Nat} (h : n < 18446744073709551616) (r : List UInt8) :
    readCounter (writeCounter n ++ r) = some (n, r) := by
  rw [readCounter_writeCounter, Nat.mod_eq_of_lt h]

theorem indexOf_get {n : Name} {l : List Name} {i : Nat} (h : indexOf n l = some i) :
    l[i]? = some n ∧ i < l.length := by
  induction l generalizing i with
  | nil => simp [indexOf] at h
  | cons x t ih =>
    simp only [indexOf] at h
    by_cases hx : x = n
    · rw [if_pos hx] at h; cases h; simp [hx]
    · rw [if_neg hx] at h
      cases hi : indexOf n t with
      | none => simp [hi] at h
      | some j =>
        simp [hi] at h
        subst h
        have := ih hi
        simpa using this

theorem indexOf_mem {n : Name} {l : List Name} (h : n ∈ l) : ∃ i, indexOf n l = some i := by
  induction l with
  | nil => cases h
  | cons x t ih =>
    simp only [indexOf]
    by_cases hx : x = n
    · exact ⟨0, by simp [hx]⟩
    · obtain ⟨i, hi⟩ := ih (by
        rcases List.mem_cons.1 h with h | h
        · exact absurd h.symm hx
        · exact h)
      exact ⟨i + 1, by simp [hx, hi]⟩

/-- The values of a location entry fit the on-disk fields. -/
def PosFits (p : Nat × PInfo) : Prop :=
  LocFits p.1 ∧ p.2.count < 18446744073709551616 ∧ p.2.targets.length < 4294967296 ∧
    ∀ t ∈ p.2.targets, t.2 < 18446744073709551616

mutual
/-- The values of a symbol fit the on-disk fields, recursively. -/
def SymFits : Sym → Prop
  | .mk d cs => (∀ p ∈ d.pos, PosFits p) ∧ d.pos.length < 4294967296 ∧ cs.length < 4294967296 ∧
      CallsFit cs
def CallsFit : List (Callsite × Sym) → Prop
  | [] => True
  | (k, s) :: t => LocFits k.1 ∧ SymFits s ∧ CallsFit t
end

theorem addTarget_eq (pol : Policy) {m : SymMap} {top : Name} {r : Sym}
    (hf : OMap.find? m top = some r) (f : Frame) (stack : List Frame) (target : Name) (c : Nat) :
    addIndirectCallTarget pol m top (f :: stack) target c .afdoProfile =
      some (OMap.set top (Ev.app r (.tgt (pathOf f.func stack) f.off (originalName pol target) c)) m,
        true) := by
  simp only [addIndirectCallTarget, hf, DataSource.needConversion, Bool.false_and, Bool.not_false,
    walk_frame, Ev.app, Ev.weight, Ev.path, Ev.onPos]
  congr 1

theorem addSource_eq {m : SymMap} {top : Name} {r : Sym}
    (hf : OMap.find? m top = some r) (f : Frame) (stack : List Frame) (c : Nat) :
    addSourceCount m top (f :: stack) c 1 1 false .afdoProfile =
      some (OMap.set top (Ev.app r (.cnt (pathOf f.func stack) f.off c)) m) := by
  simp only [addSourceCount, hf, DataSource.needConversion, ne_eq, not_true_eq_false, false_and,
    if_false, walk_frame, Ev.app, Ev.weight, Ev.path, Ev.onPos]
  rfl

theorem loopM_add {S : Type} (f : S → Option S) (a b : Nat) (s : S) :
    loopM f (a + b) s = (loopM f a s).bind (loopM f b) := by
  induction a generalizing s with
  | zero => simp [loopM]
  | succ a ih =>
    rw [Nat.succ_add]
    simp only [loopM]
    cases f s with
    | none => rfl
    | some s' => simpa using ih s'

theorem sorted_set {m : SymMap} (hm : OMap.Sorted m) (k : Name) (a : Sym) :
    OMap.Sorted (OMap.set k a m) := OMap.Sorted.upsert hm _ _

/-- Hypotheses on the reader configuration and the string table. -/
structure CfgOk (cfg : Cfg) (strs : List Name) : Prop where
  names : cfg.names = strs
  len : strs.length < 4294967296

theorem readTargets_enc {cfg : Cfg} {strs : List Name} (hc : CfgOk cfg strs) (top : Name) (f : Frame)
    (stack : List Frame) (upd : Bool) (hu : (cfg.force || upd) = true)
    (ts : List (Name × Nat)) (hfit : ∀ t ∈ ts, t.2 < 18446744073709551616)
    (hst : ∀ t ∈ ts, originalName cfg.pol t.1 = t.1) (b : List UInt8)
    (hw : writeTargets strs ts = some b) (rest : List UInt8) (m : SymMap) (tsm : OMap Name Nat)
    (hm : OMap.Sorted m) (r : Sym) (hr : OMap.find? m top = some r) :
    loopM (readTarget cfg top (f :: stack) upd) ts.length ⟨b ++ rest, m, tsm⟩ =
      some ⟨rest, OMap.set top
        ((ts.map (fun t => Ev.tgt (pathOf f.func stack) f.off t.1 t.2)).foldl Ev.app r) m, tsm⟩ := by
  induction ts generalizing b m r with
  | nil =>
    simp only [writeTargets, Option.some.injEq] at hw
    subst hw
    simp [loopM, set_self hm top r hr]
  | cons t ts ih =>
    obtain ⟨n, c⟩ := t
    simp only [writeTargets] at hw
    cases hi : indexOf n strs with
    | none => simp [hi] at hw
    | some i =>
      cases hb : writeTargets strs ts with
      | none => simp [hi, hb] at hw
      | some b' =>
        simp only [hi, hb, Option.some.injEq] at hw
        subst hw
        obtain ⟨hget, hlt⟩ := indexOf_get hi
        have hil : i < 18446744073709551616 := by have := hc.len; omega
        have hcl := hfit (n, c) List.mem_cons_self
        rw [List.length_cons]
        simp only [loopM]
        have step : readTarget cfg top (f :: stack) upd
            ⟨writeUnsigned histIndirCallTopn ++ writeCounter i ++ writeCounter c ++ b' ++ rest, m, tsm⟩
            = some ⟨b' ++ rest, OMap.set top
              (Ev.app r (.tgt (pathOf f.func stack) f.off n c)) m, tsm⟩ := by
          unfold readTarget
          simp only [List.append_assoc]
          rw [readU (by decide)]
          simp only [Option.bind_eq_bind, Option.bind_some, ne_eq, not_true_eq_false, if_false]
          rw [readC hil]
          simp only [Option.bind_some]
          rw [hc.names, hget]
          simp only [Option.bind_some]
          rw [readC hcl]
          simp only [Option.bind_some, hu, if_true]
          rw [addTarget_eq cfg.pol hr, hst (n, c) List.mem_cons_self]
          rfl
        rw [step]
        simp only [Option.bind_some, List.map_cons, List.foldl_cons]
        rw [ih (fun t ht => hfit t (List.mem_cons_of_mem _ ht))
          (fun t ht => hst t (List.mem_cons_of_mem _ ht)) b' hb _ (sorted_set hm _ _) _
          (find?_set_self hm _ _), set_set hm]

theorem topOf (name : Name) (off : Nat) (stack : List Frame) :
    (((frameOf name off :: stack).getLast?).map Frame.func).getD name =
      ((stack.getLast?).map Frame.func).getD name := by
  cases stack with
  | nil => rfl
  | cons g t =>
    rw [List.getLast?_cons_cons]

theorem readPos_enc {cfg : Cfg} {strs : List Name} (hc : CfgOk cfg strs) (name : Name)
    (stack : List Frame) (upd : Bool) (hu : (cfg.force || upd) = true)
    (ps : List (Nat × PInfo)) (hfit : ∀ p ∈ ps, PosFits p)
    (hst : ∀ n ∈ targetNames ps, originalName cfg.pol n = n) (b : List UInt8)
    (hw : writePos strs ps = some b) (rest : List UInt8) (m : SymMap) (tsm : OMap Name Nat)
    (hm : OMap.Sorted m) (r : Sym)
    (hr : OMap.find? m (((stack.getLast?).map Frame.func).getD name) = some r) :
    loopM (readPos cfg name stack upd) ps.length ⟨b ++ rest, m, tsm⟩ =
      some ⟨rest, OMap.set (((stack.getLast?).map Frame.func).getD name)
        ((posEvents (pathOf name stack) ps).foldl Ev.app r) m, tsm⟩ := by
  induction ps generalizing b m r with
  | nil =>
    simp only [writePos, Option.some.injEq] at hw
    subst hw
    simp [loopM, posEvents, set_self hm _ r hr]
  | cons p ps ih =>
    obtain ⟨off, i⟩ := p
    simp only [writePos] at hw
    cases ht : writeTargets strs i.targets with
    | none => simp [ht] at hw
    | some bt =>
      cases hb : writePos strs ps with
      | none => simp [ht, hb] at hw
      | some b' =>
        simp only [ht, hb, Option.some.injEq] at hw
        subst hw
        obtain ⟨f1, f2, f3, f4⟩ := hfit (off, i) List.mem_cons_self
        have hoff := frameOf_off name off f1
        rw [List.length_cons]
        simp only [loopM]
        have step : readPos cfg name stack upd
            ⟨writeUnsigned (compressWord off) ++ writeUnsigned i.targets.length ++
              writeCounter i.count ++ bt ++ b' ++ rest, m, tsm⟩
            = some ⟨b' ++ rest, OMap.set (((stack.getLast?).map Frame.func).getD name)
              ((i.targets.map (fun t => Ev.tgt (pathOf name stack) off t.1 t.2)).foldl Ev.app
                (Ev.app r (.cnt (pathOf name stack) off i.count))) m, tsm⟩ := by
          unfold readPos
          simp only [List.append_assoc]
          rw [readU (compressWord_lt off)]
          simp only [Option.bind_eq_bind, Option.bind_some]
          rw [readU f3]
          simp only [Option.bind_some]
          rw [readC f2]
          simp only [Option.bind_some, hu, if_true, topOf]
          rw [addSource_eq hr]
          simp only [Option.bind_some]
          rw [readTargets_enc hc _ _ stack upd hu i.targets f4 ?_ bt ht _ _ tsm
            (sorted_set hm _ _) _ (find?_set_self hm _ _), set_set hm]
          · simp only [hoff]; rfl
          · intro t htm
            apply hst
            simp only [targetNames, List.flatMap_cons, List.mem_append]
            left
            exact List.mem_map.2 ⟨t, htm, rfl⟩
        rw [step]
        simp only [Option.bind_some]
        rw [ih (fun q hq => hfit q (List.mem_cons_of_mem _ hq)) (fun n hn => hst n (by
          simp only [targetNames, List.flatMap_cons, List.mem_append]
          exact Or.inr hn)) b' hb _ (sorted_set hm _ _) _
          (find?_set_self hm _ _), set_set hm]
        have : posEvents (pathOf name stack) ((off, i) :: ps) =
            (Ev.cnt (pathOf name stack) off i.count ::
              i.targets.map (fun t => Ev.tgt (pathOf name stack) off t.1 t.2)) ++
              posEvents (pathOf name stack) ps := by simp [posEvents]
        rw [this, List.foldl_append, List.foldl_cons]

mutual
/-- Names of the indirect-call targets anywhere in a symbol. -/
def symTargets : Sym → List Name
  | .mk d cs => targetNames d.pos ++ callTargets cs
def callTargets : List (Callsite × Sym) → List Name
  | [] => []
  | (_, s) :: t => symTargets s ++ callTargets t
end

/-- Body of the callsite loop of `readSym`. -/
def readCall (cfg : Cfg) (fuel : Nat) (name : Name) (stack : List Frame) (upd : Bool) (st : St) :
    Option St := do
  let (off, b) ← readUnsigned st.bytes
  readSym cfg fuel (frameOf name off :: stack) upd { st with bytes := b }

theorem writeSym_length {strs : List Name} {d : Data} {cs : List (Callsite × Sym)} {b : List UInt8}
    (h : writeSym strs (.mk d cs) = some b) : ∃ p c, writePos strs d.pos = some p ∧
      writeCalls strs cs = some c ∧
      b = writeUnsigned d.pos.length ++ writeUnsigned cs.length ++ p ++ c := by
  simp only [writeSym] at h
  cases hp : writePos strs d.pos with
  | none => simp [hp] at h
  | some p =>
    cases hc : writeCalls strs cs with
    | none => simp [hp, hc] at h
    | some c =>
      simp only [hp, hc, Option.some.injEq] at h
      exact ⟨p, c, rfl, rfl, h.symm⟩

@[simp] theorem writeUnsigned_length (n : Nat) : (writeUnsigned n).length = 4 := by
  simp [writeUnsigned]
@[simp] theorem writeCounter_length (n : Nat) : (writeCounter n).length = 8 := by
  simp [writeCounter]

mutual
theorem readSym_enc {cfg : Cfg} {strs : List Name} (hc : CfgOk cfg strs) (upd : Bool)
    (hu : (cfg.force || upd) = true) : (s : Sym) → SymFits s →
    (∀ n ∈ symTargets s, originalName cfg.pol n = n) →
    ∀ (b : List UInt8), writeSym strs s = some b → ∀ (name : Name) (i : Nat),
    indexOf name strs = some i → ∀ (g : Frame) (stack : List Frame) (fuel : Nat),
    b.length ≤ fuel → ∀ (rest : List UInt8) (m : SymMap) (tsm : OMap Name Nat), OMap.Sorted m →
    ∀ r, OMap.find? m ((((g :: stack).getLast?).map Frame.func).getD name) = some r →
    readSym cfg fuel (g :: stack) upd ⟨writeUnsigned i ++ b ++ rest, m, tsm⟩ =
      some ⟨rest, OMap.set ((((g :: stack).getLast?).map Frame.func).getD name)
        ((symEvents (pathOf name (g :: stack)) s).foldl Ev.app r) m, tsm⟩
  | .mk d cs, hfit, hst, b, hw, name, i, hi, g, stack, fuel, hfuel, rest, m, tsm, hm, r, hr => by
    obtain ⟨p, c, hp, hcl, rfl⟩ := writeSym_length hw
    simp only [SymFits] at hfit
    obtain ⟨f1, f2, f3, f4⟩ := hfit
    obtain ⟨hget, hlt⟩ := indexOf_get hi
    have hlen := hc.len
    obtain ⟨fuel', rfl⟩ : ∃ k, fuel = k + 1 := ⟨fuel - 1, by simp at hfuel; omega⟩
    unfold readSym
    simp only [List.isEmpty_cons, Bool.false_eq_true, if_false, Bool.false_and,
      Option.bind_eq_bind, Option.bind_some, List.append_assoc]
    rw [readU (by omega)]
    simp only [Option.bind_some]
    rw [hc.names, hget]
    simp only [Option.bind_some]
    rw [readU f2]
    simp only [Option.bind_some]
    rw [readU f3]
    simp only [Option.bind_some]
    rw [readPos_enc hc name (g :: stack) upd hu d.pos f1 (fun n hn => hst n (by
      simp only [symTargets, List.mem_append]; exact Or.inl hn)) p hp _ m tsm hm r hr]
    simp only [Option.bind_some]
    have := readCalls_enc hc upd hu cs f4 (fun n hn => hst n (by
      simp only [symTargets, List.mem_append]; exact Or.inr hn)) c hcl name (g :: stack) fuel'
      (by simp at hfuel; omega) rest
      (OMap.set ((((g :: stack).getLast?).map Frame.func).getD name)
        ((posEvents (pathOf name (g :: stack)) d.pos).foldl Ev.app r) m) tsm
      (sorted_set hm _ _) _ (find?_set_self hm _ _)
    unfold readCall at this
    simp only [Option.bind_eq_bind] at this
    rw [this, set_set hm, symEvents, List.foldl_append]
theorem readCalls_enc {cfg : Cfg} {strs : List Name} (hc : CfgOk cfg strs) (upd : Bool)
    (hu : (cfg.force || upd) = true) : (cs : List (Callsite × Sym)) → CallsFit cs →
    (∀ n ∈ callTargets cs, originalName cfg.pol n = n) →
    ∀ (b : List UInt8), writeCalls strs cs = some b → ∀ (name : Name)
    (stack : List Frame) (fuel : Nat), b.length ≤ fuel →
    ∀ (rest : List UInt8) (m : SymMap) (tsm : OMap Name Nat), OMap.Sorted m →
    ∀ r, OMap.find? m (((stack.getLast?).map Frame.func).getD name) = some r →
    loopM (readCall cfg fuel name stack upd) cs.length ⟨b ++ rest, m, tsm⟩ =
      some ⟨rest, OMap.set (((stack.getLast?).map Frame.func).getD name)
        ((callEvents (pathOf name stack) cs).foldl Ev.app r) m, tsm⟩
  | [], _, _, b, hw, name, stack, fuel, _, rest, m, tsm, hm, r, hr => by
    simp only [writeCalls, Option.some.injEq] at hw
    subst hw
    simp [loopM, callEvents, set_self hm _ r hr]
  | (k, s) :: t, hfit, hst, b, hw, name, stack, fuel, hfuel, rest, m, tsm, hm, r, hr => by
    simp only [CallsFit] at hfit
    obtain ⟨f1, f2, f3⟩ := hfit
    simp only [writeCalls] at hw
    by_cases hk : k.2 = []
    · rw [if_pos hk] at hw; cases hw
    rw [if_neg hk] at hw
    cases hi : indexOf k.2 strs with
    | none => simp [hi] at hw
    | some i =>
      cases hb : writeSym strs s with
      | none => simp [hi, hb] at hw
      | some bs =>
        cases hb2 : writeCalls strs t with
        | none => simp [hi, hb, hb2] at hw
        | some bt =>
          simp only [hi, hb, hb2] at hw
          by_cases hi0 : i = 0
          · rw [if_pos hi0] at hw; cases hw
          rw [if_neg hi0] at hw
          simp only [Option.some.injEq] at hw
          subst hw
          simp only [List.length_append, writeUnsigned_length] at hfuel
          have hoff := frameOf_off name k.1 f1
          rw [List.length_cons]
          simp only [loopM]
          have step : readCall cfg fuel name stack upd
              ⟨writeUnsigned (compressWord k.1) ++ writeUnsigned i ++ bs ++ bt ++ rest, m, tsm⟩ =
              some ⟨bt ++ rest, OMap.set (((stack.getLast?).map Frame.func).getD name)
                ((symEvents (pathOf name stack ++ [k]) s).foldl Ev.app r) m, tsm⟩ := by
            unfold readCall
            simp only [List.append_assoc]
            rw [readU (compressWord_lt _)]
            simp only [Option.bind_eq_bind, Option.bind_some]
            have htop : ((((frameOf name (compressWord k.1) :: stack).getLast?).map
                Frame.func).getD k.2) = ((stack.getLast?).map Frame.func).getD name := by
              cases stack with
              | nil => rfl
              | cons g t => rw [List.getLast?_cons_cons]; simp [List.getLast?_cons]
            have := readSym_enc hc upd hu s f2 (fun n hn => hst n (by
              simp only [callTargets, List.mem_append]
              exact Or.inl hn)) bs hb k.2 i hi (frameOf name (compressWord k.1)) stack fuel
              (by omega) (bt ++ rest) m tsm hm r (by rw [htop]; exact hr)
            rw [htop, pathOf_cons, hoff] at this
            simp only [List.append_assoc] at this
            rw [this]
            rfl
          rw [step]
          simp only [Option.bind_some]
          rw [readCalls_enc hc upd hu t f3 (fun n hn => hst n (by
            simp only [callTargets, List.mem_append]
            exact Or.inr hn)) bt hb2 name stack fuel (by omega) rest _ tsm
            (sorted_set hm _ _) _ (find?_set_self hm _ _), set_set hm, callEvents,
            List.foldl_append]
end

end Verif.Afdo

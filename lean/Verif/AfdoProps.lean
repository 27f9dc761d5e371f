import Verif.AfdoFile
import Verif.ThrottleProps

/-! # C07-C09: AFDO profile files -/
namespace Verif.Afdo
open Verif Verif.Gcov Verif.SymbolMap

/-! ## Specification -/

mutual
/-- All samples at locations of a symbol and of everything inlined into it. -/
def samples : Sym → Nat
  | .mk d cs => (d.pos.map (fun p => p.2.count)).sum + samplesCalls cs
def samplesCalls : List (Callsite × Sym) → Nat
  | [] => 0
  | (_, s) :: t => samples s + samplesCalls t
end

mutual
/-- Some location is recorded in the symbol or in something inlined into it. -/
def hasLoc : Sym → Bool
  | .mk d cs => !d.pos.isEmpty || hasLocCalls cs
def hasLocCalls : List (Callsite × Sym) → Bool
  | [] => false
  | (_, s) :: t => hasLoc s || hasLocCalls t
end

/-- The location map with the fields that are not stored (number of instructions) reset to 1. -/
def stored (m : PosMap) : PosMap := m.map (fun p => (p.1, { p.2 with numInst := 1 }))

/-- What remains of function `t` after a round trip: instance by instance. -/
structure SameFunction (t : Top) (s' : Sym) : Prop where
  /-- Entry count. -/
  head : s'.data.head = t.sym.data.head
  /-- Locations and call targets of the function and of every inline instance. -/
  node : ∀ path u, t.sym.at? path = some u → (path = [] ∨ hasLoc u = true) →
    ∃ d', s'.node? path = some d' ∧ d'.pos = stored u.data.pos ∧ d'.total = samples u
  /-- No inline instance appears; the ones without any location below them disappear. -/
  none : ∀ path, (∀ u, t.sym.at? path = some u → path ≠ [] ∧ hasLoc u = false) →
    s'.node? path = none

/-! ## C07 -/

theorem posEvents_eq_nil {pre : List Callsite} {m : PosMap} : posEvents pre m = [] ↔ m = [] := by
  unfold posEvents
  rw [List.flatMap_eq_nil_iff]
  constructor
  · intro h
    cases m with
    | nil => rfl
    | cons a t => exact absurd (h a List.mem_cons_self) (by simp)
  · rintro rfl; simp

mutual
theorem symEvents_eq_nil (pre : List Callsite) : (s : Sym) → (symEvents pre s = [] ↔ hasLoc s = false)
  | .mk d cs => by
    rw [symEvents, List.append_eq_nil_iff, posEvents_eq_nil, callEvents_eq_nil pre cs, hasLoc]
    simp
theorem callEvents_eq_nil (pre : List Callsite) : (cs : List (Callsite × Sym)) →
    (callEvents pre cs = [] ↔ hasLocCalls cs = false)
  | [] => by simp [callEvents, hasLocCalls]
  | (k, s) :: t => by
    rw [callEvents, List.append_eq_nil_iff, symEvents_eq_nil (pre ++ [k]) s,
      callEvents_eq_nil pre t, hasLocCalls]
    simp
end

theorem posEvents_weight (pre : List Callsite) (m : PosMap) :
    ((posEvents pre m).map Ev.weight).sum = (m.map (fun p => p.2.count)).sum := by
  induction m with
  | nil => rfl
  | cons a t ih =>
    have e : posEvents pre (a :: t) = (.cnt pre a.1 a.2.count :: a.2.targets.map
        (fun t => .tgt pre a.1 t.1 t.2)) ++ posEvents pre t := by simp [posEvents]
    rw [e, List.map_append, List.sum_append, ih]
    have : (List.map Ev.weight (a.2.targets.map (fun t => Ev.tgt pre a.1 t.1 t.2))).sum = 0 := by
      rw [List.map_map]
      induction a.2.targets with
      | nil => rfl
      | cons x xs ih => simpa [Ev.weight] using ih
    simp only [List.map_cons, List.sum_cons, this, Ev.weight]
    omega

mutual
theorem symEvents_weight (pre : List Callsite) : (s : Sym) →
    ((symEvents pre s).map Ev.weight).sum = samples s
  | .mk d cs => by
    rw [symEvents, List.map_append, List.sum_append, posEvents_weight, callEvents_weight pre cs,
      samples]
theorem callEvents_weight (pre : List Callsite) : (cs : List (Callsite × Sym)) →
    ((callEvents pre cs).map Ev.weight).sum = samplesCalls cs
  | [] => rfl
  | (k, s) :: t => by
    rw [callEvents, List.map_append, List.sum_append, symEvents_weight (pre ++ [k]) s,
      callEvents_weight pre t, samplesCalls]
end

theorem at?_WF {s : Sym} (h : s.WF) {path : List Callsite} {u : Sym} (hu : s.at? path = some u) :
    u.WF := by
  induction path generalizing s with
  | nil => simp only [Sym.at?, Option.some.injEq] at hu; exact hu ▸ h
  | cons k p ih =>
    simp only [Sym.at?] at hu
    cases hk : lookup s.calls k with
    | none => simp [hk] at hu
    | some c =>
      simp only [hk] at hu
      exact ih (h.child hk) hu

/-- Node of the loaded function over an existing one. -/
theorem loadTop_node? (t : Top) (ht : t.sym.WF) (r : Sym) (path : List Callsite) :
    (loadTop t r).node? path =
      match t.sym.at? path with
      | none => (Sym.mk { r.data with head := r.data.head + t.sym.data.head } r.calls).node? path
      | some u =>
        if hasLoc u = false then
          (Sym.mk { r.data with head := r.data.head + t.sym.data.head } r.calls).node? path
        else
          some ⟨((Sym.mk { r.data with head := r.data.head + t.sym.data.head } r.calls).nodeD path).total
              + samples u,
            ((Sym.mk { r.data with head := r.data.head + t.sym.data.head } r.calls).nodeD path).head,
            (posEvents path u.data.pos).foldl (fun m e => e.onPos m)
              ((Sym.mk { r.data with head := r.data.head + t.sym.data.head } r.calls).nodeD path).pos⟩ := by
  unfold loadTop
  rw [foldl_app_node?, filter_eq_symEvents' path t.sym ht]
  have := filter_symEvents [] path t.sym ht
  rw [List.nil_append] at this
  rw [this]
  cases h : t.sym.at? path with
  | none => simp
  | some u =>
    simp only
    by_cases hl : hasLoc u = false
    · rw [if_pos ((symEvents_eq_nil path u).2 hl), if_pos hl]
    · rw [if_neg (fun h => hl ((symEvents_eq_nil path u).1 h)), if_neg hl, symEvents_weight]

theorem loadTop_new (t : Top) (ht : t.sym.WF) : SameFunction t (loadTop t Sym.new) := by
  have hnode := loadTop_node? t ht Sym.new
  have hroot : ∀ h, (Sym.mk { Sym.new.data with head := Sym.new.data.head + h } Sym.new.calls) =
      Sym.mk ⟨0, h, []⟩ [] := by
    intro h; simp [Sym.new, Sym.data, Sym.calls, Data.zero]
  simp only [hroot] at hnode
  have hpos : ∀ path u, t.sym.at? path = some u →
      (posEvents path u.data.pos).foldl (fun m e => e.onPos m) [] = stored u.data.pos := by
    intro path u hu
    have hw := at?_WF ht hu
    cases u with
    | mk d cs =>
      simp only [Sym.WF] at hw
      exact (pos_fold path _ [] hw.1 hw.2.1 (by simp)).trans rfl
  have hbase : ∀ path h, ((Sym.mk ⟨0, h, []⟩ []).nodeD path).total = 0 ∧
      ((Sym.mk ⟨0, h, []⟩ []).nodeD path).pos = [] := by
    intro path h
    cases path with
    | nil => exact ⟨rfl, rfl⟩
    | cons k p => exact ⟨rfl, rfl⟩
  refine ⟨?_, ?_, ?_⟩
  · have h0 := hnode []
    have e : t.sym.at? [] = some t.sym := by cases t.sym; rfl
    rw [e] at h0
    simp only at h0
    by_cases hl : hasLoc t.sym = false
    · rw [if_pos hl] at h0
      have h1 : (loadTop t Sym.new).node? [] = some (loadTop t Sym.new).data := by
        cases loadTop t Sym.new; rfl
      rw [h1] at h0
      simp only [Sym.node?, Option.some.injEq] at h0
      rw [h0]; rfl
    · rw [if_neg hl] at h0
      have h1 : (loadTop t Sym.new).node? [] = some (loadTop t Sym.new).data := by
        cases loadTop t Sym.new; rfl
      rw [h1] at h0
      simp only [Option.some.injEq] at h0
      rw [h0]; rfl
  · intro path u hu hl
    have h0 := hnode path
    rw [hu] at h0
    simp only at h0
    by_cases hl' : hasLoc u = false
    · rw [if_pos hl'] at h0
      have hp : path = [] := by
        rcases hl with h | h
        · exact h
        · rw [hl'] at h; cases h
      subst hp
      have hev := (symEvents_eq_nil [] u).2 hl'
      have hpz : u.data.pos = [] := by
        cases u with
        | mk d cs =>
          rw [symEvents, List.append_eq_nil_iff, posEvents_eq_nil] at hev
          exact hev.1
      have hsz : samples u = 0 := by rw [← symEvents_weight [] u, hev]; rfl
      exact ⟨_, h0, by rw [hpz]; rfl, by rw [hsz]; rfl⟩
    · rw [if_neg hl', (hbase _ _).1, (hbase _ _).2, hpos path u hu] at h0
      exact ⟨_, h0, rfl, by simp⟩
  · intro path h
    have h0 := hnode path
    cases hu : t.sym.at? path with
    | none =>
      rw [hu] at h0
      cases path with
      | nil => cases hs : t.sym; rw [hs] at hu; simp [Sym.at?] at hu
      | cons k p => rw [h0]; rfl
    | some u =>
      obtain ⟨hp, hl⟩ := h u hu
      rw [hu] at h0
      simp only [if_pos hl] at h0
      rw [h0]
      cases path with
      | nil => exact absurd rfl hp
      | cons k p => rfl

/-- **C07** (partial: names with the suffixes rewritten by the writer, names elided by the reader's
policy, entry counts of inline instances and inline instances without any location are excluded; see
the counterexamples below).  A profile of any depth and width that fits the on-disk fields, written
in any version and read into an empty map, yields the same functions. -/
theorem afdo_roundtrip_partial (v : Nat) (hv : v < 2 ^ 32) (p : Profile) (hp : ProfileFits p)
    (hwf : ∀ q ∈ p.syms, q.2.sym.WF) (force : Bool) (pol : Policy)
    (hfix : ∀ n ∈ profileNames p.syms, fixName n = n)
    (hst : ∀ q ∈ p.syms, ∀ n ∈ symTargets q.2.sym, originalName pol n = n) (b : List UInt8)
    (hw : writeFile v p = some b) :
    ∃ R, readFile force pol [] [] b = some R ∧
      (∀ n, n ∉ p.syms.map Prod.fst → OMap.find? R.map n = none) ∧
      (∀ q ∈ p.syms, ∃ s', OMap.find? R.map q.1 = some s' ∧ SameFunction q.2 s' ∧
        OMap.find? R.ts q.1 = some (if v ≥ 3 then q.2.ts else 0)) ∧
      R.summary = (if v ≥ 3 then some p.summary else none) ∧
      R.workingSet = p.workingSet.map (fun w => (w.1 / 10 * 10, w.2)) := by
  have h := readFile_enc v (by simpa using hv) p hp force pol hfix hst b hw [] [] OMap.sorted_nil
    (Or.inr (fun q _ => rfl))
  refine ⟨_, h, ?_, ?_, rfl, rfl⟩
  · intro n hn
    have := (loadAll_find? p.syms hp.nodup [] OMap.sorted_nil).2 n
    rw [this]
    cases hf : OMap.find? p.syms n with
    | none => rfl
    | some x => exact absurd (List.mem_map.2 ⟨_, OMap.mem_of_find?_some hf, rfl⟩) hn
  · intro q hq
    have hfq : ∀ (l : List (Name × Top)), (l.map Prod.fst).Nodup → q ∈ l →
        OMap.find? l q.1 = some q.2 := by
      intro l
      induction l with
      | nil => intro _ h; cases h
      | cons a t ih =>
        intro hn hm
        obtain ⟨k, x⟩ := a
        simp only [List.map_cons, List.nodup_cons] at hn
        simp only [OMap.find?]
        rcases List.mem_cons.1 hm with rfl | hm2
        · rw [if_pos rfl]
        · rw [if_neg (by rintro rfl; exact hn.1 (List.mem_map.2 ⟨q, hm2, rfl⟩))]
          exact ih hn.2 hm2
    refine ⟨loadTop q.2 Sym.new, ?_, loadTop_new q.2 (hwf q hq), ?_⟩
    · have := (loadAll_find? p.syms hp.nodup [] OMap.sorted_nil).2 q.1
      rw [this, hfq _ hp.nodup hq]
      rfl
    · have key : ∀ (l : List (Name × Top)) (m : OMap Name Nat), OMap.Sorted m →
          (l.map Prod.fst).Nodup →
          (q ∈ l → OMap.find? (loadTs v l m) q.1 = some (if v ≥ 3 then q.2.ts else 0)) ∧
          (q.1 ∉ l.map Prod.fst → OMap.find? (loadTs v l m) q.1 = OMap.find? m q.1) := by
        intro l
        induction l with
        | nil => intro m _ _; exact ⟨fun h => absurd h List.not_mem_nil, fun _ => rfl⟩
        | cons a t ih =>
          intro m hm hn
          obtain ⟨k, x⟩ := a
          simp only [List.map_cons, List.nodup_cons] at hn
          have hs : OMap.Sorted (OMap.set k (if v ≥ 3 then x.ts else 0) m) :=
            OMap.Sorted.upsert hm _ _
          obtain ⟨i1, i2⟩ := ih _ hs hn.2
          have hl : loadTs v ((k, x) :: t) m = loadTs v t (OMap.set k (if v ≥ 3 then x.ts else 0) m) :=
            rfl
          rw [hl]
          constructor
          · intro hq
            rcases List.mem_cons.1 hq with rfl | hq
            · rw [i2 hn.1]
              unfold OMap.set
              rw [OMap.find?_upsert hm, if_pos rfl]
            · exact i1 hq
          · intro hq
            simp only [List.map_cons, List.mem_cons, not_or] at hq
            rw [i2 hq.2]
            unfold OMap.set
            rw [OMap.find?_upsert hm, if_neg hq.1]
      exact (key p.syms [] OMap.sorted_nil hp.nodup).1 hq

mutual
theorem consistent_samples : (s : Sym) → s.WF → s.Consistent → samples s = s.data.total
  | .mk d cs, hwf, h => by
    have h0 := h [] (.mk d cs) rfl
    change d.total = (d.pos.map (fun p => p.2.count)).sum + (cs.map (fun p => p.2.data.total)).sum at h0
    change _ = d.total
    simp only [Sym.WF] at hwf
    rw [samples, consistent_samplesCalls cs hwf.2.2.1 hwf.2.2.2 (by
      intro k c hk path n hn
      exact h (k :: path) n (by simp only [Sym.at?, Sym.calls, hk]; exact hn))]
    omega
theorem consistent_samplesCalls : (cs : List (Callsite × Sym)) → (cs.map Prod.fst).Nodup →
    WFCalls cs → (∀ k c, lookup cs k = some c → c.Consistent) →
    samplesCalls cs = (cs.map (fun p => p.2.data.total)).sum
  | [], _, _, _ => rfl
  | (k, s) :: t, hn, hwf, h => by
    simp only [List.map_cons, List.nodup_cons] at hn
    simp only [WFCalls] at hwf
    rw [samplesCalls, consistent_samples s hwf.1 (h k s (by simp [lookup])),
      consistent_samplesCalls t hn.2 hwf.2 (fun k' c hk' => h k' c (by
        have : k' ≠ k := by
          rintro rfl
          have : ∀ (l : List (Callsite × Sym)), lookup l k' = some c → k' ∈ l.map Prod.fst := by
            intro l
            induction l with
            | nil => intro h; simp [lookup] at h
            | cons a t ih =>
              intro h
              simp only [lookup] at h
              by_cases ha : k' = a.1
              · simp [ha]
              · rw [if_neg ha] at h; simp only [List.map_cons, List.mem_cons]; exact Or.inr (ih h)
          exact hn.1 (this t hk')
        simp only [lookup]; rw [if_neg this]; exact hk'))]
    simp
end

/-- C07, totals: when the totals of the written profile are consistent (every total is the sum of
what is below it), the totals of all instances are restored too. -/
theorem afdo_roundtrip_totals (t : Top) (hwf : t.sym.WF) (hc : t.sym.Consistent) (s' : Sym)
    (h : SameFunction t s') (path : List Callsite) (u : Sym) (hu : t.sym.at? path = some u)
    (hl : path = [] ∨ hasLoc u = true) :
    ∃ d', s'.node? path = some d' ∧ d'.total = u.data.total := by
  obtain ⟨d', h1, _, h3⟩ := h.node path u hu hl
  refine ⟨d', h1, ?_⟩
  rw [h3, consistent_samples u (at?_WF hwf hu)]
  intro p2 n hn
  apply hc (path ++ p2) n
  clear h1 h3 hl
  have : ∀ (s : Sym) (p1 : List Callsite), s.at? p1 = some u → s.at? (p1 ++ p2) = some n := by
    intro s p1
    induction p1 generalizing s with
    | nil =>
      intro h
      simp only [Sym.at?, Option.some.injEq] at h
      subst h; exact hn
    | cons k p ih =>
      intro h
      simp only [Sym.at?, List.cons_append] at h ⊢
      cases hk : lookup s.calls k with
      | none => simp [hk] at h
      | some c => simp only [hk] at h ⊢; exact ih c h
  exact this _ _ hu

end Verif.Afdo

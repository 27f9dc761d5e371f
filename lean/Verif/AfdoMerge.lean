import Verif.AfdoWitness

/-! # C46: reading a further AFDO profile into a map (profile_merger) -/
namespace Verif.Afdo
open Verif Verif.Gcov Verif.SymbolMap

/-! ## Specification -/

/-- Count recorded at a location. -/
def cntOf (m : PosMap) (loc : Nat) : Nat := ((OMap.find? m loc).map PInfo.count).getD 0

/-- Count recorded for an indirect-call target at a location. -/
def tgtOf (m : PosMap) (loc : Nat) (n : Name) : Option Nat :=
  (OMap.find? m loc).bind (fun i => OMap.find? i.targets n)

/-- Count at location `loc` of the inline instance `path`; 0 when the instance does not exist. -/
def countAt (s : Sym) (path : List Callsite) (loc : Nat) : Nat :=
  match s.node? path with
  | none => 0
  | some d => cntOf d.pos loc

/-- Target count at location `loc` of the inline instance `path`. -/
def targetAt (s : Sym) (path : List Callsite) (loc : Nat) (n : Name) : Option Nat :=
  match s.node? path with
  | none => none
  | some d => tgtOf d.pos loc n

/-- Total of the inline instance `path`; 0 when it does not exist. -/
def totalAt (s : Sym) (path : List Callsite) : Nat :=
  match s.node? path with
  | none => 0
  | some d => d.total

/-- Samples of the written profile in the instance `path` and below it. -/
def samplesAt (s : Sym) (path : List Callsite) : Nat :=
  match s.at? path with
  | none => 0
  | some u => samples u

/-! ## Lemmas -/

/-- Invariant of a location map. -/
def PosOk (m : PosMap) : Prop := OMap.Sorted m ∧ ∀ loc i, OMap.find? m loc = some i → OMap.Sorted i.targets

theorem modify_ok {m : PosMap} (h : PosOk m) (loc : Nat) (f : PInfo → PInfo)
    (hf : ∀ i, OMap.Sorted i.targets → OMap.Sorted (f i).targets) : PosOk (m.modify loc f) := by
  unfold PosMap.modify
  refine ⟨OMap.Sorted.upsert h.1 _ _, ?_⟩
  intro l i hi
  rw [OMap.find?_upsert h.1] at hi
  by_cases hl : l = loc
  · rw [if_pos hl] at hi
    cases hi
    apply hf
    cases hq : OMap.find? m loc with
    | none => exact OMap.sorted_nil
    | some j => exact h.2 _ _ hq
  · rw [if_neg hl] at hi; exact h.2 _ _ hi

theorem onPos_ok {m : PosMap} (h : PosOk m) (e : Ev) : PosOk (e.onPos m) := by
  cases e with
  | cnt p loc c =>
    unfold Ev.onPos
    apply modify_ok h
    intro i hi; exact hi
  | tgt p loc n c =>
    unfold Ev.onPos
    apply modify_ok h
    intro i hi; exact OMap.Sorted.upsert hi _ _

theorem cntOf_cnt {m : PosMap} (h : PosOk m) (p : List Callsite) (loc c l : Nat) :
    cntOf ((Ev.cnt p loc c).onPos m) l = cntOf m l + if l = loc then c else 0 := by
  unfold cntOf Ev.onPos PosMap.modify
  rw [OMap.find?_upsert h.1]
  by_cases hl : l = loc
  · subst hl
    rw [if_pos rfl, if_pos rfl]
    cases OMap.find? m l <;> simp [PInfo.zero]
  · rw [if_neg hl, if_neg hl]; rfl

theorem tgtOf_cnt {m : PosMap} (h : PosOk m) (p : List Callsite) (loc c l : Nat) (n : Name) :
    tgtOf ((Ev.cnt p loc c).onPos m) l n = tgtOf m l n := by
  unfold tgtOf Ev.onPos PosMap.modify
  rw [OMap.find?_upsert h.1]
  by_cases hl : l = loc
  · subst hl
    rw [if_pos rfl]
    cases OMap.find? m l <;> simp [PInfo.zero, OMap.find?]
  · rw [if_neg hl]

theorem cntOf_tgt {m : PosMap} (h : PosOk m) (p : List Callsite) (loc : Nat) (n : Name) (c l : Nat) :
    cntOf ((Ev.tgt p loc n c).onPos m) l = cntOf m l := by
  unfold cntOf Ev.onPos PosMap.modify
  rw [OMap.find?_upsert h.1]
  by_cases hl : l = loc
  · subst hl
    rw [if_pos rfl]
    cases OMap.find? m l <;> simp [PInfo.zero]
  · rw [if_neg hl]

theorem tgtOf_tgt {m : PosMap} (h : PosOk m) (p : List Callsite) (loc : Nat) (n : Name) (c l : Nat)
    (x : Name) : tgtOf ((Ev.tgt p loc n c).onPos m) l x =
      if l = loc ∧ x = n then some c else tgtOf m l x := by
  unfold tgtOf Ev.onPos PosMap.modify
  rw [OMap.find?_upsert h.1]
  by_cases hl : l = loc
  · subst hl
    rw [if_pos rfl]
    simp only [Option.bind_some, true_and]
    unfold OMap.set
    cases hq : OMap.find? m l with
    | none =>
      simp only [Option.getD_none, PInfo.zero, Option.bind_none]
      rw [OMap.find?_upsert OMap.sorted_nil]
      by_cases hx : x = n
      · rw [if_pos hx, if_pos hx]
      · rw [if_neg hx, if_neg hx]; rfl
    | some i =>
      simp only [Option.getD_some, Option.bind_some]
      rw [OMap.find?_upsert (h.2 _ _ hq)]
      by_cases hx : x = n
      · rw [if_pos hx, if_pos hx]
      · rw [if_neg hx, if_neg hx]
  · rw [if_neg hl, if_neg (fun h => hl h.1)]

theorem targets_fold_of {acc : PosMap} (h : PosOk acc) (p : List Callsite) (loc : Nat)
    (ts : OMap Name Nat) (hs : OMap.Sorted ts) :
    PosOk ((ts.map (fun t => Ev.tgt p loc t.1 t.2)).foldl (fun m e => e.onPos m) acc) ∧
    ∀ l, cntOf ((ts.map (fun t => Ev.tgt p loc t.1 t.2)).foldl (fun m e => e.onPos m) acc) l =
        cntOf acc l ∧
      ∀ x, tgtOf ((ts.map (fun t => Ev.tgt p loc t.1 t.2)).foldl (fun m e => e.onPos m) acc) l x =
        if l = loc then (OMap.find? ts x).or (tgtOf acc l x) else tgtOf acc l x := by
  induction ts generalizing acc with
  | nil =>
    refine ⟨h, fun l => ⟨rfl, fun x => ?_⟩⟩
    simp [OMap.find?]
  | cons t r ih =>
    obtain ⟨n, c⟩ := t
    have hs' := List.pairwise_cons.1 hs
    obtain ⟨i1, i2⟩ := ih (onPos_ok h (.tgt p loc n c)) hs'.2
    refine ⟨i1, fun l => ?_⟩
    obtain ⟨j1, j2⟩ := i2 l
    refine ⟨?_, fun x => ?_⟩
    · rw [List.map_cons, List.foldl_cons, j1, cntOf_tgt h]
    · rw [List.map_cons, List.foldl_cons, j2 x, tgtOf_tgt h]
      by_cases hl : l = loc
      · simp only [hl, if_true, true_and]
        simp only [OMap.find?]
        by_cases hx : x = n
        · subst hx
          rw [if_pos rfl, if_pos rfl, OMap.find?_eq_none_of_lt (fun q hq => hs'.1 q hq)]
          rfl
        · rw [if_neg hx, if_neg hx]
      · rw [if_neg hl, if_neg hl, if_neg (fun h => hl h.1)]

theorem pos_fold_of {acc : PosMap} (h : PosOk acc) (p : List Callsite) (m : PosMap)
    (hm : OMap.Sorted m) (ht : ∀ q ∈ m, OMap.Sorted q.2.targets) :
    PosOk ((posEvents p m).foldl (fun m e => e.onPos m) acc) ∧
    ∀ l, cntOf ((posEvents p m).foldl (fun m e => e.onPos m) acc) l = cntOf acc l + cntOf m l ∧
      ∀ x, tgtOf ((posEvents p m).foldl (fun m e => e.onPos m) acc) l x =
        (tgtOf m l x).or (tgtOf acc l x) := by
  induction m generalizing acc with
  | nil =>
    refine ⟨h, fun l => ⟨rfl, fun x => rfl⟩⟩
  | cons a t ih =>
    obtain ⟨loc, i⟩ := a
    have hs' := List.pairwise_cons.1 hm
    have e : posEvents p ((loc, i) :: t) = (Ev.cnt p loc i.count :: i.targets.map
        (fun t => Ev.tgt p loc t.1 t.2)) ++ posEvents p t := by simp [posEvents]
    have hc := onPos_ok h (.cnt p loc i.count)
    obtain ⟨g1, g2⟩ := targets_fold_of hc p loc i.targets (ht _ List.mem_cons_self)
    obtain ⟨i1, i2⟩ := ih g1 hs'.2 (fun q hq => ht q (List.mem_cons_of_mem _ hq))
    rw [e, List.foldl_append, List.foldl_cons]
    refine ⟨i1, fun l => ?_⟩
    obtain ⟨j1, j2⟩ := i2 l
    obtain ⟨k1, k2⟩ := g2 l
    have hnone : OMap.find? t loc = none := OMap.find?_eq_none_of_lt (fun q hq => hs'.1 q hq)
    refine ⟨?_, fun x => ?_⟩
    · rw [j1, k1, cntOf_cnt h]
      by_cases hl : l = loc
      · subst hl
        simp [cntOf, OMap.find?, hnone]
      · simp [cntOf, OMap.find?, hl]
    · rw [j2 x, k2 x, tgtOf_cnt h]
      by_cases hl : l = loc
      · subst hl
        simp [tgtOf, OMap.find?, hnone]
      · simp [tgtOf, OMap.find?, hl]

theorem node?_PosOk {s : Sym} (h : s.WF) {path : List Callsite} {d : Data}
    (hd : s.node? path = some d) : PosOk d.pos := by
  induction path generalizing s with
  | nil =>
    cases s with
    | mk d' cs =>
      simp only [Sym.node?, Option.some.injEq] at hd
      subst hd
      simp only [Sym.WF] at h
      exact ⟨h.1, fun l i hi => h.2.1 _ (OMap.mem_of_find?_some hi)⟩
  | cons k p ih =>
    simp only [Sym.node?] at hd
    cases hk : lookup s.calls k with
    | none => simp [hk] at hd
    | some c => simp only [hk] at hd; exact ih (h.child hk) hd

theorem node?_at? (s : Sym) (path : List Callsite) : s.node? path = (s.at? path).map Sym.data := by
  induction path generalizing s with
  | nil => rfl
  | cons k p ih =>
    simp only [Sym.node?, Sym.at?]
    cases lookup s.calls k with
    | none => rfl
    | some c => exact ih c

theorem hasLoc_false {u : Sym} (h : hasLoc u = false) : u.data.pos = [] ∧ samples u = 0 := by
  have hev := (symEvents_eq_nil [] u).2 h
  refine ⟨?_, by rw [← symEvents_weight [] u, hev]; rfl⟩
  cases u with
  | mk d cs =>
    rw [symEvents, List.append_eq_nil_iff, posEvents_eq_nil] at hev
    exact hev.1

/-- Effect of loading the written form of `t` on top of the symbol `r`. -/
theorem loadTop_over (t : Top) (ht : t.sym.WF) (r : Sym) (hr : r.WF) :
    (loadTop t r).data.head = r.data.head + t.sym.data.head ∧
    ∀ path, totalAt (loadTop t r) path = totalAt r path + samplesAt t.sym path ∧
      ∀ loc, countAt (loadTop t r) path loc = countAt r path loc + countAt t.sym path loc ∧
        ∀ n, targetAt (loadTop t r) path loc n =
          (targetAt t.sym path loc n).or (targetAt r path loc n) := by
  have hroot : ∀ path, ∃ hd : Data → Nat, (Sym.mk { r.data with head := r.data.head + t.sym.data.head } r.calls).node?
      path = (r.node? path).map (fun d => { d with head := hd d }) := by
    intro path
    cases path with
    | nil => exact ⟨fun d => d.head + t.sym.data.head, by cases r; rfl⟩
    | cons k p => exact ⟨fun d => d.head, by simp [Sym.node?, Sym.calls]⟩
  constructor
  · have h0 := loadTop_node? t ht r []
    have e1 : ∀ s : Sym, s.node? [] = some s.data := fun s => by cases s; rfl
    have e2 : t.sym.at? [] = some t.sym := by cases t.sym; rfl
    rw [e1, e2] at h0
    simp only at h0
    split at h0
    · rw [e1] at h0
      exact congrArg Data.head (Option.some.inj h0)
    · exact congrArg Data.head (Option.some.inj h0)
  · intro path
    obtain ⟨hd, hrp⟩ := hroot path
    have h0 := loadTop_node? t ht r path
    have hbase : ∀ d', (loadTop t r).node? path = (r.node? path).map d' →
        (∀ d, (d' d).total = d.total ∧ (d' d).pos = d.pos) →
        totalAt (loadTop t r) path = totalAt r path ∧ ∀ loc,
          countAt (loadTop t r) path loc = countAt r path loc ∧
          ∀ n, targetAt (loadTop t r) path loc n = targetAt r path loc n := by
      intro d' h hh
      unfold totalAt countAt targetAt
      rw [h]
      cases r.node? path with
      | none => exact ⟨rfl, fun _ => ⟨rfl, fun _ => rfl⟩⟩
      | some d => simp [(hh d).1, (hh d).2]
    cases hu : t.sym.at? path with
    | none =>
      rw [hu] at h0
      simp only [hrp] at h0
      obtain ⟨b1, b2⟩ := hbase _ h0 (fun d => ⟨rfl, rfl⟩)
      have hn : t.sym.node? path = none := by rw [node?_at?, hu]; rfl
      refine ⟨by rw [b1]; simp [samplesAt, hu], fun loc => ⟨?_, fun n => ?_⟩⟩
      · rw [(b2 loc).1]; simp [countAt, hn]
      · rw [(b2 loc).2]; simp [targetAt, hn]
    | some u =>
      have hn : t.sym.node? path = some u.data := by rw [node?_at?, hu]; rfl
      rw [hu] at h0
      simp only at h0
      by_cases hl : hasLoc u = false
      · obtain ⟨z1, z2⟩ := hasLoc_false hl
        rw [if_pos hl, hrp] at h0
        obtain ⟨b1, b2⟩ := hbase _ h0 (fun d => ⟨rfl, rfl⟩)
        refine ⟨by rw [b1]; simp [samplesAt, hu, z2], fun loc => ⟨?_, fun n => ?_⟩⟩
        · rw [(b2 loc).1]; simp [countAt, hn, z1, cntOf, OMap.find?]
        · rw [(b2 loc).2]; simp [targetAt, hn, z1, tgtOf, OMap.find?]
      · rw [if_neg hl] at h0
        have hD : ∃ hd', (Sym.mk { r.data with head := r.data.head + t.sym.data.head } r.calls).nodeD
            path = { (r.nodeD path) with head := hd' } := by
          unfold Sym.nodeD
          rw [hrp]
          cases r.node? path with
          | none => exact ⟨0, rfl⟩
          | some d => exact ⟨hd d, rfl⟩
        obtain ⟨hd', hD⟩ := hD
        rw [hD] at h0
        simp only at h0
        have hok : PosOk (r.nodeD path).pos := by
          unfold Sym.nodeD
          cases hq : r.node? path with
          | none => exact ⟨OMap.sorted_nil, fun _ _ h => by simp [Data.zero, OMap.find?] at h⟩
          | some d => exact node?_PosOk hr hq
        have huw := at?_WF ht hu
        have hus : OMap.Sorted u.data.pos ∧ ∀ q ∈ u.data.pos, OMap.Sorted q.2.targets := by
          cases u with
          | mk d cs => simp only [Sym.WF] at huw; exact ⟨huw.1, huw.2.1⟩
        obtain ⟨_, f2⟩ := pos_fold_of hok path u.data.pos hus.1 hus.2
        have ht0 : totalAt r path = (r.nodeD path).total := by
          unfold totalAt Sym.nodeD; cases r.node? path <;> rfl
        have hc0 : ∀ loc, countAt r path loc = cntOf (r.nodeD path).pos loc := by
          intro loc; unfold countAt Sym.nodeD; cases r.node? path <;> rfl
        have hg0 : ∀ loc n, targetAt r path loc n = tgtOf (r.nodeD path).pos loc n := by
          intro loc n; unfold targetAt Sym.nodeD; cases r.node? path <;> rfl
        refine ⟨?_, fun loc => ⟨?_, fun n => ?_⟩⟩
        · rw [ht0]; simp [totalAt, h0, samplesAt, hu]
        · rw [hc0]; simp only [countAt, h0, hn]; exact (f2 loc).1
        · rw [hg0]; simp only [targetAt, h0, hn]; exact (f2 loc).2 n

/-- What the map says about function `n` (an absent function has no samples). -/
def funcOf (m : SymMap) (n : Name) : Sym := (OMap.find? m n).getD Sym.new

/-- **C46** (partial: indirect-call target counts are replaced, not added).  Reading a profile with
`force_update` into a map that already holds profiles adds entry counts, location counts and totals
instance by instance; functions not in the file are unchanged.  A target count in the file replaces
the one in the map. -/
theorem afdo_merge_adds_partial (v : Nat) (hv : v < 2 ^ 32) (p : Profile) (hp : ProfileFits p)
    (hwf : ∀ q ∈ p.syms, q.2.sym.WF) (pol : Policy)
    (hfix : ∀ n ∈ profileNames p.syms, fixName n = n)
    (hst : ∀ q ∈ p.syms, ∀ n ∈ symTargets q.2.sym, originalName pol n = n) (b : List UInt8)
    (hw : writeFile v p = some b) (m : SymMap) (hm : OMap.Sorted m) (hmwf : ∀ x ∈ m, x.2.WF)
    (tsm : OMap Name Nat) :
    ∃ R, readFile true pol m tsm b = some R ∧
      (∀ n, n ∉ p.syms.map Prod.fst → OMap.find? R.map n = OMap.find? m n) ∧
      (∀ q ∈ p.syms,
        (funcOf R.map q.1).data.head = (funcOf m q.1).data.head + q.2.sym.data.head ∧
        ∀ path, totalAt (funcOf R.map q.1) path =
            totalAt (funcOf m q.1) path + samplesAt q.2.sym path ∧
          ∀ loc, countAt (funcOf R.map q.1) path loc =
              countAt (funcOf m q.1) path loc + countAt q.2.sym path loc ∧
            ∀ n, targetAt (funcOf R.map q.1) path loc n =
              (targetAt q.2.sym path loc n).or (targetAt (funcOf m q.1) path loc n)) := by
  have h := readFile_enc v (by simpa using hv) p hp true pol hfix hst b hw m tsm hm (Or.inl rfl)
  refine ⟨_, h, ?_, ?_⟩
  · intro n hn
    have := (loadAll_find? p.syms hp.nodup m hm).2 n
    rw [this]
    cases hf : OMap.find? p.syms n with
    | none => rfl
    | some x => exact absurd (List.mem_map.2 ⟨_, OMap.mem_of_find?_some hf, rfl⟩) hn
  · intro q hq
    have hfq : ∀ (l : List (Name × Top)), (l.map Prod.fst).Nodup → q ∈ l →
        OMap.find? l q.1 = some q.2 := by
      intro l
      induction l with
      | nil => intro _ h; cases h
      | cons a t ih =>
        intro hn hm
        obtain ⟨k, x⟩ := a
        simp only [List.map_cons, List.nodup_cons] at hn
        simp only [OMap.find?]
        rcases List.mem_cons.1 hm with rfl | hm2
        · rw [if_pos rfl]
        · rw [if_neg (by rintro rfl; exact hn.1 (List.mem_map.2 ⟨q, hm2, rfl⟩))]
          exact ih hn.2 hm2
    have e : funcOf (loadAll p.syms m) q.1 = loadTop q.2 (funcOf m q.1) := by
      have := (loadAll_find? p.syms hp.nodup m hm).2 q.1
      unfold funcOf
      rw [this, hfq _ hp.nodup hq]
      rfl
    have hwr : (funcOf m q.1).WF := by
      unfold funcOf
      cases hx : OMap.find? m q.1 with
      | none => simp [Sym.new, Sym.WF, WFCalls, Data.zero, OMap.Sorted]
      | some s => exact hmwf _ (OMap.mem_of_find?_some hx)
    have := loadTop_over q.2 (hwf q hq) (funcOf m q.1) hwr
    rw [← e] at this
    exact this

/-- C46 does not hold for indirect-call targets: merging the sample profile with itself doubles the
location count 7 but leaves the target count 4. -/
theorem afdo_merge_targets_violated :
    (((writeFile 2 sampleProfile).bind (fun b => (readFile true .all [] [] b).bind (fun R =>
      readFile true .all R.map R.ts b))).map (fun R =>
        (countAt (funcOf R.map [97]) [] 8589934592, targetAt (funcOf R.map [97]) [] 8589934592 [99]))) =
      some (14, some 4) := by decide +kernel

end Verif.Afdo

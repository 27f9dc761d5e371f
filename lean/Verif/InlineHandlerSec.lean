import Verif.InlineHandlerUnit

/-! # C63: the whole section -/
namespace Verif.InlineHandler
open Verif Verif.DwarfInfo Verif.Inline Verif.ByteReader
open Verif.LineMap (LMap Tab LSeq Rep Reports Described fileOf inside tabOf)
open Verif.DwarfLine (Ev Unit4)

/-! ## Specification -/

/-- What the units of a section say, from an offset on: each one by itself. -/
def SecDesc (env : Env) (e : Endian) (w hi : Nat) (secs : Secs) (D : Nat → Sub) (code : Nat → Bool) :
    List (IUnit × List Nat) → Nat → List (Option LSeq) → Prop
  | [], _, lives => lives = []
  | (u, bs) :: us, off, lives => ∃ l l', UnitDesc env e w hi secs D code u off l ∧
      SecDesc env e w hi secs D code us (off + bs.length) l' ∧ lives = l ++ l'

/-- All subprograms and inlined calls of a section. -/
def secFns (us : List (IUnit × List Nat)) : List FnEntry := us.flatMap fun u => unitFns u.1

/-- Those that are code of the program. -/
def secKept (code : Nat → Bool) (us : List (IUnit × List Nat)) : List FnEntry := us.flatMap fun u => unitKept code u.1

/-- Tags whose attributes are of interest: subprograms, inlined calls and units. -/
def wanted (tag : Nat) : Bool := decide (tag = 0x2e ∨ tag = 0x1d ∨ tag = 0x11 ∨ tag = 0x4a)

/-! ## Proof -/

theorem handler_wants (env : Env) : Wants (handler env) wanted := by
  intro s off tag attrs s' w h
  have h : some (startDie s off tag) = some (s', w) := h
  simp only [Option.some.injEq] at h
  unfold startDie at h
  by_cases hf : tag = 0x2e ∨ tag = 0x1d
  · have e1 : isFn tag = true := by simpa [isFn] using hf
    have e2 : wanted tag = true := by unfold wanted; simp; tauto
    simp only [e1, if_true, Prod.mk.injEq] at h
    rw [← h.2, e2]
  · have e1 : isFn tag = false := by simpa [isFn] using hf
    simp only [e1, Bool.false_eq_true, if_false, Prod.mk.injEq] at h
    rw [← h.2]
    unfold wanted isCu
    rw [decide_eq_decide]
    tauto

theorem bases_eq (env : Env) (secs : Secs) (u : IUnit) (s : St) : IUnit.bases (handler env) secs u s =
    { s with strBase := (table0 u secs.strOffsets).getD s.strBase, addrBase := (table0 u secs.addr).getD s.addrBase } := by
  unfold IUnit.bases table0
  by_cases h1 : u.version = 5 ∧ secs.strOffsets.isSome
  · rw [if_pos h1, if_pos h1]
    by_cases h2 : u.version = 5 ∧ secs.addr.isSome
    · rw [if_pos h2, if_pos h2]; rfl
    · rw [if_neg h2, if_neg h2]; rfl
  · rw [if_neg h1, if_neg h1]
    by_cases h2 : u.version = 5 ∧ secs.addr.isSome
    · rw [if_pos h2, if_pos h2]; rfl
    · rw [if_neg h2, if_neg h2]; rfl

theorem unit_walk {env : Env} {e : Endian} {w hi : Nat} {secs : Secs} {D : Nat → Sub} {code : Nat → Bool} {u : IUnit}
    {off : Nat} {lives : List (Option LSeq)} (h : UnitDesc env e w hi secs D code u off lives) (n : Nat) (s : St)
    (hst : s.stack = []) {acc : Reports} (hm : Rep s.lm acc) :
    ∃ s' acc', u.walk (handler env) e secs off n s = some s' ∧ s'.stack = [] ∧
      s'.heap = s.heap ++ cells u.abbrevs D code s.heap.length none none u.forest ∧
      s'.order = s.order ++ ord u.abbrevs code s.heap.length none u.forest ∧
      s'.byOff = addOffs s.byOff (offIdx u.abbrevs s.heap.length u.forest) ∧
      Rep s'.lm (acc ++ acc') ∧ inside hi acc' = (lives.flatMap Option.toList).flatMap LSeq.reports := by
  have hstart : (handler env).startUnit s off u.addrSize u.offSize (n - u.ilSize) u.version =
      some ({ s with unitOff := off, base := 0, version := u.version, tab := Tab.init }, true) := by
    show startUnit s off u.version = _
    unfold startUnit
    rw [hst]
    rfl
  unfold IUnit.walk
  simp only [Option.bind_eq_bind]
  rw [hstart]
  simp only [Option.bind_some, if_true]
  -- the bases
  obtain ⟨s0, hs0, hb1, hb2, f1, f2, f3, f4, f5, f6, f7, f8, f9, f10⟩ : ∃ s0 : St, IUnit.bases (handler env) secs u
      { s with unitOff := off, base := 0, version := u.version, tab := Tab.init } = s0 ∧
      (∀ x, table0 u secs.strOffsets = some x → s0.strBase = x) ∧ (∀ x, table0 u secs.addr = some x → s0.addrBase = x) ∧
      s0.tags = s.tags ∧ s0.heap = s.heap ∧ s0.stack = s.stack ∧ s0.order = s.order ∧ s0.byOff = s.byOff ∧
      s0.unitOff = off ∧ s0.base = 0 ∧ s0.version = u.version ∧ s0.tab = Tab.init ∧ s0.lm = s.lm := by
    refine ⟨_, bases_eq env secs u _, fun x hx => ?_, fun x hx => ?_, rfl, rfl, rfl, rfl, rfl, rfl, rfl, rfl, rfl, rfl⟩
    · simp only [hx, Option.getD_some]
    · simp only [hx, Option.getD_some]
  rw [hs0]
  cases h with
  | other hin hfns =>
    have hroot : Root s0 none := by unfold Root; rw [f3, hst]; rfl
    have := walk_entries env (u.ctx e secs) u.abbrevs
      { off := s0.unitOff, base := s0.base, version := s0.version, compDir := s0.compDir, files := fun _ => none, sb := none,
        ab := none, rb := none } D code u.forest s0 none none hin
      ⟨rfl, rfl, rfl, rfl, (fun _ _ _ h => by cases h), (fun _ h => by cases h), (fun _ h => by cases h), (fun _ h => by cases h)⟩ hroot
      (fun x hx => by unfold unitFns at hfns; rw [hfns] at hx; cases hx)
    rw [this]
    refine ⟨_, [], rfl, ?_, ?_, ?_, ?_, ?_, rfl⟩
    · show s0.stack = []
      rw [f3, hst]
    · simp only [after, f2, f3, hst, List.head?_nil]
    · simp only [after, f2, f4]
    · simp only [after, f2, f5]
    · show Rep s0.lm _
      rw [f10]; simpa using hm
  | program o c vals kids a as U lives hforest ha hcu hkids has hd hoff hver hfns =>
    have hcu' : isCu a.tag = true := by simpa [isCu] using hcu
    have hfn : isFn a.tag = false := by
      simp only [isFn, decide_eq_false_iff_not]
      omega
    -- the tables of the unit
    obtain ⟨t, acc', ht, hfiles, hrep, hins⟩ : ∃ (t : Tab × LMap) (acc' : Reports),
        (sel [0x10] as).foldlM (tabStep env) (Tab.init, s.lm) = some t ∧
        (∀ k d n, U.files k = some (d, n) → file t.1 k = some (d, n)) ∧ Rep t.2 (acc ++ acc') ∧
        inside hi acc' = (lives.flatMap Option.toList).flatMap LSeq.reports := by
      rcases hd.line with ⟨h1, h2, h3⟩ | ⟨f, v, l, h1, h2, h3, h4⟩
      · refine ⟨_, [], by rw [h1]; rfl, ?_, by simpa using hm, by rw [h2]; rfl⟩
        intro k d n hk
        rw [h3] at hk
        cases hk
      · obtain ⟨m', acc', hu, hr, hi'⟩ := LineMap.unit_handled h3 hm
        refine ⟨(tabOf l, m'), acc', ?_, ?_, hr, hi'⟩
        · rw [h1, List.foldlM_cons]
          have e1 : tabStep env (Tab.init, s.lm) (0x10, f, .u v) =
            (env.line v).bind fun evs => evs.foldlM (LineMap.handle env.vaddr none) (Tab.init, s.lm) := rfl
          rw [e1, h2, Option.bind_some, hu]
          rfl
        · intro k d n hk
          rw [h4] at hk
          obtain ⟨di, g1, g2⟩ := LineMap.fileOf_tab hk
          have hk0 : k ≠ 0 := by
            intro h0
            simp [fileOf, h0] at hk
          simp [file, hk0, g1, g2]
    obtain ⟨fd, d, hd1, hd2⟩ := hd.compDir
    let s1 : St := { s0 with tags := a.tag :: s0.tags }
    have hbase : (sel [0x11] as).foldl baseStep s1.base = U.base := by
      rcases hd.base with ⟨h1, h2⟩ | ⟨f, h1⟩
      · rw [h1, h2]; exact f7
      · rw [h1]; rfl
    obtain ⟨x, y, z, hrp, hx, hy, hz⟩ := report_cu env (u.ctx e secs) o a.attrs vals s1 as _ _ U.sb U.ab U.compDir U.base t
      (by show s0.stack = []; rw [f3, hst]) hcu' hb1 hb2 has (by rw [hd1, hd2]; rfl) hbase
      (by show _ = some t; rw [← ht]; congr 1; show (s0.tab, s0.lm) = _; rw [f9, f10]) hd.ranges hd.plain
    rw [hforest]
    simp only [Forest.walk, ha, Option.bind_eq_bind, Option.bind_some]
    have h0 : (handler env).startDie s0 o a.tag a.attrs = some (s1, true) := by
      show some (startDie s0 o a.tag) = _
      simp [startDie, hfn, hcu', s1]
    rw [h0]
    simp only [Option.bind_some, reportIf, if_true, hrp]
    have hInU : InUnit U (cuSt s1 U.compDir U.base t x y z) := by
      refine ⟨by show s0.unitOff = _; rw [f6, hoff], rfl, by show s0.version = _; rw [f8, hver], rfl, hfiles, hx, hy, ?_⟩
      intro b hb
      show z = b
      obtain ⟨pre, k, f, h1, h2⟩ := hd.rbase b hb
      rw [hz, rb_sel, h1, List.foldl_append]
      rcases h2 with rfl | rfl <;> rfl
    have hroot : Root (cuSt s1 U.compDir U.base t x y z) none := by
      unfold Root
      have : (cuSt s1 U.compDir U.base t x y z).stack = [] := by show s0.stack = []; rw [f3, hst]
      rw [this]; rfl
    have hsame : fns u.abbrevs none u.forest = fns u.abbrevs none kids := by
      rw [hforest]
      simp [fns, ha, hfn]
    have hk := walk_entries env (u.ctx e secs) u.abbrevs U D code kids (cuSt s1 U.compDir U.base t x y z) none none hkids hInU
      hroot (fun x hx => hfns x (by unfold unitFns; rw [hsame]; exact hx))
    rw [hk]
    simp only [Option.bind_some]
    have hend : (handler env).endDie (after u.abbrevs D code (cuSt s1 U.compDir U.base t x y z) none kids) o = some
        { after u.abbrevs D code (cuSt s1 U.compDir U.base t x y z) none kids with tags := s0.tags } := by
      show endDie (after u.abbrevs D code (cuSt s1 U.compDir U.base t x y z) none kids) = _
      unfold endDie
      have e1 : (after u.abbrevs D code (cuSt s1 U.compDir U.base t x y z) none kids).tags = a.tag :: s0.tags := rfl
      rw [e1]
      simp only [hfn]
      rfl
    rw [hend]
    refine ⟨_, acc', rfl, ?_, ?_, ?_, ?_, hrep, hins⟩
    · show s0.stack = []
      rw [f3, hst]
    · show s0.heap ++ cells u.abbrevs D code s0.heap.length s0.stack.head? none kids = _
      rw [f2, f3, hst]
      simp [cells, ha, hfn]
    · show s0.order ++ ord u.abbrevs code s0.heap.length none kids = _
      rw [f2, f4]
      simp [ord, ha, hfn]
    · show addOffs s0.byOff (offIdx u.abbrevs s0.heap.length kids) = _
      rw [f2, f5]
      simp [offIdx, ha, hfn]

end Verif.InlineHandler

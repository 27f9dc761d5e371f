import Verif.InlineHandlerLink
import Verif.LineMapUnit

/-! # C63: the units of the debugging information -/
namespace Verif.InlineHandler
open Verif Verif.DwarfInfo Verif.Inline Verif.ByteReader
open Verif.LineMap (LMap Tab LSeq Rep Reports Described fileOf inside tabOf)
open Verif.DwarfLine (Ev Unit4)

/-! ## Specification -/

/-- A base after an attribute with a name. -/
def setBase (names : List Nat) (name : Nat) (v : Option Val) (b : Option Nat) : Option Nat :=
  match v with
  | some (.u x) => if name ∈ names then some x else b
  | _ => b

/-- The attributes of the entry of a unit; `DW_AT_str_offsets_base` (0x72), `DW_AT_addr_base` (0x73) and
`DW_AT_GNU_addr_base` (0x2133) give the bases of the unit's tables for what follows.  Also the bases in the end. -/
def unitAttrs (cx : Ctx) : Option Nat → Option Nat → List Spec → List (Nat × Raw) →
    Option (List Attr × Option Nat × Option Nat)
  | sb, ab, a :: as, (f, r) :: vs => do
    let v ← look cx sb ab r
    let rest ← unitAttrs cx (setBase [0x72] a.name v sb) (setBase [0x73, 0x2133] a.name v ab) as vs
    some ((v.map fun v => (a.name, f, v)).toList ++ rest.1, rest.2)
  | sb, ab, _, _ => some ([], sb, ab)

/-- Where a table of the unit starts by default: after the header of the section (version 5). -/
def table0 (u : IUnit) (sec : Option (List Nat)) : Option Nat :=
  if u.version = 5 ∧ sec.isSome then some (u.ilSize + 4) else none

/-- What the entry of a unit with the attributes `as` says: its compilation directory (`DW_AT_comp_dir`, 0x1b), the
address ranges are relative to (`DW_AT_low_pc`, 0x11), its line table (`DW_AT_stmt_list`, 0x10), with a live
sequence of rows or nothing for each sequence of the table, and the base of its range lists if it can be relied on
(`DW_AT_rnglists_base`, 0x74, or `DW_AT_GNU_ranges_base`, 0x2132, not followed by `DW_AT_ranges`). -/
structure CuDesc (env : Env) (e : Endian) (w hi : Nat) (as : List Attr) (U : UCtx) (lives : List (Option LSeq)) : Prop where
  compDir : ∃ f d, sel [0x1b] as = [(0x1b, f, .str (some d))] ∧ U.compDir = some d
  base : (sel [0x11] as = [] ∧ U.base = 0) ∨ ∃ f, sel [0x11] as = [(0x11, f, .u U.base)]
  line : (sel [0x10] as = [] ∧ lives = [] ∧ U.files = fun _ => none) ∨
    ∃ f v l, sel [0x10] as = [(0x10, f, .u v)] ∧ env.line v = some (l.events e w) ∧
      Described e w env.vaddr hi l lives ∧ U.files = fileOf l
  ranges : ∀ a ∈ sel [0x55] as, a.2.1 ∈ [0x17, 0x06, 0x07]
  rbase : ∀ b, U.rb = some b → ∃ pre k f, sel [0x55, 0x2132, 0x74] as = pre ++ [(k, f, .u b)] ∧ (k = 0x2132 ∨ k = 0x74)
  plain : sel [0x58, 0x59] as = []

/-- The subprograms and inlined calls of a unit. -/
def unitFns (u : IUnit) : List FnEntry := fns u.abbrevs none u.forest

/-- Those that are code of the program. -/
def unitKept (code : Nat → Bool) (u : IUnit) : List FnEntry := kept u.abbrevs code none none u.forest

/-- What a unit at an offset says: `D` for each of its subprograms and inlined calls, and the rows of its line table.
Either it is a compile unit (or skeleton unit), or it has no subprograms. -/
inductive UnitDesc (env : Env) (e : Endian) (w hi : Nat) (secs : Secs) (D : Nat → Sub) (code : Nat → Bool) (u : IUnit)
    (off : Nat) : List (Option LSeq) → Prop where
  | program (o c : Nat) (vals : List (Nat × Raw)) (kids : Forest) (a : Abbrev) (as : List Attr) (U : UCtx)
      (lives : List (Option LSeq)) (hforest : u.forest = .cons o c vals kids .nil) (ha : u.abbrevs[c - 1]? = some a)
      (hcu : a.tag = 0x11 ∨ a.tag = 0x4a) (hkids : Inner u.abbrevs kids)
      (has : unitAttrs (u.ctx e secs) (table0 u secs.strOffsets) (table0 u secs.addr) a.attrs vals = some (as, U.sb, U.ab))
      (hd : CuDesc env e w hi as U lives) (hoff : U.off = off) (hver : U.version = u.version)
      (hfns : ∀ x ∈ unitFns u, DescIn env (u.ctx e secs) U x (D x.off) (code x.off)) :
      UnitDesc env e w hi secs D code u off lives
  | other (hin : Inner u.abbrevs u.forest) (hfns : unitFns u = []) : UnitDesc env e w hi secs D code u off []

/-! ## Proof -/

def cdStep (c : Option Name) (a : Attr) : Option (Option Name) :=
  match a.2.2 with
  | .str v => v.map some
  | _ => some c

def baseStep (b : Nat) (a : Attr) : Nat :=
  match a.2.2 with
  | .u v => v
  | _ => b

def rbStep (b : Nat) (a : Attr) : Nat :=
  match a.2.2 with
  | .u v => if a.1 = 0x55 ∨ a.1 = 0x2132 ∨ a.1 = 0x74 then v else b
  | _ => b

theorem rb_sel (as : List Attr) : ∀ b, as.foldl rbStep b = (sel [0x55, 0x2132, 0x74] as).foldl rbStep b := by
  induction as with
  | nil => intro b; rfl
  | cons a as ih =>
    intro b
    rw [sel_cons, List.foldl_cons]
    by_cases h : a.1 ∈ [0x55, 0x2132, 0x74]
    · rw [if_pos h, List.foldl_cons]; exact ih _
    · rw [if_neg h]
      have : rbStep b a = b := by
        simp only [List.mem_cons, List.not_mem_nil, or_false] at h
        unfold rbStep
        cases a.2.2 <;> simp [h]
      rw [this]; exact ih _

def tabStep (env : Env) (t : Tab × LMap) (a : Attr) : Option (Tab × LMap) :=
  match a.2.2 with
  | .u v => (env.line v).bind fun evs => evs.foldlM (LineMap.handle env.vaddr none) t
  | _ => some t

/-- A state of the handler between the attributes of a unit. -/
def cuSt (s : St) (c : Option Name) (b : Nat) (t : Tab × LMap) (sb ab rb : Nat) : St :=
  { s with compDir := c, base := b, tab := t.1, lm := t.2, strBase := sb, addrBase := ab, rangesBase := rb }

/-- One attribute of a unit. -/
theorem attr_cu (env : Env) (s : St) (hst : s.stack = []) (hcu : isCu (s.tags.head?.getD 0) = true) (off k f : Nat)
    (v : Val) (c : Option Name) (b : Nat) (t : Tab × LMap)
    (h1 : (if k = 0x1b then cdStep s.compDir (k, f, v) else some s.compDir) = some c)
    (h2 : (if k = 0x11 then baseStep s.base (k, f, v) else s.base) = b)
    (h3 : (if k = 0x10 then tabStep env (s.tab, s.lm) (k, f, v) else some (s.tab, s.lm)) = some t)
    (h4 : k = 0x55 → f ∈ [0x17, 0x06, 0x07]) (h5 : k ≠ 0x58 ∧ k ≠ 0x59) (sb ab : Option Nat)
    (hsb : ∀ x, sb = some x → s.strBase = x) (hab : ∀ x, ab = some x → s.addrBase = x) :
    ∃ x y z, (handler env).attr s off k f v = some (cuSt s c b t x y z) ∧
      (∀ w, setBase [0x72] k (some v) sb = some w → x = w) ∧
      (∀ w, setBase [0x73, 0x2133] k (some v) ab = some w → y = w) ∧ z = rbStep s.rangesBase (k, f, v) := by
  have hself : ∀ x, s = x → some s = some x := fun _ h => by rw [h]
  cases v with
  | s v =>
    refine ⟨s.strBase, s.addrBase, s.rangesBase, ?_, hsb, hab, rfl⟩
    show attrS s k f v = _
    unfold attrS
    rw [if_neg (by omega)]
    have e1 : s.compDir = c := by by_cases hk : k = 0x1b <;> simpa [hk, cdStep] using h1
    have e2 : s.base = b := by by_cases hk : k = 0x11 <;> simpa [hk, baseStep] using h2
    have e3 : (s.tab, s.lm) = t := by by_cases hk : k = 0x10 <;> simpa [hk, tabStep] using h3
    subst e1 e2 e3
    rfl
  | block v =>
    refine ⟨s.strBase, s.addrBase, s.rangesBase, ?_, hsb, hab, rfl⟩
    show some s = _
    have e1 : s.compDir = c := by by_cases hk : k = 0x1b <;> simpa [hk, cdStep] using h1
    have e2 : s.base = b := by by_cases hk : k = 0x11 <;> simpa [hk, baseStep] using h2
    have e3 : (s.tab, s.lm) = t := by by_cases hk : k = 0x10 <;> simpa [hk, tabStep] using h3
    subst e1 e2 e3
    rfl
  | str v =>
    refine ⟨s.strBase, s.addrBase, s.rangesBase, ?_, hsb, hab, rfl⟩
    have e2 : s.base = b := by by_cases hk : k = 0x11 <;> simpa [hk, baseStep] using h2
    have e3 : (s.tab, s.lm) = t := by by_cases hk : k = 0x10 <;> simpa [hk, tabStep] using h3
    subst e2 e3
    show attrStr s k v = _
    unfold attrStr
    by_cases hk : k = 0x1b
    · rw [if_pos hk] at h1
      cases v with
      | none => cases h1
      | some d =>
        simp only [cdStep, Option.map_some, Option.some.injEq] at h1
        subst h1
        simp [hk, hst, cuSt]
    · rw [if_neg hk] at h1
      simp only [Option.some.injEq] at h1
      subst h1
      simp only [if_neg hk, hst]
      rfl
  | u v =>
    have e1 : s.compDir = c := by by_cases hk : k = 0x1b <;> simpa [hk, cdStep] using h1
    subst e1
    show ∃ x y z, attrU env s k f v = _ ∧ _
    unfold attrU
    simp only [hst, hcu, if_true]
    by_cases hk1 : k = 0x11
    · subst hk1
      have e3 : (s.tab, s.lm) = t := by simpa using h3
      subst e3
      simp only [if_true, baseStep] at h2
      subst h2
      exact ⟨s.strBase, s.addrBase, s.rangesBase, rfl, hsb, hab, rfl⟩
    rw [if_neg hk1] at h2
    subst h2
    by_cases hk2 : k = 0x10
    · subst hk2
      simp only [if_true, tabStep, Option.bind_eq_some_iff] at h3
      obtain ⟨evs, he, hf⟩ := h3
      refine ⟨s.strBase, s.addrBase, s.rangesBase, ?_, hsb, hab, rfl⟩
      have : cuU env s 0x10 f v = (env.line v).bind fun evs =>
          (evs.foldlM (LineMap.handle env.vaddr none) (s.tab, s.lm)).bind fun p =>
            some { s with tab := p.1, lm := p.2 } := rfl
      rw [this, he, Option.bind_some, hf]
      rfl
    rw [if_neg hk2] at h3
    simp only [Option.some.injEq] at h3
    subst h3
    by_cases hk3 : k = 0x72
    · subst hk3
      refine ⟨v, s.addrBase, s.rangesBase, rfl, ?_, hab, rfl⟩
      intro w hw
      simpa [setBase] using hw
    by_cases hk4 : k = 0x55
    · subst hk4
      refine ⟨s.strBase, s.addrBase, v, ?_, hsb, hab, rfl⟩
      have : cuU env s 0x55 f v = if f ∈ [0x17, 0x06, 0x07] then some { s with rangesBase := v } else none := rfl
      rw [this, if_pos (h4 rfl)]
      rfl
    by_cases hk5 : k = 0x2132 ∨ k = 0x74
    · refine ⟨s.strBase, s.addrBase, v, ?_, ?_, ?_, by rcases hk5 with rfl | rfl <;> rfl⟩
      · simp only [cuU, hk1, hk2, hk3, hk4, hk5, if_false, if_true]
        rfl
      · intro w hw; simp [setBase, hk3] at hw; exact hsb w hw
      · intro w hw
        have : ¬ (k = 0x73 ∨ k = 0x2133) := by omega
        simp [setBase, this] at hw; exact hab w hw
    by_cases hk6 : k = 0x2133 ∨ k = 0x73
    · refine ⟨s.strBase, v, s.rangesBase, ?_, ?_, ?_, by rcases hk6 with rfl | rfl <;> rfl⟩
      · simp only [cuU, hk1, hk2, hk3, hk4, hk5, hk6, if_false, if_true]
        rfl
      · intro w hw; simp [setBase, hk3] at hw; exact hsb w hw
      · intro w hw
        have : (k = 0x73 ∨ k = 0x2133) := by omega
        simp [setBase, this] at hw; exact hw
    · refine ⟨s.strBase, s.addrBase, s.rangesBase, ?_, ?_, ?_, by
        have : ¬ (k = 0x55 ∨ k = 0x2132 ∨ k = 0x74) := by omega
        simp [rbStep, this]⟩
      · simp only [cuU, hk1, hk2, hk3, hk4, hk5, hk6, if_false]
        rfl
      · intro w hw; simp [setBase, hk3] at hw; exact hsb w hw
      · intro w hw
        have : ¬ (k = 0x73 ∨ k = 0x2133) := by omega
        simp [setBase, this] at hw; exact hab w hw

/-- The attributes of a unit are reported. -/
theorem report_cu (env : Env) (cx : Ctx) (off : Nat) (sps : List Spec) :
    ∀ (vals : List (Nat × Raw)) (s : St) (as : List Attr) (sb ab sb' ab' : Option Nat) (c : Option Name) (b : Nat)
      (t : Tab × LMap), s.stack = [] → isCu (s.tags.head?.getD 0) = true →
    (∀ x, sb = some x → s.strBase = x) → (∀ x, ab = some x → s.addrBase = x) →
    unitAttrs cx sb ab sps vals = some (as, sb', ab') →
    (sel [0x1b] as).foldlM cdStep s.compDir = some c → (sel [0x11] as).foldl baseStep s.base = b →
    (sel [0x10] as).foldlM (tabStep env) (s.tab, s.lm) = some t →
    (∀ a ∈ sel [0x55] as, a.2.1 ∈ [0x17, 0x06, 0x07]) → sel [0x58, 0x59] as = [] →
    ∃ x y z, report (handler env) cx off sps vals s = some (cuSt s c b t x y z) ∧
      (∀ w, sb' = some w → x = w) ∧ (∀ w, ab' = some w → y = w) ∧ z = as.foldl rbStep s.rangesBase := by
  have base : ∀ (s : St) (as : List Attr) (sb ab sb' ab' : Option Nat) (c : Option Name) (b : Nat)
      (t : Tab × LMap), (∀ x, sb = some x → s.strBase = x) → (∀ x, ab = some x → s.addrBase = x) →
      some (([] : List Attr), sb, ab) = some (as, sb', ab') →
      (sel [0x1b] as).foldlM cdStep s.compDir = some c → (sel [0x11] as).foldl baseStep s.base = b →
      (sel [0x10] as).foldlM (tabStep env) (s.tab, s.lm) = some t → ∃ x y z, some s = some (cuSt s c b t x y z) ∧
      (∀ w, sb' = some w → x = w) ∧ (∀ w, ab' = some w → y = w) ∧ z = as.foldl rbStep s.rangesBase := by
    intro s as sb ab sb' ab' c b t hsb hab h h1 h2 h3
    simp only [Option.some.injEq, Prod.mk.injEq] at h
    obtain ⟨rfl, rfl, rfl⟩ := h
    refine ⟨s.strBase, s.addrBase, s.rangesBase, ?_, hsb, hab, rfl⟩
    simp only [sel, List.filter_nil, List.foldlM_nil, List.foldl_nil, Option.pure_def, Option.some.injEq] at h1 h2 h3
    subst h1 h2 h3
    rfl
  induction sps with
  | nil =>
    intro vals s as sb ab sb' ab' c b t _ _ hsb hab has h1 h2 h3 _ _
    have e : report (handler env) cx off [] vals s = some s := by cases vals <;> rfl
    rw [e]
    refine base s as sb ab sb' ab' c b t hsb hab ?_ h1 h2 h3
    rw [← has]; cases vals <;> rfl
  | cons sp sps ih =>
    intro vals s as sb ab sb' ab' c b t hst hcu hsb hab has h1 h2 h3 h4 h5
    cases vals with
    | nil => exact base s as sb ab sb' ab' c b t hsb hab has h1 h2 h3
    | cons fr vals =>
      obtain ⟨f, r⟩ := fr
      simp only [unitAttrs, Option.bind_eq_bind] at has
      simp only [report, Option.bind_eq_bind]
      show ∃ x y z, (r.report cx s.strBase s.addrBase).bind _ = _ ∧ _
      cases hr : look cx sb ab r with
      | none => rw [hr] at has; cases has
      | some v =>
        rw [hr] at has
        rw [look_report hsb hab hr]
        simp only [Option.bind_some] at has ⊢
        cases hrest : unitAttrs cx (setBase [0x72] sp.name v sb) (setBase [0x73, 0x2133] sp.name v ab) sps vals with
        | none => rw [hrest] at has; cases has
        | some rest =>
          obtain ⟨rest, sb2, ab2⟩ := rest
          rw [hrest] at has
          simp only [Option.bind_some, Option.some.injEq, Prod.mk.injEq] at has
          obtain ⟨has, rfl, rfl⟩ := has
          cases v with
          | none =>
            simp only [Option.map_none, Option.toList_none, List.nil_append] at has
            subst has
            simp only [report1, Option.bind_some]
            exact ih vals s rest sb ab sb2 ab2 c b t hst hcu hsb hab hrest h1 h2 h3 h4 h5
          | some v =>
            simp only [Option.map_some, Option.toList_some, List.singleton_append] at has
            subst has
            simp only [sel_cons, List.mem_cons, List.not_mem_nil, or_false] at h1 h2 h3 h4 h5
            have h5' : sp.name ≠ 0x58 ∧ sp.name ≠ 0x59 := by
              constructor <;> intro hk <;> simp [hk] at h5
            have h4' : sp.name = 0x55 → f ∈ [0x17, 0x06, 0x07] := by
              intro hk
              rw [if_pos hk] at h4
              simpa using h4 _ List.mem_cons_self
            obtain ⟨c1, hc1, h1'⟩ : ∃ c1, (if sp.name = 0x1b then cdStep s.compDir (sp.name, f, v) else some s.compDir) = some c1 ∧
                (sel [0x1b] rest).foldlM cdStep c1 = some c := by
              by_cases hk : sp.name = 0x1b
              · rw [if_pos hk, List.foldlM_cons] at h1
                rw [if_pos hk]
                exact Option.bind_eq_some_iff.1 h1
              · rw [if_neg hk] at h1
                exact ⟨_, by rw [if_neg hk], h1⟩
            obtain ⟨t1, ht1, h3'⟩ : ∃ t1, (if sp.name = 0x10 then tabStep env (s.tab, s.lm) (sp.name, f, v) else some (s.tab, s.lm)) =
                some t1 ∧ (sel [0x10] rest).foldlM (tabStep env) t1 = some t := by
              by_cases hk : sp.name = 0x10
              · rw [if_pos hk, List.foldlM_cons] at h3
                rw [if_pos hk]
                exact Option.bind_eq_some_iff.1 h3
              · rw [if_neg hk] at h3
                exact ⟨_, by rw [if_neg hk], h3⟩
            obtain ⟨b1, hb1, h2'⟩ : ∃ b1, (if sp.name = 0x11 then baseStep s.base (sp.name, f, v) else s.base) = b1 ∧
                (sel [0x11] rest).foldl baseStep b1 = b := by
              by_cases hk : sp.name = 0x11
              · rw [if_pos hk, List.foldl_cons] at h2
                exact ⟨_, rfl, by rw [if_pos hk]; exact h2⟩
              · rw [if_neg hk] at h2
                exact ⟨_, rfl, by rw [if_neg hk]; exact h2⟩
            obtain ⟨x, y, z, hx, hxs, hys, hzs⟩ := attr_cu env s hst hcu off sp.name f v c1 b1 t1 hc1 hb1 ht1 h4' h5' sb ab hsb hab
            simp only [report1]
            rw [hx]
            simp only [Option.bind_some]
            have hrg : ∀ a ∈ sel [0x55] rest, a.2.1 ∈ [0x17, 0x06, 0x07] := by
              intro a ha
              have := h4 a (by split; exacts [List.mem_cons_of_mem _ ha, ha])
              simpa using this
            have hpl : sel [0x58, 0x59] rest = [] := by
              rw [if_neg (by omega)] at h5
              exact h5
            obtain ⟨x2, y2, z2, hy, hxs2, hys2, hzs2⟩ := ih vals (cuSt s c1 b1 t1 x y z) rest _ _ sb2 ab2 c b t hst hcu hxs hys hrest
              h1' h2' h3' hrg hpl
            exact ⟨x2, y2, z2, hy, hxs2, hys2, by rw [hzs2, List.foldl_cons, ← hzs]; rfl⟩

end Verif.InlineHandler

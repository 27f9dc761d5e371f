import Verif.InlineHandlerSpec

/-! # C63: the attributes of an entry through the handler -/
namespace Verif.InlineHandler
open Verif Verif.DwarfInfo Verif.Inline
open Verif.LineMap (LMap Tab)
open Verif.DwarfLine (Ev)

/-- Directory and name of a file of the handler's tables. -/
def file (tab : Tab) (k : Nat) : Option (Name × Name) :=
  if k = 0 then none else tab.files[k]?.bind fun f => (tab.dirs[f.1]?).map fun d => (d, f.2)

/-- The state of the handler while it reads entries of a unit. -/
structure InUnit (U : UCtx) (s : St) : Prop where
  off : s.unitOff = U.off
  base : s.base = U.base
  version : s.version = U.version
  compDir : s.compDir = U.compDir
  files : ∀ k d n, U.files k = some (d, n) → file s.tab k = some (d, n)
  sb : ∀ b, U.sb = some b → s.strBase = b
  ab : ∀ b, U.ab = some b → s.addrBase = b
  rb : ∀ b, U.rb = some b → s.rangesBase = b

/-- A look-up with known bases is the one the reader does. -/
theorem look_report {cx : Ctx} {sb ab : Option Nat} {b a : Nat} (hb : ∀ x, sb = some x → b = x)
    (ha : ∀ x, ab = some x → a = x) {r : Raw} {v : Option Val} (h : look cx sb ab r = some v) :
    r.report cx b a = some v := by
  cases r with
  | strNo i =>
    simp only [look, Option.bind_eq_some_iff] at h
    obtain ⟨x, hx, h⟩ := h
    have := hb x hx
    subst this
    exact h
  | addrNo i =>
    simp only [look, Option.bind_eq_some_iff] at h
    obtain ⟨x, hx, h⟩ := h
    have := ha x hx
    subst this
    exact h
  | _ => exact h

theorem file_step {tab : Tab} {k : Nat} {d n : Name} (h : file tab k = some (d, n)) :
    k ≠ 0 ∧ ∃ i, tab.files[k]? = some (i, n) ∧ tab.dirs[i]? = some d := by
  unfold file at h
  split at h
  · cases h
  · rename_i hk
    refine ⟨hk, ?_⟩
    cases hf : tab.files[k]? with
    | none => rw [hf] at h; cases h
    | some f =>
      obtain ⟨i, m⟩ := f
      rw [hf] at h
      simp only [Option.bind_some, Option.map_eq_some_iff, Prod.mk.injEq] at h
      obtain ⟨x, hx, rfl, rfl⟩ := h
      exact ⟨i, rfl, hx⟩

/-- What an entry says is what the handler makes of its attributes. -/
theorem fn_cell {env : Env} {U : UCtx} {s : St} (hU : InUnit U s) {off tag : Nat} {as : List Attr} {d : Sub} {code : Bool}
    (h : FnDesc env U off tag as d code) (top : Bool) (par : Option Nat) :
    as.foldlM (cellAttr env s top tag)
      { sub := { inlined := decide (tag = 0x1d), parent := par, ranges := [], offset := off, fileIndex := 0,
                 compDir := U.compDir }
        used := false } =
      some { sub := { d with parent := par }, used := top && code } := by
  have h1 : (sel [0x03, 0x6e, 0x2007] as).foldlM nameStep [] = some d.name := by
    have := h.name
    generalize sel [0x03, 0x6e, 0x2007] as = l at this
    generalize d.name = nm at this
    cases this with
    | none => rfl
    | plain f n => rfl
    | linkage k f hk l => rcases hk with rfl | rfl <;> rfl
    | after k f g hk n l =>
      cases n <;> rcases hk with rfl | rfl <;> rfl
    | before k f g hk n l hl =>
      cases nm with
      | nil => exact absurd rfl hl
      | cons x xs => rcases hk with rfl | rfl <;> rfl
  have h2 : (sel [0x11, 0x12, 0x55] as).foldlM (rangeStep env s top) ([], false) = some (d.ranges, top && code) := by
    have := h.ranges
    generalize sel [0x11, 0x12, 0x55] as = l at this
    generalize hr : d.ranges = rs at this
    cases this with
    | none => simp
    | high f a b code hc => rw [marks_code hc]; simp [rangeStep, setLow, setHigh]
    | size f g a n code hc hg ha =>
      rw [marks_code hc]
      have : (g != 0x01) = true := by simpa using hg
      simp [rangeStep, setLow, setHigh, this]
      exact ha
    | number v rb ab rs code hc hrb hab hr' =>
      have e : readRanges env s 0x23 v = some rs := by
        have : readRanges env s 0x23 v = env.rangesAt s.rangesBase v s.base s.addrBase := rfl
        rw [this, hU.base, hU.rb _ hrb, hU.ab _ hab, hr']
      rw [any_code hc]
      simp [rangeStep, e]
    | list f v rs code hc hf hr' =>
      rw [any_code hc]
      have e : readRanges env s f v = some rs := by
        unfold readRanges
        rw [if_pos hf, hU.version, hU.base, hr']
      simp [rangeStep, e]
  have h3 : (sel [0x59, 0x3b] as).foldlM (lineStep tag) 0 = some d.callLine := by
    have := h.line
    generalize sel [0x59, 0x3b] as = l at this
    generalize d.callLine = cl at this
    cases this with
    | none => rfl
    | call f v hf hv =>
      have e : lineStep 0x1d 0 (0x59, f, .u cl) =
        if f ∈ [0x0b, 0x05, 0x06] then some (cl % 2 ^ 32) else none := rfl
      rw [List.foldlM_cons, e, if_pos hf, Nat.mod_eq_of_lt hv]
      rfl
    | callConst v hv =>
      have e : lineStep 0x1d 0 (0x59, 0x21, .s cl) = some ((cl : Int) % 2 ^ 32).toNat := rfl
      rw [List.foldlM_cons, e]
      have : ((cl : Int) % 2 ^ 32).toNat = cl := by omega
      rw [this]
      rfl
    | decl f v hv =>
      have e : lineStep 0x2e 0 (0x3b, f, .u cl) = some (cl % 2 ^ 32) := rfl
      rw [List.foldlM_cons, e, Nat.mod_eq_of_lt hv]
      rfl
  have h4 : (sel [0x2136] as).foldlM discrStep 0 = some d.callDiscr := by
    have := h.discr
    generalize sel [0x2136] as = l at this
    generalize d.callDiscr = cl at this
    cases this with
    | none => rfl
    | some k f v hf hv =>
      have e : discrStep 0 (k, f, .u cl) =
        if f ∈ [0x0b, 0x05, 0x06] then some (cl % 2 ^ 32) else none := rfl
      rw [List.foldlM_cons, e, if_pos hf, Nat.mod_eq_of_lt hv]
      rfl
  have href : ∀ l x, RefOf U.off l x → l.foldlM (refStep s.unitOff) 0 = some x := by
    intro l x hx
    cases hx with
    | none => rfl
    | direct k v => rfl
    | relative k v hv =>
      have e : refStep s.unitOff 0 (k, 0x13, .u v) = some ((s.unitOff + v) % 2 ^ 64) := rfl
      rw [List.foldlM_cons, e, hU.off, Nat.mod_eq_of_lt hv]
      rfl
  have h5 := href _ _ h.origin
  have h6 := href _ _ h.spec
  have h7 : (sel [0x58] as).foldlM (fileStep s.tab) (none, none) = some (d.callDir, d.callFile) := by
    obtain ⟨f, hf, e1, e2⟩ := h.file
    rw [e1, e2]
    generalize sel [0x58] as = l at hf
    cases hf with
    | none => rfl
    | num f v dd n hf =>
      obtain ⟨h0, i, hi, hd⟩ := file_step (hU.files _ _ _ hf)
      simp [fileStep, h0, hi, hd]
    | const v dd n hf =>
      obtain ⟨h0, i, hi, hd⟩ := file_step (hU.files _ _ _ hf)
      have hneg : ¬ ((v : Int) < 0) := by omega
      simp [fileStep, h0, hi, hd, hneg]
  have := cells_fold env s top tag as
    { sub := { inlined := decide (tag = 0x1d), parent := par, ranges := [], offset := off, fileIndex := 0,
               compDir := U.compDir }
      used := false } _ _ _ _ _ _ _ h1 h2 h3 h4 h5 h6 h7
  rw [this]
  simp only [Option.some.injEq, Cell.mk.injEq, and_true]
  have a1 := h.inlined
  have a2 := h.parent
  have a3 := h.offset
  have a4 := h.fileIndex
  have a5 := h.compDir
  cases d
  simp only at a1 a2 a3 a4 a5 ⊢
  subst a2 a3 a4 a5
  congr 1
  by_cases ht : tag = 0x1d
  · rw [a1.2 ht]; simp [ht]
  · simp only [ht, decide_false]
    cases hi : (‹Bool› : Bool) <;> simp_all

theorem upd_self {s : St} {i : Nat} {c : Cell} (h : s.heap[i]? = some c) : upd s i (fun _ => c) = s := by
  unfold upd
  have : s.heap.modify i (fun _ => c) = s.heap := by
    apply List.ext_getElem?
    intro j
    rw [List.getElem?_modify]
    by_cases hj : i = j
    · subst hj; simp [h]
    · simp [hj]
  rw [this]

theorem onTop_eq {s : St} {i : Nat} {c : Cell} (h : s.heap[i]? = some c) (f : Cell → Option Cell) :
    onTop s i f = (f c).map fun c' => upd s i fun _ => c' := by
  unfold onTop
  rw [h]
  cases hf : f c <;> simp [hf]

/-- Attributes of a subprogram act on it alone. -/
theorem attr_fn (env : Env) (s : St) (i : Nat) (st : List Nat) (hst : s.stack = i :: st) (c : Cell)
    (hc : s.heap[i]? = some c) (off : Nat) (a : Attr) (ha : a.1 ∉ [0x1b, 0x2132, 0x74, 0x2133, 0x73]) :
    (handler env).attr s off a.1 a.2.1 a.2.2 =
      (cellAttr env s st.isEmpty (s.tags.head?.getD 0) c a).map fun c' => upd s i fun _ => c' := by
  obtain ⟨k, f, v⟩ := a
  simp only [List.mem_cons, List.not_mem_nil, or_false, not_or] at ha
  obtain ⟨a1, a2, a3, a4, a5⟩ := ha
  cases v with
  | u v =>
    show attrU env s k f v = _
    unfold attrU
    rw [hst]
    simp only
    rw [if_neg (by omega), if_neg (by omega), onTop_eq hc]
    rfl
  | s v =>
    show attrS s k f v = _
    unfold attrS
    by_cases hk : k = 0x58 ∨ k = 0x59
    · rw [if_pos hk, hst]
      simp only
      rw [onTop_eq hc]
      rfl
    · rw [if_neg hk]
      push Not at hk
      simp [cellAttr, cellS, hk.1, hk.2, upd_self hc]
  | str v =>
    show attrStr s k v = _
    unfold attrStr
    simp only [if_neg a1, hst]
    rw [onTop_eq hc]
    rfl
  | block v =>
    show some s = _
    simp [cellAttr, upd_self hc]

theorem upd_upd (s : St) (i : Nat) (c c' : Cell) : upd (upd s i fun _ => c) i (fun _ => c') = upd s i fun _ => c' := by
  unfold upd
  simp only
  congr 1
  apply List.ext_getElem?
  intro j
  simp only [List.getElem?_modify]
  by_cases hj : i = j
  · subst hj; cases s.heap[i]? <;> simp
  · simp [hj]

theorem upd_get (s : St) (i : Nat) (c c' : Cell) (h : s.heap[i]? = some c) : (upd s i fun _ => c').heap[i]? = some c' := by
  unfold upd
  simp [h]

/-- The attributes of a subprogram are reported. -/
theorem report_fn (env : Env) (cx : Ctx) (sb ab : Option Nat) (off : Nat) (tag : Nat) (i : Nat) (st : List Nat)
    (sps : List Spec) :
    ∀ (vals : List (Nat × Raw)) (s : St) (as : List Attr) (c c' : Cell), s.stack = i :: st →
    s.tags.head?.getD 0 = tag → s.heap[i]? = some c →
    (∀ b, sb = some b → s.strBase = b) → (∀ b, ab = some b → s.addrBase = b) →
    attrsOf cx sb ab sps vals = some as → sel [0x1b, 0x2132, 0x74, 0x2133, 0x73] as = [] →
    as.foldlM (cellAttr env s st.isEmpty tag) c = some c' →
    report (handler env) cx off sps vals s = some (upd s i fun _ => c') := by
  induction sps with
  | nil =>
    intro vals s as c c' hst _ hc _ _ has _ hf
    simp only [attrsOf, Option.some.injEq] at has
    subst has
    simp only [List.foldlM_nil, Option.pure_def, Option.some.injEq] at hf
    subst hf
    simp [report, upd_self hc]
  | cons sp sps ih =>
    intro vals s as c c' hst htag hc hb ha0 has hsel hf
    cases vals with
    | nil =>
      simp only [attrsOf, Option.some.injEq] at has
      subst has
      simp only [List.foldlM_nil, Option.pure_def, Option.some.injEq] at hf
      subst hf
      simp [report, upd_self hc]
    | cons fr vals =>
      obtain ⟨f, r⟩ := fr
      simp only [attrsOf, Option.bind_eq_bind] at has
      simp only [report, Option.bind_eq_bind]
      show (r.report cx s.strBase s.addrBase).bind _ = _
      cases hr : look cx sb ab r with
      | none => rw [hr] at has; cases has
      | some v =>
        rw [hr] at has
        rw [look_report hb ha0 hr]
        simp only [Option.bind_some] at has ⊢
        cases hrest : attrsOf cx sb ab sps vals with
        | none => rw [hrest] at has; cases has
        | some rest =>
          rw [hrest] at has
          simp only [Option.bind_some, Option.some.injEq] at has
          cases v with
          | none =>
            simp only [Option.map_none, Option.toList_none, List.nil_append] at has
            subst has
            simp only [report1, Option.bind_some]
            exact ih vals s rest c c' hst htag hc hb ha0 hrest hsel hf
          | some v =>
            simp only [Option.map_some, Option.toList_some, List.singleton_append] at has
            subst has
            rw [sel_cons] at hsel
            have ha : sp.name ∉ [0x1b, 0x2132, 0x74, 0x2133, 0x73] := by
              intro hin
              rw [if_pos hin] at hsel
              cases hsel
            rw [if_neg ha] at hsel
            have hattr := attr_fn env s i st hst c hc off (sp.name, f, v) ha
            rw [htag] at hattr
            simp only [report1]
            rw [hattr]
            rw [List.foldlM_cons] at hf
            cases hcell : cellAttr env s st.isEmpty tag c (sp.name, f, v) with
            | none => rw [hcell] at hf; cases hf
            | some c1 =>
              rw [hcell] at hf
              simp only [Option.map_some, Option.bind_some]
              have := ih vals (upd s i fun _ => c1) rest c1 c' hst htag (upd_get s i c c1 hc) hb ha0 hrest hsel hf
              rw [this, upd_upd]

end Verif.InlineHandler

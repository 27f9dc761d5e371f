import Verif.InlineHandler

/-! # C63: what the attributes of a subprogram mean, and that the handler takes them so -/
namespace Verif.InlineHandler
open Verif Verif.DwarfInfo Verif.Inline
open Verif.LineMap (LMap Tab)
open Verif.DwarfLine (Ev)

/-! ## Specification: the attributes of a subprogram (DWARF 5, 2.17, 3.3) -/

/-- An attribute as it is reported: name, form and value. -/
abbrev Attr := Nat × Nat × Val

/-- What an attribute's content stands for: strings and addresses given by number are looked up in the unit's tables, if
the tables' bases are known. -/
def look (cx : Ctx) (sb ab : Option Nat) : Raw → Option (Option Val)
  | .strNo i => sb.bind fun b => (strIndex cx b i).map fun s => some (.str s)
  | .addrNo i => ab.bind fun b => (addrIndex cx b i).map fun a => some (.u a)
  | .u v => some (some (.u v))
  | .s v => some (some (.s v))
  | .str v => some (some (.str (some v)))
  | .block v => some (some (.block v))
  | .other => some none

/-- The attributes of an entry, given the bases of the unit's tables. -/
def attrsOf (cx : Ctx) (sb ab : Option Nat) : List Spec → List (Nat × Raw) → Option (List Attr)
  | a :: as, (f, r) :: vs => do
    let v ← look cx sb ab r
    let rest ← attrsOf cx sb ab as vs
    some ((v.map fun v => (a.name, f, v)).toList ++ rest)
  | _, _ => some []

/-- The attributes with one of the given names. -/
def sel (names : List Nat) (as : List Attr) : List Attr := as.filter fun a => decide (a.1 ∈ names)

/-- What the entries of a unit need to know about it: its offset, the address ranges are relative to, its version and
compilation directory, directory and name of the files of its line table by number, and the bases of its tables
(of strings, of addresses and of range lists). -/
structure UCtx where
  off : Nat
  base : Nat
  version : Nat
  compDir : Option Name
  files : Nat → Option (Name × Name)
  sb : Option Nat
  ab : Option Nat
  rb : Option Nat

/-- The name of a subprogram from `DW_AT_name` (3), `DW_AT_linkage_name` (0x6e) and `DW_AT_MIPS_linkage_name`
(0x2007): the linkage name if there is one. -/
inductive NameOf : List Attr → Name → Prop where
  | none : NameOf [] []
  | plain (f : Nat) (n : Name) : NameOf [(0x03, f, .str (some n))] n
  | linkage (k f : Nat) (hk : k = 0x6e ∨ k = 0x2007) (l : Name) : NameOf [(k, f, .str (some l))] l
  | after (k f g : Nat) (hk : k = 0x6e ∨ k = 0x2007) (n l : Name) :
      NameOf [(0x03, f, .str (some n)), (k, g, .str (some l))] l
  | before (k f g : Nat) (hk : k = 0x6e ∨ k = 0x2007) (n l : Name) (hl : l ≠ []) :
      NameOf [(k, g, .str (some l)), (0x03, f, .str (some n))] l

/-- The line of a subprogram with a tag: where it was called (`DW_AT_call_line`, 0x59) if it was inlined, otherwise
where it is declared (`DW_AT_decl_line`, 0x3b). -/
inductive LineOf : Nat → List Attr → Nat → Prop where
  | none (tag : Nat) : LineOf tag [] 0
  | call (f v : Nat) (hf : f ∈ [0x0b, 0x05, 0x06]) (hv : v < 2 ^ 32) : LineOf 0x1d [(0x59, f, .u v)] v
  | callConst (v : Nat) (hv : v < 2 ^ 32) : LineOf 0x1d [(0x59, 0x21, .s v)] v
  | decl (f v : Nat) (hv : v < 2 ^ 32) : LineOf 0x2e [(0x3b, f, .u v)] v

/-- The discriminator of the call. -/
inductive DiscrOf : List Attr → Nat → Prop where
  | none : DiscrOf [] 0
  | some (k f v : Nat) (hf : f ∈ [0x0b, 0x05, 0x06]) (hv : v < 2 ^ 32) : DiscrOf [(k, f, .u v)] v

/-- The offset in the section of the entry that is referred to: given directly or relative to the unit. -/
inductive RefOf (unitOff : Nat) : List Attr → Nat → Prop where
  | none : RefOf unitOff [] 0
  | direct (k v : Nat) : RefOf unitOff [(k, 0x10, .u v)] v
  | relative (k v : Nat) (h : unitOff + v < 2 ^ 64) : RefOf unitOff [(k, 0x13, .u v)] (unitOff + v)

/-- The file of the call (`DW_AT_call_file`, 0x58). -/
inductive FileOf (files : Nat → Option (Name × Name)) : List Attr → Option (Name × Name) → Prop where
  | none : FileOf files [] none
  | num (f v : Nat) (d n : Name) (h : files v = some (d, n)) : FileOf files [(0x58, f, .u v)] (some (d, n))
  | const (v : Nat) (d n : Name) (h : files v = some (d, n)) : FileOf files [(0x58, 0x21, .s v)] (some (d, n))

/-- An address the tool takes as the start of code of the program: one of the sampled functions if these are known, and
otherwise any but 0. -/
def IsStart (env : Env) (a : Nat) : Prop :=
  match env.sampled with
  | none => a ≠ 0
  | some m => ∃ n, (a, n) ∈ m

/-- The addresses of a subprogram from `DW_AT_low_pc` (0x11), `DW_AT_high_pc` (0x12, an address or a size) and
`DW_AT_ranges` (0x55, an offset or a number), sorted and merged; and whether the tool takes it as code of the program. -/
inductive RangesOf (env : Env) (U : UCtx) : List Attr → List Range → Bool → Prop where
  | none : RangesOf env U [] [] false
  | high (f a b : Nat) (code : Bool) (hc : code = true ↔ IsStart env a) :
      RangesOf env U [(0x11, f, .u a), (0x12, 0x01, .u b)] [(a, b)] code
  | size (f g a n : Nat) (code : Bool) (hc : code = true ↔ IsStart env a) (hg : g ≠ 0x01) (h : a + n < 2 ^ 64) :
      RangesOf env U [(0x11, f, .u a), (0x12, g, .u n)] [(a, a + n)] code
  | list (f v : Nat) (rs : List Range) (code : Bool) (hc : code = true ↔ ∃ r ∈ rs, IsStart env r.1)
      (hf : f ∈ [0x17, 0x06, 0x07]) (h : env.ranges U.version v U.base = some rs) :
      RangesOf env U [(0x55, f, .u v)] (sortAndMerge rs) code
  | number (v rb ab : Nat) (rs : List Range) (code : Bool) (hc : code = true ↔ ∃ r ∈ rs, IsStart env r.1)
      (hrb : U.rb = some rb) (hab : U.ab = some ab) (h : env.rangesAt rb v U.base ab = some rs) :
      RangesOf env U [(0x55, 0x23, .u v)] (sortAndMerge rs) code

/-- `d` is what the entry at an offset with a tag and attributes says, in its unit; `code` tells whether it is code of
the program. -/
structure FnDesc (env : Env) (U : UCtx) (off tag : Nat) (as : List Attr) (d : Sub) (code : Bool) : Prop where
  inlined : d.inlined = true ↔ tag = 0x1d
  parent : d.parent = none
  ranges : RangesOf env U (sel [0x11, 0x12, 0x55] as) d.ranges code
  offset : d.offset = off
  fileIndex : d.fileIndex = 0
  name : NameOf (sel [0x03, 0x6e, 0x2007] as) d.name
  compDir : d.compDir = U.compDir
  file : ∃ f, FileOf U.files (sel [0x58] as) f ∧ d.callDir = f.map Prod.fst ∧ d.callFile = f.map Prod.snd
  line : LineOf tag (sel [0x59, 0x3b] as) d.callLine
  discr : DiscrOf (sel [0x2136] as) d.callDiscr
  origin : RefOf U.off (sel [0x31] as) d.origin
  spec : RefOf U.off (sel [0x47] as) d.spec
  plain : sel [0x1b, 0x2132, 0x74, 0x2133, 0x73] as = []

/-! ## Proof: one attribute -/

theorem marks_iff (env : Env) (a : Nat) : marks env a = true ↔ IsStart env a := by
  unfold marks IsStart
  cases env.sampled with
  | none => simp
  | some m =>
    simp only
    induction m with
    | nil => simp [OMap.find?]
    | cons x m ih =>
      unfold OMap.find?
      split
      · rename_i h
        simp only [Option.isSome_some, true_iff]
        exact ⟨x.2, by rw [h]; exact List.mem_cons_self⟩
      · rename_i h
        rw [ih]
        constructor
        · rintro ⟨n, hn⟩; exact ⟨n, List.mem_cons_of_mem _ hn⟩
        · rintro ⟨n, hn⟩
          rcases List.mem_cons.1 hn with rfl | hn
          · exact absurd rfl h
          · exact ⟨n, hn⟩

theorem marks_code {env : Env} {a : Nat} {code : Bool} (h : code = true ↔ IsStart env a) : code = marks env a :=
  Bool.eq_iff_iff.2 (h.trans (marks_iff env a).symm)

theorem any_code {env : Env} {rs : List Range} {code : Bool} (h : code = true ↔ ∃ r ∈ rs, IsStart env r.1) :
    code = rs.any fun r => marks env r.1 := by
  rw [Bool.eq_iff_iff, h, List.any_eq_true]
  simp only [marks_iff]

/-- One attribute of the innermost subprogram. -/
def cellAttr (env : Env) (s : St) (top : Bool) (tag : Nat) (c : Cell) (a : Attr) : Option Cell :=
  match a.2.2 with
  | .u v => cellU env s top tag a.1 a.2.1 v c
  | .s v => cellS s.tab a.1 a.2.1 v c
  | .str v => cellStr a.1 v c
  | .block _ => some c

def nameStep (n : Name) (a : Attr) : Option Name :=
  match a.2.2 with
  | .str v => if a.1 = 0x03 ∧ n ≠ [] then some n else v
  | _ => some n

def lineStep (tag : Nat) (l : Nat) (a : Attr) : Option Nat :=
  match a.2.2 with
  | .u v => if a.1 = 0x59 then if a.2.1 ∈ [0x0b, 0x05, 0x06] then some (v % 2 ^ 32) else none
      else if tag = 0x2e then some (v % 2 ^ 32) else some l
  | .s v => if a.1 = 0x59 then if a.2.1 = 0x21 then some (v % 2 ^ 32).toNat else none else some l
  | _ => some l

def discrStep (l : Nat) (a : Attr) : Option Nat :=
  match a.2.2 with
  | .u v => if a.2.1 ∈ [0x0b, 0x05, 0x06] then some (v % 2 ^ 32) else none
  | _ => some l

def refStep (u : Nat) (l : Nat) (a : Attr) : Option Nat :=
  match a.2.2 with
  | .u v => refTo u a.2.1 v
  | _ => some l

def fileStep (tab : Tab) (l : Option Name × Option Name) (a : Attr) : Option (Option Name × Option Name) :=
  let f (k : Nat) : Option Name × Option Name :=
    if k = 0 then l else match tab.files[k]? with
      | none => l
      | some (d, f) => ((tab.dirs[d]?).or l.1, some f)
  match a.2.2 with
  | .u v => some (f v)
  | .s v => if a.2.1 = 0x21 then some (if v < 0 then l else f v.toNat) else none
  | _ => some l

def rangeStep (env : Env) (s : St) (top : Bool) (l : List Range × Bool) (a : Attr) : Option (List Range × Bool) :=
  match a.2.2 with
  | .u v =>
    if a.1 = 0x11 then (setLow l.1 v).map fun rs => (rs, l.2 || (top && marks env v))
    else if a.1 = 0x12 then (setHigh l.1 v (a.2.1 != 0x01)).map fun rs => (rs, l.2)
    else if l.1.isEmpty then
      (readRanges env s a.2.1 v).map fun rs => (sortAndMerge rs, l.2 || (top && rs.any fun r => marks env r.1))
    else none
  | _ => some l

theorem cell_name (env : Env) (s : St) (top : Bool) (tag : Nat) (c : Cell) (a : Attr) (h : a.1 ∈ [0x03, 0x6e, 0x2007]) :
    cellAttr env s top tag c a = (nameStep c.sub.name a).map fun n => { c with sub := { c.sub with name := n } } := by
  obtain ⟨k, f, v⟩ := a
  simp only [List.mem_cons, List.not_mem_nil, or_false] at h
  cases v with
  | u v => rcases h with rfl | rfl | rfl <;> rfl
  | s v => rcases h with rfl | rfl | rfl <;> rfl
  | block v => rfl
  | str v =>
    rcases h with rfl | rfl | rfl
    · by_cases hn : c.sub.name = []
      · simp [cellAttr, cellStr, nameStep, hn]
      · have hc : c = { c with sub := { c.sub with name := c.sub.name } } := rfl
        simp [cellAttr, cellStr, nameStep, hn]
    · simp [cellAttr, cellStr, nameStep]
    · simp [cellAttr, cellStr, nameStep]

theorem cell_line (env : Env) (s : St) (top : Bool) (tag : Nat) (c : Cell) (a : Attr) (h : a.1 ∈ [0x59, 0x3b]) :
    cellAttr env s top tag c a =
      (lineStep tag c.sub.callLine a).map fun n => { c with sub := { c.sub with callLine := n } } := by
  obtain ⟨k, f, v⟩ := a
  simp only [List.mem_cons, List.not_mem_nil, or_false] at h
  cases v with
  | u v =>
    rcases h with rfl | rfl
    · have e1 : cellAttr env s top tag c (0x59, f, .u v) = if f ∈ [0x0b, 0x05, 0x06] then
          some { c with sub := { c.sub with callLine := v % 2 ^ 32 } } else none := rfl
      have e2 : lineStep tag c.sub.callLine (0x59, f, .u v) = if f ∈ [0x0b, 0x05, 0x06] then
          some (v % 2 ^ 32) else none := rfl
      rw [e1, e2]
      split <;> rfl
    · have e1 : cellAttr env s top tag c (0x3b, f, .u v) = if tag = 0x2e then
          some { c with sub := { c.sub with callLine := v % 2 ^ 32 } } else some c := rfl
      have e2 : lineStep tag c.sub.callLine (0x3b, f, .u v) = if tag = 0x2e then
          some (v % 2 ^ 32) else some c.sub.callLine := rfl
      rw [e1, e2]
      split <;> rfl
  | s v =>
    rcases h with rfl | rfl
    · have e1 : cellAttr env s top tag c (0x59, f, .s v) = if f = 0x21 then
          some { c with sub := { c.sub with callLine := (v % 2 ^ 32).toNat } } else none := rfl
      have e2 : lineStep tag c.sub.callLine (0x59, f, .s v) = if f = 0x21 then
          some (v % 2 ^ 32).toNat else none := rfl
      rw [e1, e2]
      split <;> rfl
    · rfl
  | block v => rfl
  | str v => rcases h with rfl | rfl <;> rfl

theorem cell_discr (env : Env) (s : St) (top : Bool) (tag : Nat) (c : Cell) (a : Attr) (h : a.1 ∈ [0x2136]) :
    cellAttr env s top tag c a =
      (discrStep c.sub.callDiscr a).map fun n => { c with sub := { c.sub with callDiscr := n } } := by
  obtain ⟨k, f, v⟩ := a
  simp only [List.mem_cons, List.not_mem_nil, or_false] at h
  subst h
  cases v with
  | u v =>
    have e1 : cellAttr env s top tag c (0x2136, f, .u v) = if f ∈ [0x0b, 0x05, 0x06] then
        some { c with sub := { c.sub with callDiscr := v % 2 ^ 32 } } else none := rfl
    have e2 : discrStep c.sub.callDiscr (0x2136, f, .u v) = if f ∈ [0x0b, 0x05, 0x06] then
        some (v % 2 ^ 32) else none := rfl
    rw [e1, e2]
    split <;> rfl
  | s v => rfl
  | block v => rfl
  | str v => rfl

theorem cell_origin (env : Env) (s : St) (top : Bool) (tag : Nat) (c : Cell) (a : Attr) (h : a.1 ∈ [0x31]) :
    cellAttr env s top tag c a =
      (refStep s.unitOff c.sub.origin a).map fun n => { c with sub := { c.sub with origin := n } } := by
  obtain ⟨k, f, v⟩ := a
  simp only [List.mem_cons, List.not_mem_nil, or_false] at h
  subst h
  cases v <;> rfl

theorem cell_spec (env : Env) (s : St) (top : Bool) (tag : Nat) (c : Cell) (a : Attr) (h : a.1 ∈ [0x47]) :
    cellAttr env s top tag c a =
      (refStep s.unitOff c.sub.spec a).map fun n => { c with sub := { c.sub with spec := n } } := by
  obtain ⟨k, f, v⟩ := a
  simp only [List.mem_cons, List.not_mem_nil, or_false] at h
  subst h
  cases v <;> rfl

theorem cell_file (env : Env) (s : St) (top : Bool) (tag : Nat) (c : Cell) (a : Attr) (h : a.1 ∈ [0x58]) :
    cellAttr env s top tag c a = (fileStep s.tab (c.sub.callDir, c.sub.callFile) a).map fun n =>
      { c with sub := { c.sub with callDir := n.1, callFile := n.2 } } := by
  obtain ⟨k, f, v⟩ := a
  simp only [List.mem_cons, List.not_mem_nil, or_false] at h
  subst h
  have hf : ∀ k, cellFile s.tab k c = { c with sub := { c.sub with
      callDir := (if k = 0 then (c.sub.callDir, c.sub.callFile) else match s.tab.files[k]? with
        | none => (c.sub.callDir, c.sub.callFile)
        | some (d, f) => ((s.tab.dirs[d]?).or c.sub.callDir, some f)).1,
      callFile := (if k = 0 then (c.sub.callDir, c.sub.callFile) else match s.tab.files[k]? with
        | none => (c.sub.callDir, c.sub.callFile)
        | some (d, f) => ((s.tab.dirs[d]?).or c.sub.callDir, some f)).2 } } := by
    intro k
    unfold cellFile
    split
    · rfl
    · cases s.tab.files[k]? <;> rfl
  cases v with
  | u v => simp [cellAttr, cellU, fileStep, hf]
  | s v =>
    simp only [cellAttr, cellS, fileStep, if_true]
    split
    · split
      · rfl
      · simp [hf]
    · rfl
  | block v => rfl
  | str v => rfl

theorem cell_range (env : Env) (s : St) (top : Bool) (tag : Nat) (c : Cell) (a : Attr) (h : a.1 ∈ [0x11, 0x12, 0x55]) :
    cellAttr env s top tag c a = (rangeStep env s top (c.sub.ranges, c.used) a).map fun n =>
      { sub := { c.sub with ranges := n.1 }, used := n.2 } := by
  obtain ⟨k, f, v⟩ := a
  simp only [List.mem_cons, List.not_mem_nil, or_false] at h
  cases v with
  | u v =>
    rcases h with rfl | rfl | rfl
    · simp only [cellAttr, cellU, rangeStep]
      cases setLow c.sub.ranges v <;> simp
    · simp only [cellAttr, cellU, rangeStep]
      cases setHigh c.sub.ranges v (f != 1) <;> simp
    · simp only [cellAttr, cellU, rangeStep]
      cases hr : readRanges env s f v <;> by_cases hc : c.sub.ranges = [] <;> simp [hc]
  | s v => rcases h with rfl | rfl | rfl <;> rfl
  | block v => rfl
  | str v => rcases h with rfl | rfl | rfl <;> rfl

/-- All names with a meaning for a subprogram. -/
def known : List Nat := [0x03, 0x6e, 0x2007, 0x59, 0x3b, 0x2136, 0x31, 0x47, 0x58, 0x11, 0x12, 0x55]

theorem cell_other (env : Env) (s : St) (top : Bool) (tag : Nat) (c : Cell) (a : Attr) (h : a.1 ∉ known) :
    cellAttr env s top tag c a = some c := by
  obtain ⟨k, f, v⟩ := a
  simp only [known, List.mem_cons, List.not_mem_nil, or_false, not_or] at h
  obtain ⟨h1, h2, h3, h4, h5, h6, h7, h8, h9, h10, h11, h12⟩ := h
  cases v <;> simp [cellAttr, cellU, cellS, cellStr, *]

theorem sel_cons (g : List Nat) (a : Attr) (as : List Attr) :
    sel g (a :: as) = if a.1 ∈ g then a :: sel g as else sel g as := by
  unfold sel
  rw [List.filter_cons]
  simp

/-- Attributes act on their own parts of a subprogram. -/
theorem cells_fold (env : Env) (s : St) (top : Bool) (tag : Nat) (as : List Attr) : ∀ (c : Cell) (n : Name)
    (rs : List Range × Bool) (l d o sp : Nat) (fl : Option Name × Option Name),
    (sel [0x03, 0x6e, 0x2007] as).foldlM nameStep c.sub.name = some n →
    (sel [0x11, 0x12, 0x55] as).foldlM (rangeStep env s top) (c.sub.ranges, c.used) = some rs →
    (sel [0x59, 0x3b] as).foldlM (lineStep tag) c.sub.callLine = some l →
    (sel [0x2136] as).foldlM discrStep c.sub.callDiscr = some d →
    (sel [0x31] as).foldlM (refStep s.unitOff) c.sub.origin = some o →
    (sel [0x47] as).foldlM (refStep s.unitOff) c.sub.spec = some sp →
    (sel [0x58] as).foldlM (fileStep s.tab) (c.sub.callDir, c.sub.callFile) = some fl →
    as.foldlM (cellAttr env s top tag) c = some
      { sub := { c.sub with name := n, ranges := rs.1, callLine := l, callDiscr := d, origin := o, spec := sp,
                            callDir := fl.1, callFile := fl.2 }
        used := rs.2 } := by
  induction as with
  | nil =>
    intro c n rs l d o sp fl h1 h2 h3 h4 h5 h6 h7
    simp only [sel, List.filter_nil, List.foldlM_nil, Option.pure_def, Option.some.injEq] at h1 h2 h3 h4 h5 h6 h7 ⊢
    subst h1 h2 h3 h4 h5 h6 h7
    rfl
  | cons a as ih =>
    intro c n rs l d o sp fl h1 h2 h3 h4 h5 h6 h7
    rw [List.foldlM_cons]
    simp only [sel_cons] at h1 h2 h3 h4 h5 h6 h7
    by_cases hk : a.1 ∈ known
    · simp only [known, List.mem_cons, List.not_mem_nil, or_false] at hk
      rcases (show a.1 ∈ [0x03, 0x6e, 0x2007] ∨ a.1 ∈ [0x11, 0x12, 0x55] ∨ a.1 ∈ [0x59, 0x3b] ∨ a.1 ∈ [0x2136] ∨
        a.1 ∈ [0x31] ∨ a.1 ∈ [0x47] ∨ a.1 ∈ [0x58] from by
          simp only [List.mem_cons, List.not_mem_nil, or_false]; omega) with h | h | h | h | h | h | h
      · rw [cell_name env s top tag c a h]
        have e2 : a.1 ∉ [0x11, 0x12, 0x55] := by simp only [List.mem_cons, List.not_mem_nil, or_false] at h ⊢; omega
        have e3 : a.1 ∉ [0x59, 0x3b] := by simp only [List.mem_cons, List.not_mem_nil, or_false] at h ⊢; omega
        have e4 : a.1 ∉ [0x2136] := by simp only [List.mem_cons, List.not_mem_nil, or_false] at h ⊢; omega
        have e5 : a.1 ∉ [0x31] := by simp only [List.mem_cons, List.not_mem_nil, or_false] at h ⊢; omega
        have e6 : a.1 ∉ [0x47] := by simp only [List.mem_cons, List.not_mem_nil, or_false] at h ⊢; omega
        have e7 : a.1 ∉ [0x58] := by simp only [List.mem_cons, List.not_mem_nil, or_false] at h ⊢; omega
        rw [if_pos h, List.foldlM_cons] at h1
        rw [if_neg e2] at h2
        rw [if_neg e3] at h3
        rw [if_neg e4] at h4
        rw [if_neg e5] at h5
        rw [if_neg e6] at h6
        rw [if_neg e7] at h7
        cases hs : nameStep c.sub.name a with
        | none => rw [hs] at h1; cases h1
        | some x => rw [hs] at h1; exact ih _ _ _ _ _ _ _ _ h1 h2 h3 h4 h5 h6 h7
      · rw [cell_range env s top tag c a h]
        have e2 : a.1 ∉ [0x03, 0x6e, 0x2007] := by simp only [List.mem_cons, List.not_mem_nil, or_false] at h ⊢; omega
        have e3 : a.1 ∉ [0x59, 0x3b] := by simp only [List.mem_cons, List.not_mem_nil, or_false] at h ⊢; omega
        have e4 : a.1 ∉ [0x2136] := by simp only [List.mem_cons, List.not_mem_nil, or_false] at h ⊢; omega
        have e5 : a.1 ∉ [0x31] := by simp only [List.mem_cons, List.not_mem_nil, or_false] at h ⊢; omega
        have e6 : a.1 ∉ [0x47] := by simp only [List.mem_cons, List.not_mem_nil, or_false] at h ⊢; omega
        have e7 : a.1 ∉ [0x58] := by simp only [List.mem_cons, List.not_mem_nil, or_false] at h ⊢; omega
        rw [if_neg e2] at h1
        rw [if_pos h, List.foldlM_cons] at h2
        rw [if_neg e3] at h3
        rw [if_neg e4] at h4
        rw [if_neg e5] at h5
        rw [if_neg e6] at h6
        rw [if_neg e7] at h7
        cases hs : rangeStep env s top (c.sub.ranges, c.used) a with
        | none => rw [hs] at h2; cases h2
        | some x => rw [hs] at h2; exact ih _ _ _ _ _ _ _ _ h1 h2 h3 h4 h5 h6 h7
      · rw [cell_line env s top tag c a h]
        have e2 : a.1 ∉ [0x03, 0x6e, 0x2007] := by simp only [List.mem_cons, List.not_mem_nil, or_false] at h ⊢; omega
        have e3 : a.1 ∉ [0x11, 0x12, 0x55] := by simp only [List.mem_cons, List.not_mem_nil, or_false] at h ⊢; omega
        have e4 : a.1 ∉ [0x2136] := by simp only [List.mem_cons, List.not_mem_nil, or_false] at h ⊢; omega
        have e5 : a.1 ∉ [0x31] := by simp only [List.mem_cons, List.not_mem_nil, or_false] at h ⊢; omega
        have e6 : a.1 ∉ [0x47] := by simp only [List.mem_cons, List.not_mem_nil, or_false] at h ⊢; omega
        have e7 : a.1 ∉ [0x58] := by simp only [List.mem_cons, List.not_mem_nil, or_false] at h ⊢; omega
        rw [if_neg e2] at h1
        rw [if_neg e3] at h2
        rw [if_pos h, List.foldlM_cons] at h3
        rw [if_neg e4] at h4
        rw [if_neg e5] at h5
        rw [if_neg e6] at h6
        rw [if_neg e7] at h7
        cases hs : lineStep tag c.sub.callLine a with
        | none => rw [hs] at h3; cases h3
        | some x => rw [hs] at h3; exact ih _ _ _ _ _ _ _ _ h1 h2 h3 h4 h5 h6 h7
      · rw [cell_discr env s top tag c a h]
        have e2 : a.1 ∉ [0x03, 0x6e, 0x2007] := by simp only [List.mem_cons, List.not_mem_nil, or_false] at h ⊢; omega
        have e3 : a.1 ∉ [0x11, 0x12, 0x55] := by simp only [List.mem_cons, List.not_mem_nil, or_false] at h ⊢; omega
        have e4 : a.1 ∉ [0x59, 0x3b] := by simp only [List.mem_cons, List.not_mem_nil, or_false] at h ⊢; omega
        have e5 : a.1 ∉ [0x31] := by simp only [List.mem_cons, List.not_mem_nil, or_false] at h ⊢; omega
        have e6 : a.1 ∉ [0x47] := by simp only [List.mem_cons, List.not_mem_nil, or_false] at h ⊢; omega
        have e7 : a.1 ∉ [0x58] := by simp only [List.mem_cons, List.not_mem_nil, or_false] at h ⊢; omega
        rw [if_neg e2] at h1
        rw [if_neg e3] at h2
        rw [if_neg e4] at h3
        rw [if_pos h, List.foldlM_cons] at h4
        rw [if_neg e5] at h5
        rw [if_neg e6] at h6
        rw [if_neg e7] at h7
        cases hs : discrStep c.sub.callDiscr a with
        | none => rw [hs] at h4; cases h4
        | some x => rw [hs] at h4; exact ih _ _ _ _ _ _ _ _ h1 h2 h3 h4 h5 h6 h7
      · rw [cell_origin env s top tag c a h]
        have e2 : a.1 ∉ [0x03, 0x6e, 0x2007] := by simp only [List.mem_cons, List.not_mem_nil, or_false] at h ⊢; omega
        have e3 : a.1 ∉ [0x11, 0x12, 0x55] := by simp only [List.mem_cons, List.not_mem_nil, or_false] at h ⊢; omega
        have e4 : a.1 ∉ [0x59, 0x3b] := by simp only [List.mem_cons, List.not_mem_nil, or_false] at h ⊢; omega
        have e5 : a.1 ∉ [0x2136] := by simp only [List.mem_cons, List.not_mem_nil, or_false] at h ⊢; omega
        have e6 : a.1 ∉ [0x47] := by simp only [List.mem_cons, List.not_mem_nil, or_false] at h ⊢; omega
        have e7 : a.1 ∉ [0x58] := by simp only [List.mem_cons, List.not_mem_nil, or_false] at h ⊢; omega
        rw [if_neg e2] at h1
        rw [if_neg e3] at h2
        rw [if_neg e4] at h3
        rw [if_neg e5] at h4
        rw [if_pos h, List.foldlM_cons] at h5
        rw [if_neg e6] at h6
        rw [if_neg e7] at h7
        cases hs : refStep s.unitOff c.sub.origin a with
        | none => rw [hs] at h5; cases h5
        | some x => rw [hs] at h5; exact ih _ _ _ _ _ _ _ _ h1 h2 h3 h4 h5 h6 h7
      · rw [cell_spec env s top tag c a h]
        have e2 : a.1 ∉ [0x03, 0x6e, 0x2007] := by simp only [List.mem_cons, List.not_mem_nil, or_false] at h ⊢; omega
        have e3 : a.1 ∉ [0x11, 0x12, 0x55] := by simp only [List.mem_cons, List.not_mem_nil, or_false] at h ⊢; omega
        have e4 : a.1 ∉ [0x59, 0x3b] := by simp only [List.mem_cons, List.not_mem_nil, or_false] at h ⊢; omega
        have e5 : a.1 ∉ [0x2136] := by simp only [List.mem_cons, List.not_mem_nil, or_false] at h ⊢; omega
        have e6 : a.1 ∉ [0x31] := by simp only [List.mem_cons, List.not_mem_nil, or_false] at h ⊢; omega
        have e7 : a.1 ∉ [0x58] := by simp only [List.mem_cons, List.not_mem_nil, or_false] at h ⊢; omega
        rw [if_neg e2] at h1
        rw [if_neg e3] at h2
        rw [if_neg e4] at h3
        rw [if_neg e5] at h4
        rw [if_neg e6] at h5
        rw [if_pos h, List.foldlM_cons] at h6
        rw [if_neg e7] at h7
        cases hs : refStep s.unitOff c.sub.spec a with
        | none => rw [hs] at h6; cases h6
        | some x => rw [hs] at h6; exact ih _ _ _ _ _ _ _ _ h1 h2 h3 h4 h5 h6 h7
      · rw [cell_file env s top tag c a h]
        have e2 : a.1 ∉ [0x03, 0x6e, 0x2007] := by simp only [List.mem_cons, List.not_mem_nil, or_false] at h ⊢; omega
        have e3 : a.1 ∉ [0x11, 0x12, 0x55] := by simp only [List.mem_cons, List.not_mem_nil, or_false] at h ⊢; omega
        have e4 : a.1 ∉ [0x59, 0x3b] := by simp only [List.mem_cons, List.not_mem_nil, or_false] at h ⊢; omega
        have e5 : a.1 ∉ [0x2136] := by simp only [List.mem_cons, List.not_mem_nil, or_false] at h ⊢; omega
        have e6 : a.1 ∉ [0x31] := by simp only [List.mem_cons, List.not_mem_nil, or_false] at h ⊢; omega
        have e7 : a.1 ∉ [0x47] := by simp only [List.mem_cons, List.not_mem_nil, or_false] at h ⊢; omega
        rw [if_neg e2] at h1
        rw [if_neg e3] at h2
        rw [if_neg e4] at h3
        rw [if_neg e5] at h4
        rw [if_neg e6] at h5
        rw [if_neg e7] at h6
        rw [if_pos h, List.foldlM_cons] at h7
        cases hs : fileStep s.tab (c.sub.callDir, c.sub.callFile) a with
        | none => rw [hs] at h7; cases h7
        | some x => rw [hs] at h7; exact ih _ _ _ _ _ _ _ _ h1 h2 h3 h4 h5 h6 h7
    · rw [cell_other env s top tag c a hk]
      have hk' : a.1 ∉ [0x03, 0x6e, 0x2007] ∧ a.1 ∉ [0x11, 0x12, 0x55] ∧ a.1 ∉ [0x59, 0x3b] ∧ a.1 ∉ [0x2136] ∧
        a.1 ∉ [0x31] ∧ a.1 ∉ [0x47] ∧ a.1 ∉ [0x58] := by
        simp only [known, List.mem_cons, List.not_mem_nil, or_false] at hk ⊢; omega
      obtain ⟨e1, e2, e3, e4, e5, e6, e7⟩ := hk'
      rw [if_neg e1] at h1
      rw [if_neg e2] at h2
      rw [if_neg e3] at h3
      rw [if_neg e4] at h4
      rw [if_neg e5] at h5
      rw [if_neg e6] at h6
      rw [if_neg e7] at h7
      exact ih _ _ _ _ _ _ _ _ h1 h2 h3 h4 h5 h6 h7

end Verif.InlineHandler

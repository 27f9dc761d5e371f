import Mathlib.Data.List.Basic
import Mathlib.Data.List.Nodup
import Mathlib.Tactic.Linarith

/-!
# C93: inline stacks and compile units through LLVM
Model of `LLVMAddr2line` (addr2line.cc:51-140) and of `CreateDWARFContext` and `Addr2Cu` (addr2cu.cc:23-59).  What LLVM's DWARF library
reports is the input: units, address ranges, line tables, chains of inlined functions and their attributes.  Names of files and
directories are present (the code takes `.value()` of them).
-/
namespace Verif.LlvmLine

abbrev Name := List Nat

/-- A function or inlined function as `DWARFDie` gives it; call attributes that are absent are 0 (`getCallerFrame`). -/
structure Die where
  name : Option Name
  declLine : Nat
  callFile : Nat
  callLine : Nat
  callDiscr : Nat
deriving DecidableEq

/-- `DWARFDebugLine::LineTable`: its version, directories, files (name and directory), rows (file, line, discriminator) and
`lookupAddress` for an address and a section. -/
structure LineTable where
  version : Nat
  dirs : List Name
  files : List (Name × Nat)
  rows : List (Nat × Nat × Nat)
  lookup : Nat → Option Nat → Option Nat

/-- `DWARFUnit`: its offset in `.debug_info`, line table and `getInlinedChainForAddress`. -/
structure CU where
  offset : Nat
  table : Option LineTable
  chain : Nat → List Die

/-- A section: its name if it can be read, address and size. Its index is its position. -/
structure Sec where
  name : Option Name
  addr : Nat
  size : Nat

/-- The debug information of a binary; `aranges`: the offset of the unit of an address (`findAddress`). -/
structure Debug where
  fileName : Name
  secs : List Sec
  units : List CU
  aranges : Nat → Option Nat

/-- `SourceInfo` (source_info.h). -/
structure Frame where
  func : Option Name
  dir : Name
  file : Name
  startLine : Nat
  line : Nat
  discr : Nat
deriving DecidableEq

/-- `unit_map_` (addr2line.h:67, addr2line.cc:74-76): offsets are cut to 32 bits, later units replace earlier ones. -/
def unitMap (us : List CU) (off : Nat) : Option CU := (us.filter fun u => decide (u.offset % 2 ^ 32 = off % 2 ^ 32)).getLast?

def dotText : Name := [46, 116, 101, 120, 116]
def dotKo : Name := [46, 107, 111]

/-- The loop over the sections (addr2line.cc:98-111): the first `.text` decides. -/
def textIndex : List Sec → Nat → Nat → Option Nat
  | [], _, _ => none
  | s :: r, i, a =>
    if s.name = some dotText then if s.addr ≤ a ∧ a < (s.addr + s.size) % 2 ^ 64 then some i else none
    else textIndex r (i + 1) a

/-- The section for the lookup (addr2line.cc:91-112, `IsKernelModule`: addr2line.h:94-96); `none`: `UndefSection`. -/
def sectionIndex (d : Debug) (a : Nat) : Option Nat := if dotKo <:+ d.fileName then textIndex d.secs 0 a else none

/-- `hasFileAtIndex` and `getFileNameEntry` of LLVM: files are numbered from 0 since version 5, from 1 before. -/
def fileEntry (t : LineTable) (file : Nat) : Option (Name × Nat) :=
  if t.version < 5 then if file = 0 then none else t.files[file - 1]? else t.files[file]?

/-- File and directory name (addr2line.cc:121-133). -/
def names (t : LineTable) (file : Nat) : Name × Name :=
  match fileEntry t file with
  | none => ([], [])
  | some (n, d) => (if 0 < d ∧ d ≤ t.dirs.length then (t.dirs[d - 1]?).getD [] else [], n)

/-- The loop over the chain (addr2line.cc:118-138). -/
def frames (t : LineTable) : List Die → Nat → Nat → Nat → List Frame
  | [], _, _, _ => []
  | f :: r, file, line, discr =>
    ⟨f.name, (names t file).1, (names t file).2, f.declLine, line, discr⟩ :: frames t r f.callFile f.callLine f.callDiscr

/-- `GetInlineStack` (addr2line.cc:80-140); the offset is -1 if no unit has the address, the file -1 if there is no row. -/
def getInlineStack (d : Debug) (a : Nat) (stack : List Frame) : List Frame :=
  match unitMap d.units ((d.aranges a).getD (2 ^ 64 - 1)) with
  | none => stack
  | some u =>
    match u.table with
    | none => stack
    | some t =>
      match (t.lookup a (sectionIndex d a)).bind fun i => t.rows[i]? with
      | none => stack ++ frames t (u.chain a) (2 ^ 32 - 1) 0 0
      | some (f, l, x) => stack ++ frames t (u.chain a) f l x

/-! ### Compile units -/

/-- What `CreateDWARFContext` sees of a unit: is it a skeleton; its address ranges; the name of the (not skeleton) unit. -/
structure Unit2 where
  skeleton : Bool
  covers : Nat → Bool
  name : Option Name

/-- `CreateDWARFContext` (addr2cu.cc:23-44): whether a context is returned. -/
def createContext (us : List Unit2) (dwpFile : Name) : Bool :=
  if dwpFile = [] ∧ us.any (·.skeleton) = true then false else decide (us ≠ [])

/-- `GetCompileUnitFileNameForCodeAddress` (addr2cu.cc:46-59); `none`: an error. Simplified: `getCompileUnitForCodeAddress` is the first
unit that covers the address. -/
def unitName (us : List Unit2) (a : Nat) : Option Name := (us.find? (·.covers a)).map fun u => u.name.getD []

/-! ## Specification -/

/-- A source position: file, line and discriminator. -/
structure Pos where
  file : Option (Name × Nat)
  line : Nat
  discr : Nat

/-- The directory of a file entry by the DWARF standard: from version 5 on directories are numbered from 0, before from 1, where 0 is
the directory of the compilation (not in the table). -/
def dirOf (t : LineTable) (d : Nat) : Name := if t.version < 5 then if d = 0 then [] else (t.dirs[d - 1]?).getD [] else (t.dirs[d]?).getD []

/-- Where execution is in the `i`-th function of the chain: by the line table for the innermost, where the next inner one was called for
the others. -/
def posOf (t : LineTable) (row : Option (Nat × Nat × Nat)) (chain : List Die) : Nat → Option Pos
  | 0 => some (match row with | none => ⟨none, 0, 0⟩ | some (f, l, x) => ⟨fileEntry t f, l, x⟩)
  | i + 1 => (chain[i]?).map fun g => ⟨fileEntry t g.callFile, g.callLine, g.callDiscr⟩

/-- The debug information is below 4 GiB and no unit starts at its last byte; fewer files than 2^32 - 1. -/
structure Debug.Small (d : Debug) : Prop where
  offsets : ∀ u ∈ d.units, u.offset < 2 ^ 32 - 1
  distinct : (d.units.map (·.offset)).Nodup
  ranges : ∀ a o, d.aranges a = some o → ∃ u ∈ d.units, u.offset = o
  files : ∀ u ∈ d.units, ∀ t, u.table = some t → t.files.length < 2 ^ 32 - 1

/-! ## Proof -/

theorem unitMap_eq {d : Debug} (h : d.Small) {u : CU} (hu : u ∈ d.units) : unitMap d.units u.offset = some u := by
  unfold unitMap
  have hf : d.units.filter (fun v => decide (v.offset % 2 ^ 32 = u.offset % 2 ^ 32)) = [u] := by
    have e : d.units.filter (fun v => decide (v.offset % 2 ^ 32 = u.offset % 2 ^ 32)) = d.units.filter (fun v => decide (v.offset = u.offset)) := by
      refine List.filter_congr fun v hv => ?_
      have h1 := h.offsets v hv
      have h2 := h.offsets u hu
      rw [Nat.mod_eq_of_lt (by omega), Nat.mod_eq_of_lt (by omega)]
    rw [e]
    have hd := h.distinct
    generalize d.units = l at hu hd
    induction l with
    | nil => cases hu
    | cons x l ih =>
      rw [List.map_cons, List.nodup_cons] at hd
      rcases List.mem_cons.1 hu with rfl | hu
      · rw [List.filter_cons_of_pos (by simp)]
        congr 1
        rw [List.filter_eq_nil_iff]
        intro y hy hc
        exact hd.1 (of_decide_eq_true hc ▸ List.mem_map.2 ⟨y, hy, rfl⟩)
      · have : x.offset ≠ u.offset := fun e => hd.1 (e ▸ List.mem_map.2 ⟨u, hu, rfl⟩)
        rw [List.filter_cons_of_neg (by simpa using this)]
        exact ih hu hd.2
  rw [hf]
  rfl

theorem unitMap_none {d : Debug} (h : d.Small) : unitMap d.units (2 ^ 64 - 1) = none := by
  unfold unitMap
  rw [List.getLast?_eq_none_iff, List.filter_eq_nil_iff]
  intro v hv hc
  have h1 := h.offsets v hv
  have h2 := of_decide_eq_true hc
  rw [Nat.mod_eq_of_lt (by omega)] at h2
  omega

theorem frames_length (t : LineTable) (c : List Die) : ∀ f l x, (frames t c f l x).length = c.length := by
  induction c with
  | nil => intros; rfl
  | cons g c ih => intro f l x; simp [frames, ih]

theorem frames_get (t : LineTable) (c : List Die) : ∀ (f l x i : Nat) (g : Die), c[i]? = some g → (frames t c f l x)[i]? =
    some ⟨g.name, (names t (if i = 0 then f else ((c[i - 1]?).map (·.callFile)).getD 0)).1,
      (names t (if i = 0 then f else ((c[i - 1]?).map (·.callFile)).getD 0)).2, g.declLine,
      if i = 0 then l else ((c[i - 1]?).map (·.callLine)).getD 0, if i = 0 then x else ((c[i - 1]?).map (·.callDiscr)).getD 0⟩ := by
  induction c with
  | nil => intro f l x i g h; simp at h
  | cons e c ih =>
    intro f l x i g h
    cases i with
    | zero =>
      simp only [List.getElem?_cons_zero, Option.some.injEq] at h
      subst h
      simp [frames]
    | succ i =>
      simp only [List.getElem?_cons_succ] at h
      rw [frames, List.getElem?_cons_succ, ih _ _ _ i g h]
      cases i with
      | zero => simp
      | succ i => simp

theorem names_none {t : LineTable} {f : Nat} (h : fileEntry t f = none) : names t f = ([], []) := by
  unfold names; rw [h]

theorem names_some {t : LineTable} {f : Nat} {n : Name} {k : Nat} (h : fileEntry t f = some (n, k)) :
    (names t f).2 = n ∧ (t.version < 5 → (names t f).1 = dirOf t k) ∧
      (5 ≤ t.version → (names t f).1 = if 0 < k ∧ k ≤ t.dirs.length then dirOf t (k - 1) else []) := by
  unfold names dirOf
  rw [h]
  refine ⟨rfl, fun hv => ?_, fun hv => ?_⟩
  · rw [if_pos hv]
    simp only
    by_cases hk : k = 0
    · simp [hk]
    · rw [if_neg hk]
      by_cases hl : k ≤ t.dirs.length
      · rw [if_pos ⟨by omega, hl⟩]
      · rw [if_neg (by omega), List.getElem?_eq_none (by omega)]
        rfl
  · simp only
    rw [if_neg (by omega : ¬ t.version < 5)]

/-- The row of the line table. -/
def rowAt (d : Debug) (t : LineTable) (a : Nat) : Option (Nat × Nat × Nat) := (t.lookup a (sectionIndex d a)).bind fun i => t.rows[i]?

/-- **C93: no stack.** For an address without unit or a unit without line table nothing is added. -/
theorem stack_empty {d : Debug} (h : d.Small) (a : Nat) (s : List Frame) :
    (d.aranges a = none → getInlineStack d a s = s) ∧
    ∀ u ∈ d.units, d.aranges a = some u.offset → u.table = none → getInlineStack d a s = s := by
  constructor
  · intro ha
    unfold getInlineStack
    rw [ha, Option.getD_none, unitMap_none h]
  · intro u hu ha ht
    unfold getInlineStack
    rw [ha, Option.getD_some, unitMap_eq h hu]
    simp only [ht]

/-- **C93: the stack.** One frame for each function of the chain, innermost first, with the name and first line of the function; line,
discriminator and file are those of the line table for the innermost and of the call of the next inner function for the others.  The
directory is the one of the file before DWARF 5; from DWARF 5 on it is the one before it in the table. -/
theorem stack_spec {d : Debug} (h : d.Small) (a : Nat) (s : List Frame) (u : CU) (hu : u ∈ d.units) (ha : d.aranges a = some u.offset)
    (t : LineTable) (ht : u.table = some t) :
    ∃ fs, getInlineStack d a s = s ++ fs ∧ fs.length = (u.chain a).length ∧
      ∀ i g, (u.chain a)[i]? = some g → ∃ x p, fs[i]? = some x ∧ posOf t (rowAt d t a) (u.chain a) i = some p ∧
        x.func = g.name ∧ x.startLine = g.declLine ∧ x.line = p.line ∧ x.discr = p.discr ∧
        (p.file = none → x.file = [] ∧ x.dir = []) ∧
        ∀ n k, p.file = some (n, k) → x.file = n ∧ (t.version < 5 → x.dir = dirOf t k) ∧
          (5 ≤ t.version → x.dir = if 0 < k ∧ k ≤ t.dirs.length then dirOf t (k - 1) else []) := by
  have hlast : fileEntry t (2 ^ 32 - 1) = none := by
    have := h.files u hu t ht
    unfold fileEntry
    split
    · rw [if_neg (by omega), List.getElem?_eq_none (by omega)]
    · exact List.getElem?_eq_none (by omega)
  have key : ∀ f l x, (∀ i g, (u.chain a)[i]? = some g → posOf t (rowAt d t a) (u.chain a) i =
        some ⟨fileEntry t (if i = 0 then f else (((u.chain a)[i - 1]?).map (·.callFile)).getD 0),
          if i = 0 then l else (((u.chain a)[i - 1]?).map (·.callLine)).getD 0, if i = 0 then x else (((u.chain a)[i - 1]?).map (·.callDiscr)).getD 0⟩) →
      getInlineStack d a s = s ++ frames t (u.chain a) f l x →
      ∃ fs, getInlineStack d a s = s ++ fs ∧ fs.length = (u.chain a).length ∧
        ∀ i g, (u.chain a)[i]? = some g → ∃ x p, fs[i]? = some x ∧ posOf t (rowAt d t a) (u.chain a) i = some p ∧
        x.func = g.name ∧ x.startLine = g.declLine ∧ x.line = p.line ∧ x.discr = p.discr ∧
        (p.file = none → x.file = [] ∧ x.dir = []) ∧
        ∀ n k, p.file = some (n, k) → x.file = n ∧ (t.version < 5 → x.dir = dirOf t k) ∧
          (5 ≤ t.version → x.dir = if 0 < k ∧ k ≤ t.dirs.length then dirOf t (k - 1) else []) := by
    intro f l x hp hs
    refine ⟨_, hs, frames_length _ _ _ _ _, fun i g hg => ⟨_, _, frames_get t _ f l x i g hg, hp i g hg, rfl, rfl, rfl, rfl, ?_, ?_⟩⟩
    · intro hn
      simp only [names_none hn, and_self]
    · intro n k hk
      exact names_some hk
  have hpos : ∀ f l x, (posOf t (rowAt d t a) (u.chain a) 0 = some ⟨fileEntry t f, l, x⟩) →
      ∀ i g, (u.chain a)[i]? = some g → posOf t (rowAt d t a) (u.chain a) i =
        some ⟨fileEntry t (if i = 0 then f else (((u.chain a)[i - 1]?).map (·.callFile)).getD 0),
          if i = 0 then l else (((u.chain a)[i - 1]?).map (·.callLine)).getD 0, if i = 0 then x else (((u.chain a)[i - 1]?).map (·.callDiscr)).getD 0⟩ := by
    intro f l x h0 i g hg
    cases i with
    | zero => simpa using h0
    | succ i =>
      have hi : i < (u.chain a).length := by
        have := (List.getElem?_eq_some_iff.1 hg).1
        omega
      simp [posOf, List.getElem?_eq_getElem hi]
  have hgo : getInlineStack d a s = match rowAt d t a with
      | none => s ++ frames t (u.chain a) (2 ^ 32 - 1) 0 0
      | some (f, l, x) => s ++ frames t (u.chain a) f l x := by
    unfold getInlineStack rowAt
    rw [ha, Option.getD_some, unitMap_eq h hu]
    simp only [ht]
  cases hr : rowAt d t a with
  | none =>
    rw [hr] at hgo
    rw [← hr]
    refine key (2 ^ 32 - 1) 0 0 (hpos _ _ _ ?_) hgo
    rw [hr, hlast]
    rfl
  | some p =>
    obtain ⟨f, l, x⟩ := p
    rw [hr] at hgo
    rw [← hr]
    refine key f l x (hpos _ _ _ ?_) hgo
    rw [hr]
    rfl

/-- The section of the lookup: none but for kernel modules, and there the first `.text` if it has the address. -/
theorem section_spec (d : Debug) (a : Nat) (hs : ∀ s ∈ d.secs, s.addr + s.size < 2 ^ 64) (i : Nat) :
    sectionIndex d a = some i ↔ dotKo <:+ d.fileName ∧ ∃ s, d.secs[i]? = some s ∧ s.name = some dotText ∧ s.addr ≤ a ∧ a < s.addr + s.size ∧
      ∀ j < i, ∀ t, d.secs[j]? = some t → t.name ≠ some dotText := by
  have gen : ∀ (l : List Sec) (k : Nat), (∀ s ∈ l, s.addr + s.size < 2 ^ 64) → ∀ i, textIndex l k a = some i ↔ k ≤ i ∧
      ∃ s, l[i - k]? = some s ∧ s.name = some dotText ∧ s.addr ≤ a ∧ a < s.addr + s.size ∧
        ∀ j < i - k, ∀ t, l[j]? = some t → t.name ≠ some dotText := by
    intro l
    induction l with
    | nil => intro k _ i; simp [textIndex]
    | cons s l ih =>
      intro k hl i
      unfold textIndex
      by_cases hn : s.name = some dotText
      · rw [if_pos hn, Nat.mod_eq_of_lt (hl s (by simp))]
        constructor
        · intro h
          split at h
          · rename_i hc
            cases h
            refine ⟨Nat.le_refl _, s, by simp, hn, hc.1, hc.2, ?_⟩
            intro j hj
            omega
          · cases h
        · rintro ⟨hk, t, ht, htn, h1, h2, h3⟩
          have : i = k := by
            by_contra hne
            exact h3 0 (by omega) s rfl hn
          subst this
          simp only [Nat.sub_self, List.getElem?_cons_zero, Option.some.injEq] at ht
          subst ht
          rw [if_pos ⟨h1, h2⟩]
      · rw [if_neg hn, ih (k + 1) (fun x hx => hl x (List.mem_cons_of_mem _ hx)) i]
        constructor
        · rintro ⟨hk, t, ht, htn, h1, h2, h3⟩
          have e : i - k = i - (k + 1) + 1 := by omega
          refine ⟨by omega, t, by rw [e]; exact ht, htn, h1, h2, ?_⟩
          intro j hj x hx
          cases j with
          | zero =>
            simp only [List.getElem?_cons_zero, Option.some.injEq] at hx
            subst hx
            exact hn
          | succ j => exact h3 j (by omega) x hx
        · rintro ⟨hk, t, ht, htn, h1, h2, h3⟩
          have hne : i ≠ k := by
            rintro rfl
            simp only [Nat.sub_self, List.getElem?_cons_zero, Option.some.injEq] at ht
            subst ht
            exact hn htn
          have e : i - k = i - (k + 1) + 1 := by omega
          rw [e] at ht h3
          exact ⟨by omega, t, ht, htn, h1, h2, fun j hj x hx => h3 (j + 1) (by omega) x hx⟩
  unfold sectionIndex
  by_cases hk : dotKo <:+ d.fileName
  · rw [if_pos hk, gen d.secs 0 hs i]
    simp only [Nat.sub_zero, Nat.zero_le, true_and, hk]
  · rw [if_neg hk]
    simp [hk]

/-- **C93**: debug information can be used exactly if there is a unit and no unit is in a missing package. -/
theorem context_iff (us : List Unit2) (dwp : Name) : createContext us dwp = true ↔ us ≠ [] ∧ (dwp = [] → ∀ u ∈ us, u.skeleton = false) := by
  unfold createContext
  by_cases h : dwp = [] ∧ us.any (·.skeleton) = true
  · rw [if_pos h]
    obtain ⟨u, hu, hs⟩ := List.any_eq_true.1 h.2
    constructor
    · intro h'; cases h'
    · rintro ⟨_, h2⟩
      rw [h2 h.1 u hu] at hs
      cases hs
  · rw [if_neg h, decide_eq_true_eq]
    refine (and_iff_left ?_).symm
    intro hd u hu
    by_contra hc
    exact h ⟨hd, List.any_eq_true.2 ⟨u, hu, by simpa using hc⟩⟩

/-- **C93**: the name of the unit of an address, empty if it has none; an error exactly if no unit covers the address. -/
theorem unitName_spec (us : List Unit2) (a : Nat) : (unitName us a = none ↔ ∀ u ∈ us, u.covers a = false) ∧
    ∀ n, unitName us a = some n → ∃ u ∈ us, u.covers a = true ∧ n = u.name.getD [] := by
  unfold unitName
  constructor
  · rw [Option.map_eq_none_iff, List.find?_eq_none]
    simp
  · intro n hn
    obtain ⟨u, hu, rfl⟩ := Option.map_eq_some_iff.1 hn
    exact ⟨u, List.mem_of_find?_eq_some hu, by simpa using List.find?_some hu, rfl⟩

/-! ### Example -/

/-- `f` inlined in `g`: address 16 is on line 7 of file `a` in directory `d`, called on line 23 of file `b` in the second directory. -/
def exTable (v : Nat) : LineTable where
  version := v
  dirs := [[100], [101]]
  files := [([97], 1), ([98], 2)]
  rows := [(if v < 5 then 1 else 0, 7, 3)]
  lookup := fun a s => if a = 16 ∧ s = none then some 0 else none
def exDebug (v : Nat) : Debug where
  fileName := [120]
  secs := []
  units := [⟨0, none, fun _ => []⟩, ⟨64, some (exTable v), fun _ => [⟨some [102], 5, if v < 5 then 2 else 1, 23, 1⟩, ⟨some [103], 20, 0, 0, 0⟩]⟩]
  aranges := fun a => if a < 32 then some 64 else none

theorem ex_small (v : Nat) : (exDebug v).Small := by
  refine ⟨?_, by simp [exDebug], ?_, ?_⟩
  · intro u hu
    simp only [exDebug, List.mem_cons, List.not_mem_nil, or_false] at hu
    rcases hu with rfl | rfl <;> simp only <;> omega
  · intro a o h
    simp only [exDebug] at h
    split at h
    · cases h
      exact ⟨_, List.mem_cons_of_mem _ (List.mem_cons_self ..), rfl⟩
    · cases h
  · intro u hu t ht
    simp only [exDebug, List.mem_cons, List.not_mem_nil, or_false] at hu
    rcases hu with rfl | rfl
    · cases ht
    · cases ht
      simp [exTable]

theorem ex_stack : getInlineStack (exDebug 4) 16 [] = [⟨some [102], [100], [97], 5, 7, 3⟩, ⟨some [103], [101], [98], 20, 23, 1⟩] ∧
    getInlineStack (exDebug 4) 40 [] = [] := by decide +kernel

/-- In DWARF 5 the directory of a file is wrong: directory 1 is taken for directory 0. -/
theorem dir_violated : (getInlineStack (exDebug 5) 16 []).map (fun x => (x.file, x.dir)) = [([97], [100]), ([98], [101])] ∧
    dirOf (exTable 5) 1 = [101] ∧ fileEntry (exTable 5) 0 = some ([97], 1) := by decide +kernel

/-- With 4 GiB of debug information addresses of one unit are looked up in another. -/
theorem offset_violated : ((unitMap [⟨64, none, fun _ => []⟩, ⟨2 ^ 32 + 64, none, fun _ => []⟩] 64).map (·.offset)) = some (2 ^ 32 + 64) := by
  decide +kernel

/-- A module whose `.text` does not have the address is looked up without section. -/
theorem ex_section : sectionIndex { exDebug 4 with fileName := [120, 46, 107, 111], secs := [⟨none, 0, 0⟩, ⟨some dotText, 16, 8⟩] } 20 = some 1 ∧
    sectionIndex { exDebug 4 with fileName := [120, 46, 107, 111], secs := [⟨none, 0, 0⟩, ⟨some dotText, 16, 8⟩] } 24 = none := by decide +kernel

end Verif.LlvmLine

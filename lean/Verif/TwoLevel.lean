import Verif.LineMap

/-! # C97: two-level line tables (util/symbolize/functioninfo.{h,cc})

The handler and the map it fills, for two-level tables (version 0xf006) and normal ones in the same map.  A logical row has the number
of the row it was inlined into (its context), and of its subprogram; an actual row has the number of a logical row.  `none` is a failed
`CHECK`, an access outside a vector or a recursion without end.  Simplification: numbers of rows and subprograms stay below 2^31. -/
namespace Verif.TwoLevel
open Verif Verif.LineMap

/-- The fields of a logical row (line_state_machine.h:37-46) that the handler uses. -/
structure Log where
  file : Nat
  line : Nat
  discr : Nat
  context : Nat
  subprog : Nat
deriving DecidableEq, Repr

/-- `LineIdentifier` (functioninfo.h:51-64). -/
structure LineRef where
  dir : Name
  file : Name
  line : Nat
  discr : Nat
  context : Nat
  subprog : Nat
deriving DecidableEq, Repr

/-- `SubprogInfo` (functioninfo.h:78-82). -/
structure Sub where
  name : Name
  dir : Name
  file : Name
  line : Nat
deriving DecidableEq, Repr

/-- `AddressToLineMap` (functioninfo.h:66-190): `subprogs_`, `logical_lines_`, `line_map_`, `logical_map_`, `subprog_bias_`. -/
structure AMap where
  subs : List Sub
  lines : List LineRef
  map : OMap Nat Nat
  lmap : List Nat
  bias : Nat
deriving DecidableEq

/-- A new map (functioninfo.h:89-91). -/
def AMap.new : AMap := ⟨[], [], [], [], 0⟩

/-- The calls of the handler after the directories and files: `DefineSubprog`, `StartActuals`, `AddLine` for a normal row, and `AddLine`
for an actual row with the number of its logical row. -/
inductive Call where
  | dir (name : Name) (i : Nat)
  | file (name : Name) (i : Int) (dir : Nat)
  | subprog (name : Name) (i file line : Nat)
  | start
  | row (address file line discr : Nat) (stop : Bool)
  | actual (address num : Nat) (stop : Bool)
deriving DecidableEq

/-- `(*files_)[n]` and `(*dirs_)[file.first]` (functioninfo.cc:109-114, 132-136, 166-170). -/
def fileAt (t : Tab) (n : Nat) : Option (Name × Name) :=
  (t.files[n]?).bind fun f => (t.dirs[f.1]?).map fun d => (d, f.2)

/-- `MapLogical` (functioninfo.h:121-128). -/
def AMap.mapLogical (m : AMap) (k : Nat) : Nat := if k < 1 then 0 else (m.lmap[k]?).getD 0

/-- `AddLogical` (functioninfo.h:131-144). -/
def AMap.addLogical (m : AMap) (k : Nat) (id : LineRef) : Option (AMap × Nat) :=
  if 0 < k ∧ k < m.lmap.length then
    if 0 < m.mapLogical k then some (m, m.mapLogical k)
    else
      let id := if 0 < id.subprog then { id with subprog := id.subprog + m.bias } else id
      some ({ m with lines := m.lines ++ [id], lmap := m.lmap.set k (m.lines.length + 1) }, m.lines.length + 1)
  else none

/-- `AddLogicalStack` (functioninfo.cc:127-155); the first argument bounds the depth of the recursion. -/
def addStack (t : Tab) (logs : List Log) : Nat → AMap → Nat → Option (AMap × Nat)
  | 0, _, _ => none
  | fuel + 1, m, k =>
    if 0 < m.mapLogical k then some (m, m.mapLogical k)
    else
      match (if k = 0 then none else logs[k - 1]?) with
      | none => none
      | some l =>
        match fileAt t l.file with
        | none => some (m, 0)
        | some (dir, file) =>
          (if l.context = 0 then some (m, 0) else addStack t logs fuel m l.context).bind fun r =>
            r.1.addLogical k ⟨dir, file, l.line % 2 ^ 32, l.discr, r.2, l.subprog⟩

/-- The callbacks (functioninfo.cc:87-185); `logs` is the table of logical rows. -/
def handle (vaddr : Nat) (sampled : Option (OMap Nat Nat)) (logs : List Log) (s : Tab × AMap) : Call → Option (Tab × AMap)
  | .dir name i => if i = s.1.dirs.length then some ({ s.1 with dirs := s.1.dirs ++ [name] }, s.2) else none
  | .file name i d =>
    if d < s.1.dirs.length then
      if i = s.1.files.length ∨ i = -1 then some ({ s.1 with files := s.1.files ++ [(d, name)] }, s.2) else some s
    else none
  | .subprog name i f l =>
    match fileAt s.1 f with
    | none => some s
    | some (dir, file) =>
      if s.2.bias + i - 1 = s.2.subs.length then some (s.1, { s.2 with subs := s.2.subs ++ [⟨name, dir, file, l⟩] }) else none
  | .start => some (s.1, { s.2 with lmap := List.replicate (logs.length + 1) 0 })
  | .row a f l d e =>
    if shouldAdd vaddr sampled a then
      if e then some (s.1, { s.2 with map := OMap.set a 0 s.2.map })
      else
        match fileAt s.1 f with
        | none => some s
        | some (dir, file) =>
          some (s.1, { s.2 with lines := s.2.lines ++ [⟨dir, file, l, d, 0, 0⟩], map := OMap.set a (s.2.lines.length + 1) s.2.map })
    else some s
  | .actual a k e =>
    if shouldAdd vaddr sampled a then
      if e then some (s.1, { s.2 with map := OMap.set a 0 s.2.map })
      else (addStack s.1 logs (logs.length + 1) s.2 k).map fun r => (s.1, { r.1 with map := OMap.set a r.2 r.1.map })
    else some s

/-- One unit: a fresh handler, `StartCU` (functioninfo.h:93-95, functioninfo.cc:54-64), and its calls. -/
def handleUnit (vaddr : Nat) (sampled : Option (OMap Nat Nat)) (m : AMap) (u : List Log × List Call) : Option AMap :=
  (u.2.foldlM (handle vaddr sampled u.1) (Tab.init, { m with bias := m.subs.length })).map Prod.snd

/-- All units, into one map. -/
def handleAll (vaddr : Nat) (sampled : Option (OMap Nat Nat)) (us : List (List Log × List Call)) : Option AMap :=
  us.foldlM (handleUnit vaddr sampled) AMap.new

/-- A source position with the subprogram it belongs to. -/
structure Frame where
  dir : Name
  file : Name
  line : Nat
  discr : Nat
  sub : Option Sub
deriving DecidableEq, Repr

/-- A client's walk from a logical row through its contexts with `GetLogical` and `GetSubprogInfo` (functioninfo.h:66-75, 162-172). -/
def AMap.walk (m : AMap) : Nat → Nat → Option (List Frame)
  | 0, _ => none
  | fuel + 1, n =>
    if n = 0 then none
    else
      (m.lines[n - 1]?).bind fun l =>
      (if l.subprog = 0 then some none else (m.subs[l.subprog - 1]?).map some).bind fun s =>
      if l.context = 0 then some [⟨l.dir, l.file, l.line, l.discr, s⟩]
      else (m.walk fuel l.context).map (⟨l.dir, l.file, l.line, l.discr, s⟩ :: ·)

/-- Looking up an address with `upper_bound` (legacy_addr2line.cc:190-198): the stack, or none. -/
def AMap.lookup (m : AMap) (a : Nat) : Option (Option (List Frame)) :=
  match OMap.floor? m.map a with
  | none => some none
  | some (_, n) => if n = 0 then some none else (m.walk (m.lines.length + 1) n).map some

/-! ## Specification -/

/-- What follows the tables of a unit: rows of a normal table, or logical and actual rows (address, number of the logical row). -/
inductive Body where
  | normal (rows : List (Nat × Nat × Nat × Nat × Bool))
  | twoLevel (logs : List Log) (acts : List (Nat × Nat × Bool))

/-- A unit: directories, files (with the number of the directory), subprograms (name, file, line), and the rows. -/
structure LUnit where
  dirs : List Name
  files : List (Nat × Name)
  subs : List (Name × Nat × Nat)
  body : Body

/-- The logical rows. -/
def LUnit.logs (u : LUnit) : List Log :=
  match u.body with
  | .normal _ => []
  | .twoLevel logs _ => logs

/-- File number `n` of the unit; directory 0 is the one of the compilation. -/
def LUnit.IsFile (u : LUnit) (n : Nat) (dir file : Name) : Prop :=
  1 ≤ n ∧ ∃ d, u.files[n - 1]? = some (d, file) ∧ ((d = 0 ∧ dir = []) ∨ (1 ≤ d ∧ u.dirs[d - 1]? = some dir))

/-- Subprogram number `n` of the unit. -/
def LUnit.IsSub (u : LUnit) (n : Nat) (s : Sub) : Prop :=
  1 ≤ n ∧ ∃ f, u.subs[n - 1]? = some (s.name, f, s.line) ∧ u.IsFile f s.dir s.file

/-- The frame of a logical row. -/
def LUnit.IsFrame (u : LUnit) (l : Log) (fr : Frame) : Prop :=
  u.IsFile l.file fr.dir fr.file ∧ fr.line = l.line % 2 ^ 32 ∧ fr.discr = l.discr ∧
  ((l.subprog = 0 ∧ fr.sub = none) ∨ ∃ s, u.IsSub l.subprog s ∧ fr.sub = some s)

/-- The stack of logical row number `k`: its frame and the stack of its context. -/
inductive LUnit.IsStack (u : LUnit) : Nat → List Frame → Prop where
  | last {k l fr} : 1 ≤ k → u.logs[k - 1]? = some l → l.context = 0 → u.IsFrame l fr → u.IsStack k [fr]
  | call {k l fr fs} : 1 ≤ k → u.logs[k - 1]? = some l → l.context ≠ 0 → u.IsFrame l fr → u.IsStack l.context fs → u.IsStack k (fr :: fs)

/-- The numbers in the unit are those of existing entries, and a context is an earlier row. -/
structure LUnit.Ok (u : LUnit) : Prop where
  files : ∀ f ∈ u.files, f.1 ≤ u.dirs.length
  subs : ∀ s ∈ u.subs, 1 ≤ s.2.1 ∧ s.2.1 ≤ u.files.length
  rows : ∀ rows, u.body = .normal rows → ∀ r ∈ rows, r.2.2.2.2 = false → 1 ≤ r.2.1 ∧ r.2.1 ≤ u.files.length
  logs : ∀ (i : Nat) (l : Log), u.logs[i]? = some l → 1 ≤ l.file ∧ l.file ≤ u.files.length ∧ l.context ≤ i ∧ l.subprog ≤ u.subs.length
  acts : ∀ logs acts, u.body = .twoLevel logs acts → ∀ a ∈ acts, a.2.2 = false → 1 ≤ a.2.1 ∧ a.2.1 ≤ logs.length

/-- The calls for directories, files and subprograms, in order. -/
def dirCalls : Nat → List Name → List Call
  | _, [] => []
  | i, d :: ds => .dir d i :: dirCalls (i + 1) ds

def fileCalls : Nat → List (Nat × Name) → List Call
  | _, [] => []
  | i, f :: fs => .file f.2 i f.1 :: fileCalls (i + 1) fs

def subCalls : Nat → List (Name × Nat × Nat) → List Call
  | _, [] => []
  | i, s :: ss => .subprog s.1 i s.2.1 s.2.2 :: subCalls (i + 1) ss

/-- The calls the reader makes for a unit. -/
def LUnit.calls (u : LUnit) : List Log × List Call :=
  (u.logs, dirCalls 1 u.dirs ++ fileCalls 1 u.files ++ subCalls 1 u.subs ++
    match u.body with
    | .normal rows => rows.map fun r => .row r.1 r.2.1 r.2.2.1 r.2.2.2.1 r.2.2.2.2
    | .twoLevel _ acts => .start :: acts.map fun a => .actual a.1 a.2.1 a.2.2)

/-- What is known about addresses: at an address there starts code with this stack, or none. -/
abbrev Reports := List (Nat × Option (List Frame))

/-- A row of a normal table says this. -/
def LUnit.RowSays (u : LUnit) (r : Nat × Nat × Nat × Nat × Bool) (x : Nat × Option (List Frame)) : Prop :=
  x.1 = r.1 ∧ ((r.2.2.2.2 = true ∧ x.2 = none) ∨
    (r.2.2.2.2 = false ∧ ∃ dir file, u.IsFile r.2.1 dir file ∧ x.2 = some [⟨dir, file, r.2.2.1, r.2.2.2.1, none⟩]))

/-- An actual row says this. -/
def LUnit.ActSays (u : LUnit) (r : Nat × Nat × Bool) (x : Nat × Option (List Frame)) : Prop :=
  x.1 = r.1 ∧ ((r.2.2 = true ∧ x.2 = none) ∨ (r.2.2 = false ∧ ∃ fs, u.IsStack r.2.1 fs ∧ x.2 = some fs))

/-- The rows of the unit at kept addresses say `acc`, in order. -/
def LUnit.Says (keep : Nat → Bool) (u : LUnit) (acc : Reports) : Prop :=
  match u.body with
  | .normal rows => List.Forall₂ u.RowSays (rows.filter fun r => keep r.1) acc
  | .twoLevel _ acts => List.Forall₂ u.ActSays (acts.filter fun a => keep a.1) acc

/-- The last report at the greatest reported address not above `a`. -/
def Ans (acc : Reports) (a : Nat) (r : Option (List Frame)) : Prop :=
  (∃ pre k post, acc = pre ++ (k, r) :: post ∧ k ≤ a ∧ (∀ e ∈ acc, e.1 ≤ a → e.1 ≤ k) ∧ ∀ e ∈ post, e.1 ≠ k) ∨
  (r = none ∧ ∀ e ∈ acc, a < e.1)

/-! ## Proofs -/

/-- The map knows the stack `fs` under the number `n`. -/
inductive At (m : AMap) : Nat → List Frame → Prop where
  | last {n l s} : 1 ≤ n → m.lines[n - 1]? = some l → l.context = 0 → ((l.subprog = 0 ∧ s = none) ∨ (1 ≤ l.subprog ∧ ∃ x, m.subs[l.subprog - 1]? = some x ∧ s = some x)) →
      At m n [⟨l.dir, l.file, l.line, l.discr, s⟩]
  | call {n l s fs} : 1 ≤ n → m.lines[n - 1]? = some l → l.context ≠ 0 → l.context < n →
      ((l.subprog = 0 ∧ s = none) ∨ (1 ≤ l.subprog ∧ ∃ x, m.subs[l.subprog - 1]? = some x ∧ s = some x)) → At m l.context fs →
      At m n (⟨l.dir, l.file, l.line, l.discr, s⟩ :: fs)

/-- The map grew. -/
structure Ext (m m' : AMap) : Prop where
  lines : ∃ x, m'.lines = m.lines ++ x
  subs : ∃ x, m'.subs = m.subs ++ x

theorem Ext.refl (m : AMap) : Ext m m := ⟨⟨[], by simp⟩, ⟨[], by simp⟩⟩

theorem Ext.trans {a b c : AMap} (h : Ext a b) (g : Ext b c) : Ext a c := by
  obtain ⟨⟨x, hx⟩, ⟨y, hy⟩⟩ := h
  obtain ⟨⟨z, hz⟩, ⟨w, hw⟩⟩ := g
  exact ⟨⟨x ++ z, by rw [hz, hx, List.append_assoc]⟩, ⟨y ++ w, by rw [hw, hy, List.append_assoc]⟩⟩

theorem get_ext {α : Type} {l l' : List α} (h : ∃ x, l' = l ++ x) {i : Nat} {v : α} (hv : l[i]? = some v) : l'[i]? = some v := by
  obtain ⟨x, rfl⟩ := h
  rw [List.getElem?_append_left (List.getElem?_eq_some_iff.1 hv).1]
  exact hv

theorem At.mono {m m' : AMap} (h : Ext m m') {n : Nat} {fs : List Frame} (ha : At m n fs) : At m' n fs := by
  have hs : ∀ (l : LineRef) (s : Option Sub), ((l.subprog = 0 ∧ s = none) ∨ (1 ≤ l.subprog ∧ ∃ x, m.subs[l.subprog - 1]? = some x ∧ s = some x)) →
      ((l.subprog = 0 ∧ s = none) ∨ (1 ≤ l.subprog ∧ ∃ x, m'.subs[l.subprog - 1]? = some x ∧ s = some x)) := by
    rintro l s (hl | ⟨h1, x, hx, hs⟩)
    · exact .inl hl
    · exact .inr ⟨h1, x, get_ext h.subs hx, hs⟩
  induction ha with
  | last h1 h2 h3 h4 => exact .last h1 (get_ext h.lines h2) h3 (hs _ _ h4)
  | call h1 h2 h3 h4 h5 _ ih => exact .call h1 (get_ext h.lines h2) h3 h4 (hs _ _ h5) ih

theorem At.le {m : AMap} {n : Nat} {fs : List Frame} (ha : At m n fs) : 1 ≤ n ∧ n ≤ m.lines.length := by
  cases ha with
  | last h1 h2 _ _ => exact ⟨h1, by have := (List.getElem?_eq_some_iff.1 h2).1; omega⟩
  | call h1 h2 _ _ _ _ => exact ⟨h1, by have := (List.getElem?_eq_some_iff.1 h2).1; omega⟩

theorem sub_step {m : AMap} {l : LineRef} {s : Option Sub}
    (h : (l.subprog = 0 ∧ s = none) ∨ (1 ≤ l.subprog ∧ ∃ x, m.subs[l.subprog - 1]? = some x ∧ s = some x)) :
    (if l.subprog = 0 then some none else (m.subs[l.subprog - 1]?).map some) = some s := by
  rcases h with ⟨h1, rfl⟩ | ⟨h1, x, hx, rfl⟩
  · rw [if_pos h1]
  · rw [if_neg (by omega), hx]; rfl

theorem At.walk {m : AMap} {n : Nat} {fs : List Frame} (ha : At m n fs) : ∀ fuel, n ≤ fuel → m.walk fuel n = some fs := by
  induction ha with
  | last h1 h2 h3 h4 =>
    intro fuel hf
    cases fuel with
    | zero => omega
    | succ fuel =>
      unfold AMap.walk
      rw [if_neg (by omega), h2, Option.bind_some, sub_step h4, Option.bind_some, if_pos h3]
  | call h1 h2 h3 h4 h5 _ ih =>
    intro fuel hf
    cases fuel with
    | zero => omega
    | succ fuel =>
      unfold AMap.walk
      rw [if_neg (by omega), h2, Option.bind_some, sub_step h5, Option.bind_some, if_neg h3, ih fuel (by omega)]
      rfl

/-- The tables of the handler hold the unit's. -/
structure TabOk (u : LUnit) (t : Tab) : Prop where
  dirs : t.dirs = [] :: u.dirs
  files : t.files = (0, []) :: u.files

theorem fileAt_spec {u : LUnit} (hu : u.Ok) {t : Tab} (ht : TabOk u t) {n : Nat} (h1 : 1 ≤ n) (h2 : n ≤ u.files.length) :
    ∃ dir file, fileAt t n = some (dir, file) ∧ u.IsFile n dir file := by
  obtain ⟨k, rfl⟩ : ∃ k, n = k + 1 := ⟨n - 1, by omega⟩
  unfold fileAt LUnit.IsFile
  rw [ht.files, ht.dirs, List.getElem?_cons_succ, Nat.add_sub_cancel]
  have hk : k < u.files.length := by omega
  rw [List.getElem?_eq_getElem hk]
  have hd := hu.files _ (List.getElem_mem hk)
  rcases hf : u.files[k] with ⟨d, file⟩
  rw [hf] at hd
  simp only at hd
  cases d with
  | zero => exact ⟨[], file, by simp, by omega, 0, rfl, .inl ⟨rfl, rfl⟩⟩
  | succ d =>
    have hd' : d < u.dirs.length := by omega
    refine ⟨u.dirs[d], file, ?_, by omega, d + 1, rfl, .inr ⟨by omega, ?_⟩⟩
    · simp [List.getElem?_eq_getElem hd']
    · simp [List.getElem?_eq_getElem hd']

theorem IsFile.unique {u : LUnit} {n : Nat} {d d' f f' : Name} (h : u.IsFile n d f) (g : u.IsFile n d' f') : d = d' ∧ f = f' := by
  obtain ⟨_, a, h1, h2⟩ := h
  obtain ⟨_, b, g1, g2⟩ := g
  rw [h1] at g1
  cases g1
  refine ⟨?_, rfl⟩
  rcases h2 with ⟨h0, rfl⟩ | ⟨h0, h2⟩ <;> rcases g2 with ⟨g0, rfl⟩ | ⟨g0, g2⟩
  · rfl
  · omega
  · omega
  · rw [h2] at g2; cases g2; rfl

/-- A row has one stack. -/
theorem stack_unique {u : LUnit} {k : Nat} {fs : List Frame} (h : u.IsStack k fs) : ∀ gs, u.IsStack k gs → fs = gs := by
  have hfr : ∀ (l : Log) (a b : Frame), u.IsFrame l a → u.IsFrame l b → a = b := by
    rintro l ⟨d1, f1, l1, c1, s1⟩ ⟨d2, f2, l2, c2, s2⟩ ⟨h1, h2, h3, h4⟩ ⟨g1, g2, g3, g4⟩
    simp only at h1 h2 h3 h4 g1 g2 g3 g4
    obtain ⟨rfl, rfl⟩ := IsFile.unique h1 g1
    subst h2; subst g2; subst h3; subst g3
    rcases h4 with ⟨h4, rfl⟩ | ⟨s, h4, rfl⟩ <;> rcases g4 with ⟨g4, rfl⟩ | ⟨s', g4, rfl⟩
    · rfl
    · have := g4.1; omega
    · have := h4.1; omega
    · obtain ⟨_, f, p1, p2⟩ := h4
      obtain ⟨_, f', q1, q2⟩ := g4
      rw [p1] at q1
      simp only [Option.some.injEq, Prod.mk.injEq] at q1
      obtain ⟨e1, rfl, e3⟩ := q1
      obtain ⟨e4, e5⟩ := IsFile.unique p2 q2
      cases s; cases s'
      simp_all
  induction h with
  | last h1 h2 h3 h4 =>
    intro gs hg
    cases hg with
    | last _ g2 _ g4 => rw [h2] at g2; cases g2; rw [hfr _ _ _ h4 g4]
    | call _ g2 g3 _ _ => rw [h2] at g2; cases g2; exact absurd h3 g3
  | call h1 h2 h3 h4 _ ih =>
    intro gs hg
    cases hg with
    | last _ g2 g3 _ => rw [h2] at g2; cases g2; exact absurd g3 h3
    | call _ g2 _ g4 g5 => rw [h2] at g2; cases g2; rw [hfr _ _ _ h4 g4, ih _ g5]

/-- While a unit is read. -/
structure UInv (u : LUnit) (m : AMap) : Prop where
  len : m.lmap.length = u.logs.length + 1
  known : ∀ k, 1 ≤ k → 0 < m.mapLogical k → ∃ fs, u.IsStack k fs ∧ At m (m.mapLogical k) fs
  subs : ∀ j s, u.IsSub (j + 1) s → m.subs[m.bias + j]? = some s

theorem isSub_total {u : LUnit} (hu : u.Ok) {n : Nat} (h1 : 1 ≤ n) (h2 : n ≤ u.subs.length) : ∃ s, u.IsSub n s := by
  have hk : n - 1 < u.subs.length := by omega
  have hs := hu.subs _ (List.getElem_mem hk)
  have ht : TabOk u ⟨[] :: u.dirs, (0, []) :: u.files⟩ := ⟨rfl, rfl⟩
  obtain ⟨dir, file, -, hf⟩ := fileAt_spec hu ht hs.1 hs.2
  exact ⟨⟨u.subs[n - 1].1, dir, file, u.subs[n - 1].2.2⟩, h1, u.subs[n - 1].2.1, by rw [List.getElem?_eq_getElem hk], hf⟩

/-- `AddLogicalStack` stores the stack of the row, and gives its number. -/
theorem addStack_spec {u : LUnit} (hu : u.Ok) {t : Tab} (ht : TabOk u t) : ∀ (fuel : Nat) (m : AMap) (k : Nat), UInv u m → 1 ≤ k →
    k ≤ u.logs.length → k ≤ fuel → ∃ m' n fs, addStack t u.logs fuel m k = some (m', n) ∧ Ext m m' ∧ UInv u m' ∧ m'.map = m.map ∧
      m'.bias = m.bias ∧ u.IsStack k fs ∧ At m' n fs := by
  intro fuel
  induction fuel with
  | zero => intro m k _ h1 _ h3; omega
  | succ fuel ih =>
    intro m k hm h1 h2 h3
    unfold addStack
    by_cases hk : 0 < m.mapLogical k
    · obtain ⟨fs, hf, ha⟩ := hm.known k h1 hk
      rw [if_pos hk]
      exact ⟨m, _, fs, rfl, Ext.refl m, hm, rfl, rfl, hf, ha⟩
    · rw [if_neg hk]
      have hlt : k - 1 < u.logs.length := by omega
      have hl : u.logs[k - 1]? = some u.logs[k - 1] := List.getElem?_eq_getElem hlt
      generalize u.logs[k - 1] = l at hl
      rw [if_neg (show ¬ k = 0 by omega), hl]
      simp only
      obtain ⟨g1, g2, g3, g4⟩ := hu.logs _ l hl
      obtain ⟨dir, file, hfile, hisf⟩ := fileAt_spec hu ht g1 g2
      rw [hfile]
      simp only
      -- the subprogram
      have hsub : ∃ s : Option Sub, ((l.subprog = 0 ∧ s = none) ∨ ∃ x, u.IsSub l.subprog x ∧ s = some x) := by
        by_cases h0 : l.subprog = 0
        · exact ⟨none, .inl ⟨h0, rfl⟩⟩
        · obtain ⟨x, hx⟩ := isSub_total hu (by omega) g4
          exact ⟨some x, .inr ⟨x, hx, rfl⟩⟩
      obtain ⟨s, hs⟩ := hsub
      -- adding the row itself
      have hadd : ∀ (m1 : AMap) (c : Nat) (fs : List Frame), Ext m m1 → UInv u m1 → m1.map = m.map → m1.bias = m.bias →
          u.IsStack k (⟨dir, file, l.line % 2 ^ 32, l.discr, s⟩ :: fs) →
          ((c = 0 ∧ fs = []) ∨ (c ≠ 0 ∧ At m1 c fs)) →
          ∃ m' n fs, m1.addLogical k ⟨dir, file, l.line % 2 ^ 32, l.discr, c, l.subprog⟩ = some (m', n) ∧ Ext m m' ∧ UInv u m' ∧
            m'.map = m.map ∧ m'.bias = m.bias ∧ u.IsStack k fs ∧ At m' n fs := by
        intro m1 c fs e1 hm1 emap ebias hst hc
        have hlen := hm1.len
        unfold AMap.addLogical
        rw [if_pos ⟨h1, by omega⟩]
        by_cases hk1 : 0 < m1.mapLogical k
        · obtain ⟨fs', hf, ha⟩ := hm1.known k h1 hk1
          rw [if_pos hk1]
          exact ⟨m1, _, fs', rfl, e1, hm1, emap, ebias, hf, ha⟩
        · rw [if_neg hk1]
          simp only
          generalize hr : (if 0 < l.subprog then (⟨dir, file, l.line % 2 ^ 32, l.discr, c, l.subprog + m1.bias⟩ : LineRef) else ⟨dir, file, l.line % 2 ^ 32, l.discr, c, l.subprog⟩) = r
          have hr1 : r.dir = dir ∧ r.file = file ∧ r.line = l.line % 2 ^ 32 ∧ r.discr = l.discr ∧ r.context = c := by
            rw [← hr]; split <;> exact ⟨rfl, rfl, rfl, rfl, rfl⟩
          have hext : Ext m1 { m1 with lines := m1.lines ++ [r], lmap := m1.lmap.set k (m1.lines.length + 1) } := ⟨⟨_, rfl⟩, ⟨[], by simp⟩⟩
          have hr2 : (r.subprog = 0 ∧ s = none) ∨ (1 ≤ r.subprog ∧ ∃ x, m1.subs[r.subprog - 1]? = some x ∧ s = some x) := by
            rcases hs with ⟨h0, rfl⟩ | ⟨x, hx, rfl⟩
            · left; rw [← hr, if_neg (by omega)]; exact ⟨h0, rfl⟩
            · right
              have hp := hx.1
              rw [← hr, if_pos (by omega)]
              refine ⟨by simp only; omega, x, ?_, rfl⟩
              have := hm1.subs (l.subprog - 1) x (by rw [Nat.sub_add_cancel hp]; exact hx)
              rw [show l.subprog + m1.bias - 1 = m1.bias + (l.subprog - 1) from by omega]
              exact this
          have hget : ({ m1 with lines := m1.lines ++ [r], lmap := m1.lmap.set k (m1.lines.length + 1) } : AMap).lines[m1.lines.length + 1 - 1]? =
              some r := by simp
          have hat : At { m1 with lines := m1.lines ++ [r], lmap := m1.lmap.set k (m1.lines.length + 1) } (m1.lines.length + 1)
              (⟨dir, file, l.line % 2 ^ 32, l.discr, s⟩ :: fs) := by
            obtain ⟨q1, q2, q3, q4, q5⟩ := hr1
            rw [← q1, ← q2, ← q3, ← q4]
            rcases hc with ⟨hc, rfl⟩ | ⟨hc, ha⟩
            · exact .last (by omega) hget (by rw [q5, hc]) hr2
            · have := ha.le
              refine .call (by omega) hget (by rw [q5]; exact hc) (by rw [q5]; omega) hr2 ?_
              rw [q5]
              exact ha.mono hext
          refine ⟨_, _, _, rfl, e1.trans hext, ?_, emap, ebias, hst, hat⟩
          refine ⟨by rw [List.length_set]; exact hlen, ?_, hm1.subs⟩
          intro k' hk' hpos
          by_cases hkk : k' = k
          · subst hkk
            have : ({ m1 with lines := m1.lines ++ [r], lmap := m1.lmap.set k' (m1.lines.length + 1) } : AMap).mapLogical k' = m1.lines.length + 1 := by
              unfold AMap.mapLogical
              rw [if_neg (by omega), List.getElem?_set_self (by omega)]
              rfl
            rw [this]
            exact ⟨_, hst, hat⟩
          · have : ({ m1 with lines := m1.lines ++ [r], lmap := m1.lmap.set k (m1.lines.length + 1) } : AMap).mapLogical k' = m1.mapLogical k' := by
              unfold AMap.mapLogical
              simp only
              rw [List.getElem?_set_ne (fun e => hkk e.symm)]
            rw [this] at hpos ⊢
            obtain ⟨fs', p1, p2⟩ := hm1.known k' hk' hpos
            exact ⟨fs', p1, p2.mono hext⟩
      by_cases hc : l.context = 0
      · rw [if_pos hc, Option.bind_some]
        exact hadd m 0 [] (Ext.refl m) hm rfl rfl (.last h1 hl hc ⟨hisf, rfl, rfl, hs⟩) (.inl ⟨rfl, rfl⟩)
      · rw [if_neg hc]
        obtain ⟨m1, n1, fs1, p1, p2, p3, p4, p5, p6, p7⟩ := ih m l.context hm (by omega) (by omega) (by omega)
        rw [p1, Option.bind_some]
        exact hadd m1 n1 fs1 p2 p3 p4 p5 (.call h1 hl hc ⟨hisf, rfl, rfl, hs⟩ p6) (.inr ⟨by have := p7.le; omega, p7⟩)

/-! ### Reading a unit -/

theorem foldlM_append' {α β : Type} (f : β → α → Option β) (xs ys : List α) (b : β) :
    (xs ++ ys).foldlM f b = (xs.foldlM f b).bind fun b' => ys.foldlM f b' := by
  rw [List.foldlM_append]
  rfl

theorem dirCalls_spec (vaddr : Nat) (sm : Option (OMap Nat Nat)) (logs : List Log) (m : AMap) (fs : List (Nat × Name)) (ds : List Name) :
    ∀ (i : Nat) (done : List Name), done.length = i →
    (dirCalls i ds).foldlM (handle vaddr sm logs) (⟨done, fs⟩, m) = some (⟨done ++ ds, fs⟩, m) := by
  induction ds with
  | nil => intro i done _; simp [dirCalls]
  | cons d ds ih =>
    intro i done hi
    simp only [dirCalls, List.foldlM_cons, handle, hi, if_true]
    have := ih (i + 1) (done ++ [d]) (by simp [hi])
    simp only [List.append_assoc, List.singleton_append] at this
    exact this

theorem fileCalls_spec (vaddr : Nat) (sm : Option (OMap Nat Nat)) (logs : List Log) (m : AMap) (ds : List Name) (fs : List (Nat × Name)) :
    ∀ (i : Nat) (done : List (Nat × Name)), done.length = i → (∀ f ∈ fs, f.1 < ds.length) →
    (fileCalls i fs).foldlM (handle vaddr sm logs) (⟨ds, done⟩, m) = some (⟨ds, done ++ fs⟩, m) := by
  induction fs with
  | nil => intro i done _ _; simp [fileCalls]
  | cons f fs ih =>
    intro i done hi hd
    have h1 := hd f List.mem_cons_self
    simp only [fileCalls, List.foldlM_cons, handle, h1, if_true]
    have hc : ((i : Int) = (done.length : Int) ∨ (i : Int) = -1) := Or.inl (by rw [hi])
    rw [if_pos hc]
    have := ih (i + 1) (done ++ [(f.1, f.2)]) (by simp [hi]) (fun x hx => hd x (List.mem_cons_of_mem _ hx))
    simp only [List.append_assoc, List.singleton_append] at this
    exact this

theorem subCalls_spec (vaddr : Nat) (sm : Option (OMap Nat Nat)) (logs : List Log) {u : LUnit} (hu : u.Ok) {t : Tab} (ht : TabOk u t)
    (ss : List (Name × Nat × Nat)) : ∀ (i : Nat) (m : AMap), m.bias + i - 1 = m.subs.length → 1 ≤ i →
    (∀ s ∈ ss, 1 ≤ s.2.1 ∧ s.2.1 ≤ u.files.length) →
    ∃ xs, (subCalls i ss).foldlM (handle vaddr sm logs) (t, m) = some (t, { m with subs := m.subs ++ xs }) ∧
      List.Forall₂ (fun (s : Name × Nat × Nat) (x : Sub) => x.name = s.1 ∧ x.line = s.2.2 ∧ u.IsFile s.2.1 x.dir x.file) ss xs := by
  induction ss with
  | nil => intro i m _ _ _; exact ⟨[], by simp [subCalls], .nil⟩
  | cons s ss ih =>
    intro i m hi h1 hs
    have hs1 := hs s List.mem_cons_self
    obtain ⟨dir, file, hf, hif⟩ := fileAt_spec hu ht hs1.1 hs1.2
    obtain ⟨xs, e1, e2⟩ := ih (i + 1) { m with subs := m.subs ++ [⟨s.1, dir, file, s.2.2⟩] } (by simp; omega) (by omega)
      (fun x hx => hs x (List.mem_cons_of_mem _ hx))
    refine ⟨⟨s.1, dir, file, s.2.2⟩ :: xs, ?_, .cons ⟨rfl, rfl, hif⟩ e2⟩
    simp only [subCalls, List.foldlM_cons, handle, hf, hi, if_true, Option.bind_eq_bind, Option.bind_some]
    rw [e1]
    simp

theorem forall₂_get {α β : Type} {R : α → β → Prop} {xs : List α} {ys : List β} (h : List.Forall₂ R xs ys) {i : Nat} {x : α}
    (hx : xs[i]? = some x) : ∃ y, ys[i]? = some y ∧ R x y := by
  induction h generalizing i with
  | nil => simp at hx
  | cons hr _ ih =>
    cases i with
    | zero => simp at hx; subst hx; exact ⟨_, by simp, hr⟩
    | succ i => simp at hx; obtain ⟨y, h1, h2⟩ := ih hx; exact ⟨y, by simpa using h1, h2⟩

/-- The last report at an address. -/
def LastAt (acc : Reports) (k : Nat) (r : Option (List Frame)) : Prop := ∃ pre post, acc = pre ++ (k, r) :: post ∧ ∀ e ∈ post, e.1 ≠ k

/-- The map holds the reports. -/
structure Rep (m : AMap) (acc : Reports) : Prop where
  sorted : OMap.Sorted m.map
  some : ∀ k n, OMap.find? m.map k = some n → ∃ r, LastAt acc k r ∧ ((n = 0 ∧ r = none) ∨ ∃ fs, r = some fs ∧ At m n fs)
  none : ∀ k, OMap.find? m.map k = none → ∀ e ∈ acc, e.1 ≠ k

theorem Rep.new : Rep AMap.new [] := ⟨OMap.sorted_nil, fun k n h => by simp [AMap.new, OMap.find?] at h, fun k _ e he => by cases he⟩

theorem Rep.ext {m m' : AMap} {acc : Reports} (h : Rep m acc) (e : Ext m m') (hm : m'.map = m.map) : Rep m' acc := by
  refine ⟨by rw [hm]; exact h.sorted, fun k n hk => ?_, fun k hk => h.none k (by rw [← hm]; exact hk)⟩
  obtain ⟨r, h1, h2⟩ := h.some k n (by rw [← hm]; exact hk)
  refine ⟨r, h1, ?_⟩
  rcases h2 with h2 | ⟨fs, h2, h3⟩
  · exact .inl h2
  · exact .inr ⟨fs, h2, h3.mono e⟩

theorem Rep.set {m m' : AMap} {acc : Reports} (h : Rep m acc) (e : Ext m m') {a n : Nat} (hm : m'.map = OMap.set a n m.map)
    {r : Option (List Frame)} (hr : (n = 0 ∧ r = Option.none) ∨ ∃ fs, r = Option.some fs ∧ At m' n fs) : Rep m' (acc ++ [(a, r)]) := by
  refine ⟨by rw [hm]; exact OMap.Sorted.upsert h.sorted _ _, fun k n' hk => ?_, fun k hk => ?_⟩
  · rw [hm] at hk
    simp only [OMap.set] at hk
    rw [OMap.find?_upsert h.sorted] at hk
    split at hk
    · rename_i hka
      subst hka
      rw [Option.some.injEq] at hk
      subst hk
      exact ⟨r, ⟨acc, [], rfl, by simp⟩, hr⟩
    · rename_i hka
      obtain ⟨r', ⟨pre, post, h1, h2⟩, h3⟩ := h.some k n' hk
      refine ⟨r', ⟨pre, post ++ [(a, r)], by rw [h1]; simp, ?_⟩, ?_⟩
      · intro x hx
        rcases List.mem_append.1 hx with hx | hx
        · exact h2 x hx
        · rw [List.mem_singleton] at hx; subst hx; exact fun e => hka e.symm
      · rcases h3 with h3 | ⟨fs, h3, h4⟩
        · exact .inl h3
        · exact .inr ⟨fs, h3, h4.mono e⟩
  · rw [hm] at hk
    simp only [OMap.set] at hk
    rw [OMap.find?_upsert h.sorted] at hk
    split at hk
    · cases hk
    · rename_i hka
      intro x hx
      rcases List.mem_append.1 hx with hx | hx
      · exact h.none k hk x hx
      · rw [List.mem_singleton] at hx; subst hx; exact fun e => hka e.symm

theorem rows_spec (vaddr : Nat) (sm : Option (OMap Nat Nat)) (logs : List Log) {u : LUnit} (hu : u.Ok) {t : Tab} (ht : TabOk u t)
    (rows : List (Nat × Nat × Nat × Nat × Bool)) : ∀ (m : AMap) (acc : Reports), Rep m acc →
    (∀ r ∈ rows, r.2.2.2.2 = false → 1 ≤ r.2.1 ∧ r.2.1 ≤ u.files.length) →
    ∃ m' acc', (rows.map fun r => Call.row r.1 r.2.1 r.2.2.1 r.2.2.2.1 r.2.2.2.2).foldlM (handle vaddr sm logs) (t, m) = some (t, m') ∧
      List.Forall₂ u.RowSays (rows.filter fun r => shouldAdd vaddr sm r.1) acc' ∧ Rep m' (acc ++ acc') := by
  induction rows with
  | nil => intro m acc hm _; exact ⟨m, [], rfl, .nil, by simpa using hm⟩
  | cons r rows ih =>
    intro m acc hm hr
    obtain ⟨a, f, l, d, e⟩ := r
    have hr1 := hr _ List.mem_cons_self
    have hr2 := fun x hx => hr x (List.mem_cons_of_mem _ hx)
    simp only [List.map_cons, List.foldlM_cons, List.filter_cons, handle]
    by_cases ha : shouldAdd vaddr sm a = true
    · simp only [ha, if_true]
      cases e with
      | true =>
        simp only [if_true, Option.bind_eq_bind, Option.bind_some]
        obtain ⟨m', acc', h1, h2, h3⟩ := ih { m with map := OMap.set a 0 m.map } (acc ++ [(a, none)])
          (hm.set (e := ⟨⟨[], by simp⟩, ⟨[], by simp⟩⟩) rfl (.inl ⟨rfl, rfl⟩)) hr2
        exact ⟨m', (a, none) :: acc', h1, .cons ⟨rfl, .inl ⟨rfl, rfl⟩⟩ h2, by simpa using h3⟩
      | false =>
        obtain ⟨dir, file, hf, hif⟩ := fileAt_spec hu ht (hr1 rfl).1 (hr1 rfl).2
        simp only [hf, Bool.false_eq_true, if_false, Option.bind_eq_bind, Option.bind_some]
        have hstep : Rep { m with lines := m.lines ++ [⟨dir, file, l, d, 0, 0⟩], map := OMap.set a (m.lines.length + 1) m.map }
            (acc ++ [(a, some [⟨dir, file, l, d, none⟩])]) :=
          hm.set (e := ⟨⟨_, rfl⟩, ⟨[], by simp⟩⟩) rfl (.inr ⟨_, rfl, At.last (l := ⟨dir, file, l, d, 0, 0⟩) (by omega) (by simp) rfl (.inl ⟨rfl, rfl⟩)⟩)
        obtain ⟨m', acc', h1, h2, h3⟩ := ih _ _ hstep hr2
        exact ⟨m', (a, some [⟨dir, file, l, d, none⟩]) :: acc', h1, .cons ⟨rfl, .inr ⟨rfl, dir, file, hif, rfl⟩⟩ h2, by simpa using h3⟩
    · simp only [ha, Bool.false_eq_true, if_false, Option.bind_eq_bind, Option.bind_some]
      exact ih m acc hm hr2

theorem acts_spec (vaddr : Nat) (sm : Option (OMap Nat Nat)) {u : LUnit} (hu : u.Ok) {t : Tab} (ht : TabOk u t)
    (acts : List (Nat × Nat × Bool)) : ∀ (m : AMap) (acc : Reports), Rep m acc → UInv u m →
    (∀ a ∈ acts, a.2.2 = false → 1 ≤ a.2.1 ∧ a.2.1 ≤ u.logs.length) →
    ∃ m' acc', (acts.map fun a => Call.actual a.1 a.2.1 a.2.2).foldlM (handle vaddr sm u.logs) (t, m) = some (t, m') ∧
      List.Forall₂ u.ActSays (acts.filter fun a => shouldAdd vaddr sm a.1) acc' ∧ Rep m' (acc ++ acc') := by
  induction acts with
  | nil => intro m acc hm _ _; exact ⟨m, [], rfl, .nil, by simpa using hm⟩
  | cons r acts ih =>
    intro m acc hm hi hr
    obtain ⟨a, k, e⟩ := r
    have hr1 := hr _ List.mem_cons_self
    have hr2 := fun x hx => hr x (List.mem_cons_of_mem _ hx)
    simp only [List.map_cons, List.foldlM_cons, List.filter_cons, handle]
    by_cases ha : shouldAdd vaddr sm a = true
    · simp only [ha, if_true]
      cases e with
      | true =>
        simp only [if_true, Option.bind_eq_bind, Option.bind_some]
        obtain ⟨m', acc', h1, h2, h3⟩ := ih { m with map := OMap.set a 0 m.map } (acc ++ [(a, none)])
          (hm.set (e := ⟨⟨[], by simp⟩, ⟨[], by simp⟩⟩) rfl (.inl ⟨rfl, rfl⟩))
          ⟨hi.len, fun k h1 h2 => by
            obtain ⟨fs, p1, p2⟩ := hi.known k h1 h2
            exact ⟨fs, p1, p2.mono ⟨⟨[], by simp⟩, ⟨[], by simp⟩⟩⟩, hi.subs⟩ hr2
        exact ⟨m', (a, none) :: acc', h1, .cons ⟨rfl, .inl ⟨rfl, rfl⟩⟩ h2, by simpa using h3⟩
      | false =>
        have hk := hr1 rfl
        simp only at hk
        obtain ⟨m1, n, fs, p1, p2, p3, p4, p5, p6, p7⟩ := addStack_spec hu ht (u.logs.length + 1) m k hi hk.1 hk.2 (by omega)
        simp only [p1, Bool.false_eq_true, if_false, Option.map_some, Option.bind_eq_bind, Option.bind_some]
        have e2 : Ext m1 { m1 with map := OMap.set a n m1.map } := ⟨⟨[], by simp⟩, ⟨[], by simp⟩⟩
        obtain ⟨m', acc', h1, h2, h3⟩ := ih { m1 with map := OMap.set a n m1.map } (acc ++ [(a, some fs)])
          (hm.set (e := p2.trans e2) (by simp only; rw [p4]) (.inr ⟨fs, rfl, p7.mono e2⟩))
          ⟨p3.len, fun k h1 h2 => by
            obtain ⟨fs, q1, q2⟩ := p3.known k h1 h2
            exact ⟨fs, q1, q2.mono e2⟩, p3.subs⟩ hr2
        exact ⟨m', (a, some fs) :: acc', h1, .cons ⟨rfl, .inr ⟨rfl, fs, p6, rfl⟩⟩ h2, by simpa using h3⟩
    · simp only [ha, Bool.false_eq_true, if_false, Option.bind_eq_bind, Option.bind_some]
      exact ih m acc hm hi hr2

theorem unit_spec (vaddr : Nat) (sm : Option (OMap Nat Nat)) {u : LUnit} (hu : u.Ok) (m : AMap) (acc : Reports) (hm : Rep m acc) :
    ∃ m' acc', handleUnit vaddr sm m u.calls = some m' ∧ u.Says (shouldAdd vaddr sm) acc' ∧ Rep m' (acc ++ acc') := by
  have ht : TabOk u ⟨[] :: u.dirs, (0, []) :: u.files⟩ := ⟨rfl, rfl⟩
  obtain ⟨xs, s1, s2⟩ := subCalls_spec vaddr sm u.logs hu ht u.subs 1 { m with bias := m.subs.length } (by simp) (by omega) hu.subs
  have hd := dirCalls_spec vaddr sm u.logs { m with bias := m.subs.length } [(0, [])] u.dirs 1 [[]] rfl
  have hf := fileCalls_spec vaddr sm u.logs { m with bias := m.subs.length } ([] :: u.dirs) u.files 1 [(0, [])] rfl
    (fun f hf => by have := hu.files f hf; simp only [List.length_cons]; omega)
  simp only [List.singleton_append] at hd hf
  have e1 : Ext m { m with bias := m.subs.length, subs := m.subs ++ xs } := ⟨⟨[], by simp⟩, ⟨_, rfl⟩⟩
  have hfold : ∀ tail, (dirCalls 1 u.dirs ++ fileCalls 1 u.files ++ subCalls 1 u.subs ++ tail).foldlM (handle vaddr sm u.logs)
      (Tab.init, { m with bias := m.subs.length }) =
      tail.foldlM (handle vaddr sm u.logs) (⟨[] :: u.dirs, (0, []) :: u.files⟩, { m with bias := m.subs.length, subs := m.subs ++ xs }) := by
    intro tail
    rw [foldlM_append', foldlM_append', foldlM_append', show (Tab.init : Tab) = ⟨[[]], [(0, [])]⟩ from rfl, hd, Option.bind_some, hf,
      Option.bind_some, s1, Option.bind_some]
  unfold handleUnit LUnit.calls LUnit.Says
  simp only
  rw [hfold]
  cases hb : u.body with
  | normal rows =>
    simp only
    obtain ⟨m', acc', h1, h2, h3⟩ := rows_spec vaddr sm u.logs hu ht rows _ acc (hm.ext e1 rfl) (hu.rows rows hb)
    rw [h1]
    exact ⟨m', acc', rfl, h2, h3⟩
  | twoLevel logs acts =>
    simp only [List.foldlM_cons, handle, Option.bind_eq_bind, Option.bind_some]
    have hl : u.logs = logs := by unfold LUnit.logs; rw [hb]
    have hinv : UInv u { m with bias := m.subs.length, subs := m.subs ++ xs, lmap := List.replicate (u.logs.length + 1) 0 } := by
      refine ⟨by simp, fun k h1 h2 => ?_, fun j s hs => ?_⟩
      · exfalso
        unfold AMap.mapLogical at h2
        rw [if_neg (by omega), List.getElem?_replicate] at h2
        split at h2 <;> simp at h2
      · obtain ⟨-, f, g1, g2⟩ := hs
        rw [Nat.add_sub_cancel] at g1
        obtain ⟨y, h1, h2, h3, h4⟩ := forall₂_get s2 g1
        obtain ⟨h5, h6⟩ := IsFile.unique g2 h4
        have : y = s := by cases y; cases s; simp_all
        simp only
        rw [List.getElem?_append_right (by omega), Nat.add_sub_cancel_left, h1, this]
    obtain ⟨m', acc', h1, h2, h3⟩ := acts_spec vaddr sm hu ht acts _ acc (hm.ext (m' := { m with bias := m.subs.length, subs := m.subs ++ xs, lmap := List.replicate (u.logs.length + 1) 0 }) ⟨⟨[], by simp⟩, ⟨_, rfl⟩⟩ rfl) hinv
      (by rw [hl]; exact hu.acts logs acts hb)
    rw [h1]
    exact ⟨m', acc', rfl, h2, h3⟩

theorem lookup_spec {m : AMap} {acc : Reports} (h : Rep m acc) (a : Nat) : ∃ r, m.lookup a = some r ∧ Ans acc a r := by
  unfold AMap.lookup
  cases hf : OMap.floor? m.map a with
  | none =>
    refine ⟨none, rfl, .inr ⟨rfl, fun e he => ?_⟩⟩
    have hn := (OMap.floor?_eq_none h.sorted).1 hf
    cases hg : OMap.find? m.map e.1 with
    | none => exact absurd rfl (h.none _ hg e he)
    | some n => exact hn _ (OMap.mem_of_find?_some hg)
  | some x =>
    obtain ⟨k, n⟩ := x
    obtain ⟨h1, h2, h3⟩ := (OMap.floor?_iff h.sorted).1 hf
    obtain ⟨r, ⟨pre, post, q1, q2⟩, q3⟩ := h.some k n (OMap.find?_some_of_mem h.sorted h1)
    have hmax : ∀ e ∈ acc, e.1 ≤ a → e.1 ≤ k := by
      intro e he hea
      cases hg : OMap.find? m.map e.1 with
      | none => exact absurd rfl (h.none _ hg e he)
      | some n => exact h3 _ (OMap.mem_of_find?_some hg) hea
    refine ⟨r, ?_, .inl ⟨pre, k, post, q1, h2, hmax, q2⟩⟩
    simp only
    rcases q3 with ⟨rfl, rfl⟩ | ⟨fs, rfl, ha⟩
    · rfl
    · have := ha.le
      rw [if_neg (by omega), ha.walk _ (by omega)]
      rfl

/-- **C97.** For every list of units, with normal or two-level tables, read into one map: reading succeeds, and looking up an address gives
the stack that the last row at the greatest row address not above it describes: the frame of its logical row, with its subprogram, and the
frames of the contexts; no stack if that row ends a sequence or there is none. -/
theorem two_level (vaddr : Nat) (sm : Option (OMap Nat Nat)) (us : List LUnit) (hu : ∀ u ∈ us, u.Ok) :
    ∃ m accs, handleAll vaddr sm (us.map LUnit.calls) = some m ∧ List.Forall₂ (LUnit.Says (shouldAdd vaddr sm)) us accs ∧
      ∀ a, ∃ r, m.lookup a = some r ∧ Ans accs.flatten a r := by
  have key : ∀ (us : List LUnit), (∀ u ∈ us, u.Ok) → ∀ (m : AMap) (acc : Reports), Rep m acc →
      ∃ m' accs, (us.map LUnit.calls).foldlM (handleUnit vaddr sm) m = some m' ∧ List.Forall₂ (LUnit.Says (shouldAdd vaddr sm)) us accs ∧
        Rep m' (acc ++ accs.flatten) := by
    intro us
    induction us with
    | nil => intro _ m acc hm; exact ⟨m, [], rfl, .nil, by simpa using hm⟩
    | cons u us ih =>
      intro hu m acc hm
      obtain ⟨m1, acc1, h1, h2, h3⟩ := unit_spec vaddr sm (hu u List.mem_cons_self) m acc hm
      obtain ⟨m2, accs, h4, h5, h6⟩ := ih (fun x hx => hu x (List.mem_cons_of_mem _ hx)) m1 _ h3
      refine ⟨m2, acc1 :: accs, ?_, .cons h2 h5, by simpa using h6⟩
      rw [List.map_cons, List.foldlM_cons, h1]
      exact h4
  obtain ⟨m, accs, h1, h2, h3⟩ := key us hu AMap.new [] Rep.new
  exact ⟨m, accs, h1, h2, fun a => lookup_spec (by simpa using h3) a⟩

/-! ## Violations and examples -/

/-- **C97, violated**: a row whose context is itself makes `AddLogicalStack` recurse without end. -/
theorem cycle_violated (t : Tab) (l : Log) (m : AMap) (hf : (fileAt t l.file).isSome = true) (hc : l.context = 1) (hm : m.mapLogical 1 = 0)
    (fuel : Nat) : addStack t [l] fuel m 1 = none := by
  induction fuel with
  | zero => rfl
  | succ fuel ih =>
    unfold addStack
    obtain ⟨⟨d, f⟩, hdf⟩ := Option.isSome_iff_exists.1 hf
    simp [hm, hc, hdf, ih]

/-- **C97, violated**: a context that does not exist is reported by `MapLogical`, and then read outside the table. -/
theorem missing_context_violated (t : Tab) (l : Log) (m : AMap) (hf : (fileAt t l.file).isSome = true) (hc : 1 < l.context)
    (hlen : m.lmap.length = 2) (hm : m.mapLogical 1 = 0) (fuel : Nat) : m.mapLogical l.context = 0 ∧ addStack t [l] fuel m 1 = none := by
  have h0 : m.mapLogical l.context = 0 := by
    unfold AMap.mapLogical
    rw [if_neg (by omega), List.getElem?_eq_none (by omega)]
    rfl
  refine ⟨h0, ?_⟩
  cases fuel with
  | zero => rfl
  | succ fuel =>
    unfold addStack
    obtain ⟨⟨d, f⟩, hdf⟩ := Option.isSome_iff_exists.1 hf
    have hi : addStack t [l] fuel m l.context = none := by
      cases fuel with
      | zero => rfl
      | succ fuel =>
        unfold addStack
        rw [h0, if_neg (by omega), if_neg (by omega), List.getElem?_eq_none (by simp; omega)]
    simp [hm, hdf, hi, show l.context ≠ 0 by omega]

/-- **C97, violated**: a subprogram in a file that does not exist is only reported, but then the next subprogram fails a `CHECK`. -/
theorem bad_subprogram_violated (vaddr : Nat) (sm : Option (OMap Nat Nat)) (logs : List Log) (t : Tab) (m : AMap) (hb : m.bias = m.subs.length)
    (n1 n2 : Name) (f1 f2 l1 l2 : Nat) (h1 : fileAt t f1 = none) (h2 : (fileAt t f2).isSome = true) :
    handle vaddr sm logs (t, m) (.subprog n1 1 f1 l1) = some (t, m) ∧ handle vaddr sm logs (t, m) (.subprog n2 2 f2 l2) = none := by
  obtain ⟨⟨d, f⟩, hdf⟩ := Option.isSome_iff_exists.1 h2
  simp [handle, h1, hdf, hb]

/-- Two units: a two-level table with a function inlined into another one, and a normal table. -/
def exUnits : List LUnit :=
  [⟨[[100]], [(0, [97]), (1, [98])], [([102], 1, 3), ([103], 2, 9)],
     .twoLevel [⟨1, 4, 0, 0, 1⟩, ⟨2, 10, 2, 1, 2⟩] [(0x10, 1, false), (0x14, 2, false), (0x18, 1, false), (0x20, 1, true)]⟩,
   ⟨[], [(0, [99])], [], .normal [(0x30, 1, 7, 0, false), (0x38, 1, 8, 0, true)]⟩,
   ⟨[], [(0, [101])], [([104], 1, 1)], .twoLevel [⟨1, 5, 0, 0, 1⟩] [(0x40, 1, false), (0x44, 1, true)]⟩]

theorem ex_ok : ∀ u ∈ exUnits, u.Ok := by
  intro u hu
  simp only [exUnits, List.mem_cons, List.not_mem_nil, or_false] at hu
  rcases hu with rfl | rfl | rfl
  · refine ⟨by simp, by simp, by simp, ?_, ?_⟩
    · intro i l hl
      simp only [LUnit.logs] at hl
      match i, hl with
      | 0, hl => simp at hl; subst hl; simp
      | 1, hl => simp at hl; subst hl; simp
    · intro logs acts h
      simp only [Body.twoLevel.injEq] at h
      obtain ⟨rfl, rfl⟩ := h
      simp
  · refine ⟨by simp, by simp, ?_, ?_, by simp⟩
    · intro rows h
      simp only [Body.normal.injEq] at h
      subst h
      simp
    · intro i l hl
      simp [LUnit.logs] at hl
  · refine ⟨by simp, by simp, by simp, ?_, ?_⟩
    · intro i l hl
      simp only [LUnit.logs] at hl
      match i, hl with
      | 0, hl => simp at hl; subst hl; simp
    · intro logs acts h
      simp only [Body.twoLevel.injEq] at h
      obtain ⟨rfl, rfl⟩ := h
      simp

theorem ex_lookup : (handleAll 0x10 none (exUnits.map LUnit.calls)).bind (fun m => m.lookup 0x15) =
      some (some [⟨[100], [98], 10, 2, some ⟨[103], [100], [98], 9⟩⟩, ⟨[], [97], 4, 0, some ⟨[102], [], [97], 3⟩⟩]) ∧
    (handleAll 0x10 none (exUnits.map LUnit.calls)).bind (fun m => m.lookup 0x21) = some none ∧
    (handleAll 0x10 none (exUnits.map LUnit.calls)).bind (fun m => m.lookup 0x31) = some (some [⟨[], [99], 7, 0, none⟩]) ∧
    (handleAll 0x10 none (exUnits.map LUnit.calls)).bind (fun m => m.lookup 0x41) =
      some (some [⟨[], [101], 5, 0, some ⟨[104], [], [101], 1⟩⟩]) := by decide +kernel

end Verif.TwoLevel

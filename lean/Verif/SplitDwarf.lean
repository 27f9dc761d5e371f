import Mathlib.Data.List.Basic
import Verif.Dwp

/-!
Where split debug information is read from: for each unit of a binary whose code is described elsewhere, the package
(`.dwp`), the unit's own file (`.dwo`), or nothing; and the range lists in force while a unit is read
(util/symbolize/dwarf2reader.cc 590-599, 967-1076).
-/

namespace Verif.SplitDwarf
open Verif.Dwp (Res Sect Contrib)

/-- What is used of an ELF file.  `package id` is the result of looking the unit up in the file taken as a package (C81;
`none`: undefined behaviour); `rowId id` the identifier in the unit found so; `info` and `rnglists` tell whether there are
sections `.debug_info.dwo` and `.debug_rnglists.dwo`; `unitId` is the identifier in the first unit of `.debug_info.dwo`. -/
structure Elf where
  package : Nat → Option Res
  rowId : Nat → Nat
  info : Bool
  rnglists : Bool
  unitId : Nat

/-- A file: `GetElfWidth` (958-965) tells an ELF file from others. -/
inductive File
  | other
  | elf (f : Elf)

/-- The file system: `none` where `stat` fails. -/
abbrev Disk := List Nat → Option File

/-- A unit of the binary as read: the name in `DW_AT_dwo_name` (`dwo_name_`), the identifier (`header_.dwo_id`), and whether it
contains subprograms itself (`subprogram_added_by_cu_`, addr2line_inlinestack.cc 116-121).  `compDir` is its `DW_AT_comp_dir`;
the code does not use it here. -/
structure Skel where
  dwo : Option (List Nat)
  id : Nat
  own : Bool
  compDir : List Nat := []

/-- Where a split unit comes from. -/
inductive Src
  | package
  | dwo (name : List Nat)
deriving DecidableEq, Repr

/-- Whose range lists `address_ranges_` are: those of the binary (legacy_addr2line.cc 125-134) or those of a `.dwo` file. -/
inductive Rng
  | main
  | dwo (name : List Nat)
deriving DecidableEq, Repr

/-- A unit is read: one of the binary, or the split unit of the last one; `accepted` is whether its identifier is the
expected one (885-893), otherwise it contributes nothing.  `ranges`: the range lists in force. -/
inductive Ev
  | main (ranges : Rng)
  | split (src : Src) (accepted : Bool) (ranges : Rng)
deriving DecidableEq, Repr

/-- ".dwp" -/
def suffix : List Nat := [46, 100, 119, 112]

/-- The sections that were put in the `SectionMap` (`some [...]`), besides `.debug_str`; `none`: it is empty (995). -/
def sections : Res → Option (List (Sect × Contrib))
  | .missing => none
  | .corrupt [] => none
  | .corrupt m => some m
  | .found m => some m

/-- The package of the binary (970-987). It is opened again for each unit, `have_checked_for_dwp_` being a member of the unit. -/
def openPackage (d : Disk) (binary : List Nat) : Option Elf :=
  match d (binary ++ suffix) with
  | some (.elf f) => some f
  | _ => none

/-- The second half of `ProcessSplitDwarf` (1006-1053): the `.dwo` file. The name is used as it is. `none`: `Start` fails its
check that there is a section `.debug_info` (496). The range lists set in 1037 stay in force after the file has been closed. -/
def processDwo (d : Disk) (u : Skel) (name : List Nat) (r : Rng) : Option (List Ev × Rng) :=
  match d name with
  | some (.elf f) =>
    let r' := if f.rnglists then .dwo name else r
    if f.info then some ([.split (.dwo name) (f.unitId == u.id) r'], r') else none
  | _ => some ([], r)

/-- `ProcessSplitDwarf`, 967-1055. -/
def processSplit (d : Disk) (binary : List Nat) (u : Skel) (name : List Nat) (r : Rng) : Option (List Ev × Rng) :=
  match openPackage d binary with
  | none => processDwo d u name r
  | some f =>
    (f.package u.id).bind fun res =>
      match sections res with
      | none => processDwo d u name r
      | some m =>
        if (m.lookup .info).isSome then some ([.split .package (f.rowId u.id == u.id) r], r) else none

/-- The end of `Start` (586-599) for a unit of the binary. -/
def unit (d : Disk) (binary : List Nat) (r : Rng) (u : Skel) : Option (List Ev × Rng) :=
  match u.dwo with
  | none => some ([.main r], r)
  | some name =>
    if u.own then some ([.main r], r)
    else (processSplit d binary u name r).map fun p => (.main r :: p.1, p.2)

/-- The loop over `.debug_info` (legacy_addr2line.cc 140-160), one list of events for each unit. -/
def units (d : Disk) (binary : List Nat) : Rng → List Skel → Option (List (List Ev))
  | _, [] => some []
  | r, u :: us => (unit d binary r u).bind fun p => (units d binary p.2 us).map (p.1 :: ·)

def run (d : Disk) (binary : List Nat) (us : List Skel) : Option (List (List Ev)) := units d binary .main us

/-! ## Specification -/

/-- The package has something for the unit: it exists, is an ELF file and its index leads to sections. -/
def InPackage (d : Disk) (binary : List Nat) (id : Nat) : Prop :=
  ∃ f res, d (binary ++ suffix) = some (.elf f) ∧ f.package id = some res ∧
    (∃ m, res = .found m ∨ (res = .corrupt m ∧ m ≠ []))

/-- There is an ELF file of that name. -/
def IsElf (d : Disk) (name : List Nat) : Prop := ∃ f, d name = some (.elf f)

/-- Where the split unit of `u` has to come from. -/
inductive Chosen (d : Disk) (binary : List Nat) (u : Skel) : Option Src → Prop
  | whole : u.dwo = none → Chosen d binary u none
  | own : u.own = true → Chosen d binary u none
  | package {n} : u.dwo = some n → u.own = false → InPackage d binary u.id → Chosen d binary u (some .package)
  | dwo {n} : u.dwo = some n → u.own = false → ¬ InPackage d binary u.id → IsElf d n → Chosen d binary u (some (.dwo n))
  | absent {n} : u.dwo = some n → u.own = false → ¬ InPackage d binary u.id → ¬ IsElf d n → Chosen d binary u none

/-- The split unit read during the reading of one unit. -/
def Ev.src : Ev → Option Src
  | .main _ => none
  | .split s _ _ => some s

def Ev.ranges : Ev → Rng
  | .main r => r
  | .split _ _ r => r

/-- The `.dwo` files read so far that bring range lists of their own, the last one first. -/
def bringing (d : Disk) : List Ev → List (List Nat)
  | [] => []
  | e :: es => bringing d es ++ (match e.src with
    | some (.dwo n) => match d n with
      | some (.elf f) => if f.rnglists then [n] else []
      | _ => []
    | _ => [])

/-- The range lists of the last of the files, or the binary's. -/
def lastOf (r : Rng) : List (List Nat) → Rng
  | [] => r
  | n :: _ => .dwo n

/-- The range lists that belong to what is read: a `.dwo` file's own if it has any, the binary's otherwise. -/
def Ev.Own (d : Disk) (e : Ev) : Prop :=
  e.ranges = (match e.src with
    | some (.dwo n) => match d n with
      | some (.elf f) => if f.rnglists then .dwo n else .main
      | _ => .main
    | _ => .main)

/-! ## Proofs -/

theorem sections_iff (res : Res) : (∃ m, res = .found m ∨ (res = .corrupt m ∧ m ≠ [])) ↔ (sections res).isSome = true := by
  cases res with
  | missing => simp [sections]
  | found m => simp [sections]
  | corrupt m => cases m <;> simp [sections]

theorem inPackage_iff (d : Disk) (binary : List Nat) (id : Nat) :
    InPackage d binary id ↔ ∃ f res, openPackage d binary = some f ∧ f.package id = some res ∧ (sections res).isSome = true := by
  unfold InPackage openPackage
  constructor
  · rintro ⟨f, res, h1, h2, h3⟩
    exact ⟨f, res, by rw [h1], h2, (sections_iff res).1 h3⟩
  · rintro ⟨f, res, h1, h2, h3⟩
    refine ⟨f, res, ?_, h2, (sections_iff res).2 h3⟩
    split at h1
    · rename_i g hg; rw [hg]; cases h1; rfl
    · exact absurd h1 (by simp)

theorem processDwo_spec {d : Disk} {u : Skel} {name : List Nat} {r : Rng} {p : List Ev × Rng} (h : processDwo d u name r = some p) :
    (IsElf d name ∧ ∃ f, d name = some (.elf f) ∧ f.info = true ∧
      p = ([.split (.dwo name) (f.unitId == u.id) (if f.rnglists then .dwo name else r)], if f.rnglists then .dwo name else r)) ∨
    (¬ IsElf d name ∧ p = ([], r)) := by
  unfold processDwo at h
  split at h
  · rename_i f hf
    left
    by_cases hi : f.info = true
    · rw [if_pos hi, Option.some.injEq] at h
      exact ⟨⟨f, hf⟩, f, hf, hi, h.symm⟩
    · rw [if_neg hi] at h; exact absurd h (by simp)
  · rename_i hn
    right
    rw [Option.some.injEq] at h
    exact ⟨fun ⟨f, hf⟩ => hn f hf, h.symm⟩

/-- Everything about one unit. -/
theorem unit_spec {d : Disk} {binary : List Nat} {r : Rng} {u : Skel} {p : List Ev × Rng} (h : unit d binary r u = some p) :
    ∃ c, Chosen d binary u c ∧
      ((c = none ∧ p = ([.main r], r)) ∨
       (∃ f, c = some .package ∧ openPackage d binary = some f ∧ p = ([.main r, .split .package (f.rowId u.id == u.id) r], r)) ∨
       (∃ n f, c = some (.dwo n) ∧ d n = some (.elf f) ∧
          p = ([.main r, .split (.dwo n) (f.unitId == u.id) (if f.rnglists then .dwo n else r)],
            if f.rnglists then .dwo n else r))) := by
  unfold unit at h
  split at h
  · rename_i hd
    rw [Option.some.injEq] at h
    exact ⟨none, .whole hd, Or.inl ⟨rfl, h.symm⟩⟩
  · rename_i name hd
    by_cases ho : u.own = true
    · rw [if_pos ho, Option.some.injEq] at h
      exact ⟨none, .own ho, Or.inl ⟨rfl, h.symm⟩⟩
    · rw [if_neg ho, Option.map_eq_some_iff] at h
      obtain ⟨q, hq, rfl⟩ := h
      have ho' : u.own = false := by simpa using ho
      have key : ¬ InPackage d binary u.id → processDwo d u name r = some q → ∃ c, Chosen d binary u c ∧
          ((c = none ∧ ((Ev.main r :: q.1, q.2) : List Ev × Rng) = ([.main r], r)) ∨
           (∃ f, c = some .package ∧ openPackage d binary = some f ∧
              ((Ev.main r :: q.1, q.2) : List Ev × Rng) = ([.main r, .split .package (f.rowId u.id == u.id) r], r)) ∨
           (∃ n f, c = some (.dwo n) ∧ d n = some (.elf f) ∧ ((Ev.main r :: q.1, q.2) : List Ev × Rng) =
              ([.main r, .split (.dwo n) (f.unitId == u.id) (if f.rnglists then .dwo n else r)],
                if f.rnglists then .dwo n else r))) := by
        intro hp hq
        rcases processDwo_spec hq with ⟨he, f, hf, -, rfl⟩ | ⟨he, rfl⟩
        · exact ⟨_, .dwo hd ho' hp he, Or.inr (Or.inr ⟨name, f, rfl, hf, rfl⟩)⟩
        · exact ⟨_, .absent hd ho' hp he, Or.inl ⟨rfl, rfl⟩⟩
      unfold processSplit at hq
      split at hq
      · rename_i hn
        refine key ?_ hq
        rw [inPackage_iff]; rintro ⟨f, res, h1, -⟩; rw [hn] at h1; simp at h1
      · rename_i f hf
        rw [Option.bind_eq_some_iff] at hq
        obtain ⟨res, hres, hq⟩ := hq
        split at hq
        · rename_i hn
          refine key ?_ hq
          rw [inPackage_iff]; rintro ⟨g, res', h1, h2, h3⟩
          rw [hf, Option.some.injEq] at h1; subst h1
          rw [hres, Option.some.injEq] at h2; subst h2
          rw [hn] at h3; simp at h3
        · rename_i m hm
          split at hq
          · rw [Option.some.injEq] at hq; subst hq
            exact ⟨_, .package hd ho' ((inPackage_iff ..).2 ⟨f, res, hf, hres, by rw [hm]; rfl⟩), Or.inr (Or.inl ⟨f, rfl, hf, rfl⟩)⟩
          · exact absurd hq (by simp)

theorem units_len {d : Disk} {binary : List Nat} : ∀ {us : List Skel} {r : Rng} {evs : List (List Ev)},
    units d binary r us = some evs → evs.length = us.length
  | [], _, evs, h => by simp only [units, Option.some.injEq] at h; subst h; rfl
  | u :: us, r, evs, h => by
    simp only [units, Option.bind_eq_some_iff, Option.map_eq_some_iff] at h
    obtain ⟨p, -, es, hes, rfl⟩ := h
    simp [units_len hes]

/-- **C105, the source.** For every disk and every binary whose units can be read: for each unit, in turn, the unit of the
binary is read, and then at most one split unit: the package's if the unit names a split file, describes no code itself and the
package leads to sections for its identifier; otherwise the `.dwo` file's if that is an ELF file; otherwise none. -/
theorem split_source (d : Disk) (binary : List Nat) (us : List Skel) (evs : List (List Ev)) (h : run d binary us = some evs) :
    evs.length = us.length ∧ ∀ i (hi : i < us.length) (he : i < evs.length),
      ∃ c rest r', Chosen d binary us[i] c ∧ evs[i] = .main r' :: rest ∧ rest.filterMap Ev.src = c.toList ∧
        rest.length = c.toList.length := by
  refine ⟨units_len h, fun i hi he => ?_⟩
  have : ∀ {us : List Skel} {r : Rng} {evs : List (List Ev)}, units d binary r us = some evs →
      ∀ i (hi : i < us.length) (he : i < evs.length), ∃ c rest r', Chosen d binary us[i] c ∧ evs[i] = .main r' :: rest ∧
        rest.filterMap Ev.src = c.toList ∧ rest.length = c.toList.length := by
    intro us
    induction us with
    | nil => intro r evs _ i hi; simp at hi
    | cons u us ih =>
      intro r evs h i hi he
      simp only [units, Option.bind_eq_some_iff, Option.map_eq_some_iff] at h
      obtain ⟨p, hp, es, hes, rfl⟩ := h
      cases i with
      | zero =>
        obtain ⟨c, hc, h | ⟨f, rfl, -, h⟩ | ⟨n, f, rfl, -, h⟩⟩ := unit_spec hp
        · obtain ⟨rfl, rfl⟩ := h; exact ⟨none, [], r, hc, rfl, rfl, rfl⟩
        · subst h; exact ⟨_, _, r, hc, rfl, rfl, rfl⟩
        · subst h; exact ⟨_, _, r, hc, rfl, rfl, rfl⟩
      | succ i =>
        simp only [List.length_cons, Nat.add_lt_add_iff_right] at hi he
        exact ih hes i hi he
  exact this h i hi he

/-- The choice is unique. -/
theorem chosen_unique {d : Disk} {binary : List Nat} {u : Skel} {a b : Option Src} (ha : Chosen d binary u a)
    (hb : Chosen d binary u b) : a = b := by
  cases ha <;> cases hb <;> simp_all

/-- **C105, acceptance.** A split unit that is read contributes exactly if its identifier is the one the unit of the binary
expects. -/
theorem split_accepted (d : Disk) (binary : List Nat) (us : List Skel) (evs : List (List Ev)) (h : run d binary us = some evs)
    (i : Nat) (hi : i < us.length) (he : i < evs.length) (s : Src) (acc : Bool) (r : Rng) (hm : Ev.split s acc r ∈ evs[i]) :
    ∃ f, (acc = true ↔ (match s with | .package => f.rowId us[i].id | .dwo _ => f.unitId) = us[i].id) ∧
      d (match s with | .package => binary ++ suffix | .dwo n => n) = some (.elf f) := by
  have : ∀ {us : List Skel} {r0 : Rng} {evs : List (List Ev)}, units d binary r0 us = some evs →
      ∀ i (hi : i < us.length) (he : i < evs.length), Ev.split s acc r ∈ evs[i] →
      ∃ f, (acc = true ↔ (match s with | .package => f.rowId us[i].id | .dwo _ => f.unitId) = us[i].id) ∧
        d (match s with | .package => binary ++ suffix | .dwo n => n) = some (.elf f) := by
    intro us
    induction us with
    | nil => intro r evs _ i hi; simp at hi
    | cons u us ih =>
      intro r0 evs h i hi he hm
      simp only [units, Option.bind_eq_some_iff, Option.map_eq_some_iff] at h
      obtain ⟨p, hp, es, hes, rfl⟩ := h
      cases i with
      | zero =>
        obtain ⟨c, hc, h | ⟨f, rfl, hf, h⟩ | ⟨n, f, rfl, hf, h⟩⟩ := unit_spec hp
        · obtain ⟨rfl, rfl⟩ := h; simp at hm
        · subst h; simp at hm
          obtain ⟨rfl, rfl, rfl⟩ := hm
          refine ⟨f, by simp, ?_⟩
          unfold openPackage at hf
          split at hf
          · rename_i g hg; rw [Option.some.injEq] at hf; subst hf; exact hg
          · exact absurd hf (by simp)
        · subst h; simp at hm
          obtain ⟨rfl, rfl, rfl⟩ := hm
          exact ⟨f, by simp, hf⟩
      | succ i =>
        simp only [List.length_cons, Nat.add_lt_add_iff_right] at hi he
        exact ih hes i hi he hm
  exact this h i hi he hm

theorem bringing_append (d : Disk) (a b : List Ev) : bringing d (a ++ b) = bringing d b ++ bringing d a := by
  induction a with
  | nil => simp [bringing]
  | cons e es ih => simp only [List.cons_append, bringing, ih, List.append_assoc]

theorem lastOf_append (r : Rng) (a b : List (List Nat)) : lastOf (lastOf r b) a = lastOf r (a ++ b) := by
  cases a <;> rfl

/-- One unit: the range lists in force at each event, and afterwards. -/
theorem unit_ranges {d : Disk} {binary : List Nat} {r : Rng} {u : Skel} {p : List Ev × Rng} (h : unit d binary r u = some p) :
    p.2 = lastOf r (bringing d p.1) ∧ ∀ pre e post, p.1 = pre ++ e :: post → e.ranges = lastOf r (bringing d (pre ++ [e])) := by
  obtain ⟨c, hc, h | ⟨f, rfl, -, h⟩ | ⟨n, f, rfl, hf, h⟩⟩ := unit_spec h
  · obtain ⟨rfl, rfl⟩ := h
    refine ⟨rfl, fun pre e post he => ?_⟩
    cases pre with
    | nil => simp at he; rw [← he.1]; rfl
    | cons a pre => simp at he
  · subst h
    refine ⟨rfl, fun pre e post he => ?_⟩
    match pre with
    | [] => simp at he; rw [← he.1]; rfl
    | [a] => simp at he; rw [← he.1, ← he.2.1]; rfl
    | a :: b :: pre => simp at he
  · subst h
    have hb : bringing d [Ev.main r, .split (.dwo n) (f.unitId == u.id) (if f.rnglists then .dwo n else r)] =
        if f.rnglists then [n] else [] := by
      simp [bringing, Ev.src, hf]
    refine ⟨by rw [hb]; by_cases hr : f.rnglists = true <;> simp [hr, lastOf], fun pre e post he => ?_⟩
    match pre with
    | [] => simp at he; rw [← he.1]; rfl
    | [a] =>
      simp at he; obtain ⟨rfl, rfl, rfl⟩ := he
      simp only [List.singleton_append]
      rw [hb]; by_cases hr : f.rnglists = true <;> simp [hr, lastOf, Ev.ranges]
    | a :: b :: pre => simp at he

theorem units_ranges {d : Disk} {binary : List Nat} : ∀ {us : List Skel} {r : Rng} {evs : List (List Ev)},
    units d binary r us = some evs → ∀ pre e post, evs.flatten = pre ++ e :: post → e.ranges = lastOf r (bringing d (pre ++ [e]))
  | [], r, evs, h, pre, e, post, he => by
    simp only [units, Option.some.injEq] at h; subst h; simp at he
  | u :: us, r, evs, h, pre, e, post, he => by
    simp only [units, Option.bind_eq_some_iff, Option.map_eq_some_iff] at h
    obtain ⟨p, hp, es, hes, rfl⟩ := h
    obtain ⟨h1, h2⟩ := unit_ranges hp
    rw [List.flatten_cons, List.append_eq_append_iff] at he
    rcases he with ⟨mid, rfl, hm⟩ | ⟨mid, hm, hm'⟩
    · have := units_ranges hes mid e post hm
      rw [this, h1, lastOf_append, List.append_assoc, bringing_append d p.1]
    · cases mid with
      | nil =>
        simp only [List.nil_append] at hm'
        have := units_ranges hes [] e post (by simpa using hm'.symm)
        rw [this, h1, lastOf_append, hm, List.append_nil, List.nil_append, bringing_append d pre]
      | cons x mid =>
        simp only [List.cons_append, List.cons.injEq] at hm'
        obtain ⟨rfl, -⟩ := hm'
        exact h2 pre e mid hm

/-- **C105, range lists as they are.** Whatever the units, the range lists in force while a unit is read are those of the last
`.dwo` file read so far, this one included, that has range lists, and the binary's only if there was none. -/
theorem ranges_in_force (d : Disk) (binary : List Nat) (us : List Skel) (evs : List (List Ev)) (h : run d binary us = some evs)
    (pre : List Ev) (e : Ev) (post : List Ev) (he : evs.flatten = pre ++ e :: post) :
    e.ranges = lastOf .main (bringing d (pre ++ [e])) := units_ranges h pre e post he

/-- **C105, range lists (partial).** If no `.dwo` file that has range lists is read before it, everything is read with the
range lists that belong to it. Missing: anything read after such a file, which `own_ranges_violated` shows to be wrong. -/
theorem own_ranges_partial (d : Disk) (binary : List Nat) (us : List Skel) (evs : List (List Ev)) (h : run d binary us = some evs)
    (pre : List Ev) (e : Ev) (post : List Ev) (he : evs.flatten = pre ++ e :: post) (hp : bringing d pre = []) : e.Own d := by
  unfold Ev.Own
  rw [ranges_in_force d binary us evs h pre e post he, bringing_append, hp, List.append_nil]
  simp only [bringing, List.nil_append]
  cases hs : e.src with
  | none => rfl
  | some s =>
    cases s with
    | package => rfl
    | dwo n =>
      cases hd : d n with
      | none => simp [hd, lastOf]
      | some f =>
        cases f with
        | other => simp [hd, lastOf]
        | elf f => by_cases hr : f.rnglists = true <;> simp [hd, hr, lastOf]

theorem unit_total (d : Disk) (binary : List Nat) (r : Rng) (u : Skel)
    (hp : ∀ f, d (binary ++ suffix) = some (.elf f) → ∃ res, f.package u.id = some res ∧
      ∀ m, res = .found m ∨ (res = .corrupt m ∧ m ≠ []) → (m.lookup .info).isSome = true)
    (hd : ∀ n f, u.dwo = some n → d n = some (.elf f) → f.info = true) : ∃ p, unit d binary r u = some p := by
  unfold unit
  cases hn : u.dwo with
  | none => exact ⟨_, rfl⟩
  | some n =>
    by_cases ho : u.own = true
    · exact ⟨([.main r], r), by simp [ho]⟩
    · have key : ∃ q, processDwo d u n r = some q := by
        unfold processDwo
        split
        · rename_i f hf
          exact ⟨_, by rw [if_pos (hd n f hn hf)]⟩
        · exact ⟨_, rfl⟩
      have : ∃ q, processSplit d binary u n r = some q := by
        unfold processSplit
        split
        · exact key
        · rename_i f hf
          have hf' : d (binary ++ suffix) = some (.elf f) := by
            unfold openPackage at hf
            split at hf
            · rename_i g hg; rw [Option.some.injEq] at hf; subst hf; exact hg
            · exact absurd hf (by simp)
          obtain ⟨res, h1, h2⟩ := hp f hf'
          rw [h1, Option.bind_some]
          cases res with
          | missing => exact key
          | found m => exact ⟨_, if_pos (h2 m (Or.inl rfl))⟩
          | corrupt m =>
            cases m with
            | nil => exact key
            | cons a m => exact ⟨_, if_pos (h2 _ (Or.inr ⟨rfl, by simp⟩))⟩
      obtain ⟨q, hq⟩ := this
      exact ⟨(.main r :: q.1, q.2), by simp [ho, hq]⟩

/-- **C105, success.** If the package's index can be searched and every split file that exists has debug information, reading
the units does not fail. -/
theorem run_total (d : Disk) (binary : List Nat) (us : List Skel)
    (hp : ∀ u ∈ us, ∀ f, d (binary ++ suffix) = some (.elf f) → ∃ res, f.package u.id = some res ∧
      ∀ m, res = .found m ∨ (res = .corrupt m ∧ m ≠ []) → (m.lookup .info).isSome = true)
    (hd : ∀ u ∈ us, ∀ n f, u.dwo = some n → d n = some (.elf f) → f.info = true) : ∃ evs, run d binary us = some evs := by
  unfold run
  generalize Rng.main = r
  induction us generalizing r with
  | nil => exact ⟨_, rfl⟩
  | cons u us ih =>
    obtain ⟨p, h1⟩ := unit_total d binary r u (hp u (by simp)) (hd u (by simp))
    obtain ⟨es, h2⟩ := ih (fun v hv => hp v (by simp [hv])) (fun v hv => hd v (by simp [hv])) p.2
    exact ⟨p.1 :: es, by simp only [units, h1, Option.bind_some, h2, Option.map_some]⟩

/-! ## Concrete cases -/

/-- A package with the unit 9. -/
def exPkg : Elf := ⟨fun id => some (if id = 9 then .found [(.info, .part 0 10)] else .missing), fun id => id, false, false, 0⟩

/-- The binary "b" with its package "b.dwp", and `.dwo` files "x" (unit 5, with range lists), "y" (unit 6, without) and "z", which
has no debug information. -/
def exDisk : Disk := fun n =>
  if n = [98] ++ suffix then some (.elf exPkg)
  else if n = [120] then some (.elf ⟨fun _ => none, fun _ => 0, true, true, 5⟩)
  else if n = [121] then some (.elf ⟨fun _ => none, fun _ => 0, true, false, 6⟩)
  else if n = [122] then some (.elf ⟨fun _ => none, fun _ => 0, false, false, 7⟩)
  else none

/-- A unit in the package, one in a file, one in a file with the wrong identifier, one whose file is missing, a whole one. -/
theorem ex_sources : run exDisk [98] [⟨some [121], 9, false, []⟩, ⟨some [121], 6, false, []⟩, ⟨some [121], 8, false, []⟩, ⟨some [119], 8, false, []⟩,
      ⟨none, 0, true, []⟩] =
    some [[.main .main, .split .package true .main], [.main .main, .split (.dwo [121]) true .main],
      [.main .main, .split (.dwo [121]) false .main], [.main .main], [.main .main]] := by decide +kernel

theorem ex_partial : run exDisk [98] [⟨some [120], 5, false, []⟩] = some [[.main .main, .split (.dwo [120]) true (.dwo [120])]] := by
  decide +kernel

/-- After the `.dwo` file "x", which has range lists, the units of the binary, of the file "y" and of the package are read with the
range lists of "x", whose bytes are no longer there. -/
theorem own_ranges_violated : ∃ us evs, run exDisk [98] us = some evs ∧
    ∃ e ∈ evs.flatten, e = .main (.dwo [120]) ∧ ¬ e.Own exDisk := by
  refine ⟨[⟨some [120], 5, false, []⟩, ⟨some [121], 6, false, []⟩], [[.main .main, .split (.dwo [120]) true (.dwo [120])],
    [.main (.dwo [120]), .split (.dwo [121]) true (.dwo [120])]], by decide +kernel, .main (.dwo [120]), by simp, rfl, ?_⟩
  unfold Ev.Own
  simp [Ev.src, Ev.ranges]

/-- A split file without debug information ends the program. -/
theorem no_info_fails : run exDisk [98] [⟨some [122], 7, false, []⟩] = none := by decide +kernel

/-- A relative name of a split file is to be taken relative to the compilation directory of the unit. -/
def resolve (u : Skel) (name : List Nat) : List Nat := if name.head? = some 47 then name else u.compDir ++ 47 :: name

/-- It is not: the file "/d/x" of a unit compiled in "/d" is not found. -/
theorem relative_violated : ∃ (d : Disk) (u : Skel) (f : Elf), u.dwo = some [120] ∧ u.own = false ∧
    d (resolve u [120]) = some (.elf f) ∧ f.info = true ∧ f.unitId = u.id ∧ run d [98] [u] = some [[.main .main]] :=
  ⟨fun n => if n = [47, 100, 47, 120] then some (.elf ⟨fun _ => none, fun _ => 0, true, true, 5⟩) else none,
    ⟨some [120], 5, false, [47, 100]⟩, ⟨fun _ => none, fun _ => 0, true, true, 5⟩, rfl, rfl, by simp [resolve], rfl, rfl, by decide +kernel⟩

end Verif.SplitDwarf

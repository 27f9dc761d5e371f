import Verif.PerfMMap
import Mathlib.Data.List.Dedup

/-! # C49: which mappings belong to the profiled binary (perfdata_reader.cc:34-155) -/
namespace Verif.MMapSelector
open Verif

/-- `'/'` -/
def slash : UInt8 := 47

def strBytes (s : String) : Name := s.toUTF8.toList

def kallsyms : Name := strBytes "[kernel.kallsyms]"
def kallsymsText : Name := strBytes "[kernel.kallsyms]_text"
def kallsymsStext : Name := strBytes "[kernel.kallsyms]_stext"

/-- `llvm::sys::path::is_absolute` (POSIX). -/
def isAbsolute (n : Name) : Bool := n.head? == some slash

/-- `llvm::sys::path::filename` (POSIX): the last path component. Simplified: `"//net"` root names are not
modelled; a trailing slash gives `"."`, a path of slashes only gives `"/"`. -/
def fileName (n : Name) : Name :=
  if n ≠ [] ∧ n.all (· == slash) then [slash]
  else if n.getLast? = some slash then [46]
  else (n.reverse.takeWhile (· != slash)).reverse

/-- `MMapSelector` (perfdata_reader.cc:53-87). -/
structure Selector where
  nameOnly : Bool
  names : List Name

/-- The constructor (perfdata_reader.cc:54-72). The argument lists the hash set in iteration order; `none`: the code
dereferences `begin()` of an empty set (callers never pass one). -/
def mk (nameSet : List Name) : Option Selector :=
  match nameSet with
  | [] => none
  | n :: rest =>
    if rest = [] ∧ n = kallsyms then some ⟨false, [kallsyms, kallsymsText, kallsymsStext]⟩
    else if isAbsolute n then some ⟨false, nameSet⟩
    else some ⟨true, nameSet.map fileName⟩

/-- `operator()` (perfdata_reader.cc:77-80). -/
def Selector.test (s : Selector) (fn : Name) : Bool := decide ((if s.nameOnly then fileName fn else fn) ∈ s.names)

/-- Hex digit (perfdata_reader.cc:38-41). -/
def hexDigit (d : Nat) : UInt8 := if d < 10 then UInt8.ofNat (48 + d) else UInt8.ofNat (87 + d)

/-- `BinaryDataToAscii` (perfdata_reader.cc:36-45). -/
def toHex (data : List UInt8) : Name := data.flatMap fun d => [hexDigit (d.toNat / 16), hexDigit (d.toNat % 16)]

/-- A build-id entry of the perf data. -/
structure BuildId where
  file : Option Name
  hash : Option (List UInt8)

def anonHugepage : Name := strBytes "/anon_hugepage"
def anon : Name := strBytes "[anon:"

/-- `GetBuildIdNames` (perfdata_reader.cc:89-131); the result set, `none` is the error. -/
def buildIdNames (ids : List BuildId) (buildId : Name) : Option (List Name) :=
  let l := ids.filterMap fun b =>
    match b.file, b.hash with
    | some f, some h =>
      if toHex h = buildId ∧ f ≠ [] ∧ ¬ anonHugepage <+: f ∧ ¬ anon <+: f then some f else none
    | _, _ => none
  if l = [] then none else some l.dedup

/-- Choice of the selector in `SelectMMaps` (perfdata_reader.cc:182-207). -/
def choose (matchNames : List Name) (ids : List BuildId) (binaryBuildId : Name) : Option Selector :=
  if matchNames = [] then
    if binaryBuildId = [] then none else (buildIdNames ids binaryBuildId).bind mk
  else mk matchNames.dedup

/-! ### Theorems -/

theorem hexDigit_inj : ∀ a < 16, ∀ b < 16, hexDigit a = hexDigit b → a = b := by decide +kernel

/-- **C49**: the printed build id determines the bytes. -/
theorem toHex_injective : ∀ a b : List UInt8, toHex a = toHex b → a = b := by
  intro a
  induction a with
  | nil =>
    intro b h
    cases b with
    | nil => rfl
    | cons y b => simp [toHex] at h
  | cons x a ih =>
    intro b h
    cases b with
    | nil => simp [toHex] at h
    | cons y b =>
      simp only [toHex, List.flatMap_cons, List.cons_append, List.nil_append, List.cons.injEq] at h
      obtain ⟨h1, h2, h3⟩ := h
      have hx := x.toNat_lt
      have hy := y.toNat_lt
      have e1 := hexDigit_inj _ (by omega) _ (by omega) h1
      have e2 := hexDigit_inj _ (by omega) _ (by omega) h2
      have : x = y := UInt8.toNat_inj.mp (by omega)
      rw [this, ih b h3]

theorem toHex_length (a : List UInt8) : (toHex a).length = 2 * a.length := by
  induction a with
  | nil => rfl
  | cons x a ih => simp only [toHex, List.flatMap_cons, List.length_append] at *; rw [ih]; simp; omega

/-- **C49**: the files selected by build id are exactly the named, non-anonymous files recorded with the build id's
bytes. -/
theorem buildIdNames_spec (ids : List BuildId) (bytes : List UInt8) (names : List Name)
    (h : buildIdNames ids (toHex bytes) = some names) (f : Name) :
    f ∈ names ↔ f ≠ [] ∧ ¬ anonHugepage <+: f ∧ ¬ anon <+: f ∧ (⟨some f, some bytes⟩ : BuildId) ∈ ids := by
  unfold buildIdNames at h
  simp only at h
  split at h
  · cases h
  · cases h
    rw [List.mem_dedup, List.mem_filterMap]
    constructor
    · rintro ⟨⟨fo, ho⟩, hm, hb⟩
      cases fo with
      | none => simp at hb
      | some f' =>
        cases ho with
        | none => simp at hb
        | some h' =>
          simp only at hb
          split at hb
          · rename_i hc
            cases hb
            rw [toHex_injective _ _ hc.1] at hm
            exact ⟨hc.2.1, hc.2.2.1, hc.2.2.2, hm⟩
          · cases hb
    · rintro ⟨h1, h2, h3, h4⟩
      exact ⟨_, h4, by simp only; rw [if_pos ⟨trivial, h1, h2, h3⟩]⟩

/-- It fails exactly when there is no such file. -/
theorem buildIdNames_none (ids : List BuildId) (bytes : List UInt8) :
    buildIdNames ids (toHex bytes) = none ↔
    ∀ f : Name, f ≠ [] → ¬ anonHugepage <+: f → ¬ anon <+: f → (⟨some f, some bytes⟩ : BuildId) ∉ ids := by
  constructor
  · intro h f h1 h2 h3 h4
    unfold buildIdNames at h
    simp only at h
    split at h
    · rename_i hl
      have : f ∈ ([] : List Name) := by
        rw [← hl]
        exact List.mem_filterMap.mpr ⟨_, h4, by simp only; rw [if_pos ⟨trivial, h1, h2, h3⟩]⟩
      simp at this
    · cases h
  · intro h
    cases hr : buildIdNames ids (toHex bytes) with
    | none => rfl
    | some names =>
      exfalso
      have hs := buildIdNames_spec ids bytes names hr
      cases names with
      | nil =>
        unfold buildIdNames at hr
        simp only at hr
        split at hr
        · cases hr
        · rename_i hl
          simp only [Option.some.injEq] at hr
          exact hl (List.eq_nil_of_subset_nil (hr ▸ List.subset_dedup _))
      | cons f l =>
        obtain ⟨h1, h2, h3, h4⟩ := (hs f).mp (by simp)
        exact h f h1 h2 h3 h4

/-- **C49**: a single name given by the user: absolute names select exactly that path, other names select every path
with the same last component, and the kernel name selects the three kernel mappings. -/
theorem choose_name (n : Name) (ids : List BuildId) (bid : Name) :
    ∃ s, choose [n] ids bid = some s ∧ ∀ fn, s.test fn = true ↔
      if n = kallsyms then fn = kallsyms ∨ fn = kallsymsText ∨ fn = kallsymsStext
      else if isAbsolute n then fn = n else fileName fn = fileName n := by
  have hd : ([n] : List Name).dedup = [n] := List.Nodup.dedup (by simp)
  unfold choose
  rw [if_neg (by simp), hd, mk]
  by_cases h1 : n = kallsyms
  · subst h1
    rw [if_pos ⟨rfl, rfl⟩]
    exact ⟨_, rfl, fun fn => by simp [Selector.test]⟩
  · rw [if_neg (by simp [h1])]
    by_cases h2 : isAbsolute n = true
    · rw [if_pos h2]
      exact ⟨_, rfl, fun fn => by simp [Selector.test, h1, h2]⟩
    · rw [if_neg h2]
      exact ⟨_, rfl, fun fn => by simp [Selector.test, h1, h2]⟩

/-- **C49**: without a name, when all recorded files of the build id have absolute paths, exactly those paths are
selected; without a build id or without any recorded file selection fails. -/
theorem choose_build_id (ids : List BuildId) (bytes : List UInt8) (hb : bytes ≠ [])
    (habs : ∀ f, (⟨some f, some bytes⟩ : BuildId) ∈ ids → f ≠ [] → ¬ anon <+: f → isAbsolute f = true) (fn : Name) :
    (∃ s, choose [] ids (toHex bytes) = some s ∧ s.test fn = true) ↔
      fn ≠ [] ∧ ¬ anonHugepage <+: fn ∧ ¬ anon <+: fn ∧ (⟨some fn, some bytes⟩ : BuildId) ∈ ids := by
  have hne : toHex bytes ≠ [] := by
    intro h
    have := toHex_length bytes
    rw [h] at this
    exact hb (List.length_eq_zero_iff.mp (by simpa using this.symm))
  unfold choose
  rw [if_pos rfl, if_neg hne]
  cases hr : buildIdNames ids (toHex bytes) with
  | none =>
    simp only [Option.bind_none, reduceCtorEq, false_and, exists_false, false_iff]
    rintro ⟨h1, h2, h3, h4⟩
    exact (buildIdNames_none ids bytes).mp hr fn h1 h2 h3 h4
  | some names =>
    rw [Option.bind_some, ← buildIdNames_spec ids bytes names hr]
    cases names with
    | nil => simp [mk]
    | cons n rest =>
      obtain ⟨g1, g2, g3, g4⟩ := (buildIdNames_spec ids bytes (n :: rest) hr n).mp (by simp)
      have ha := habs n g4 g1 g3
      have hk : n ≠ kallsyms := by
        intro h; rw [h] at ha; revert ha; decide +kernel
      rw [mk, if_neg (by simp [hk]), if_pos ha]
      constructor
      · rintro ⟨s, h1, h2⟩; cases h1; simpa [Selector.test] using h2
      · intro h; exact ⟨_, rfl, by simpa [Selector.test] using h⟩

/-- Concrete cases. -/
theorem choose_example :
    ((choose [strBytes "bin/app"] [] []).map fun s => s.test (strBytes "/usr/x/app")) = some true ∧
    ((choose [strBytes "/bin/app"] [] []).map fun s => s.test (strBytes "/usr/x/app")) = some false ∧
    ((choose [] [⟨some (strBytes "/a/b"), some [0x0a, 0xff]⟩, ⟨some (strBytes "[anon:x]"), some [0x0a, 0xff]⟩] (strBytes "0aff")).map
      fun s => (s.test (strBytes "/a/b"), s.test (strBytes "[anon:x]"))) = some (true, false) := by
  refine ⟨?_, ?_, ?_⟩ <;> decide +kernel

/-- When the files of a build id mix absolute and relative names, the selection depends on the iteration order of the
hash set. -/
theorem mk_order_violated :
    ((mk [strBytes "/a/x", strBytes "b"]).map fun s => s.test (strBytes "/q/b")) = some false ∧
    ((mk [strBytes "b", strBytes "/a/x"]).map fun s => s.test (strBytes "/q/b")) = some true := by
  constructor <;> decide +kernel

end Verif.MMapSelector

import Verif.ElfEx

/-! # C66, C67: stripped files, the flag about discriminators, addresses by name -/
namespace Verif.Elf
open Verif Verif.ByteReader
open Verif.DwarfLine (cstr encodeFixed_len cstr_spec)
open Verif.DwarfInfo (StrIn)
open Verif.AddrLookup (AddrMap Seg W)

/-- `IsNonStrippedELFBinaryImpl` (elf_reader.cc:959-968); `GetSectionByType` (349-357), where `GetSection` never returns null. -/
def nonStrippedImpl (path : List Nat) (bs : List Nat) (debugOnly : Bool) (cls w : Nat) : Option Bool :=
  if isArch cls bs then
    (parse w bs (hasSuffix path (str ".dwp"))).bind fun r =>
    if debugOnly then r.hasDebug
    else (r.indexByType 2 (List.range (numSecs r.eh r.first))).bind fun
      | none => some false
      | some k => (r.section k).map fun _ => true
  else some false

/-- `IsNonStrippedELFBinary` (`debugOnly` false) and `IsNonDebugStrippedELFBinary` (true), elf_reader.cc:971-993.  Here the file is
opened with any path. -/
def isNonStripped (path : List Nat) (disk : Option (List Nat)) (debugOnly : Bool) : Option Bool :=
  match disk with
  | none => some false
  | some bs => (nonStrippedImpl path bs debugOnly 1 4).bind fun b => if b then some true else nonStrippedImpl path bs debugOnly 2 8

variable {bs : List Nat} {w : Nat} {eh : Ehdr} {secs : List (Shdr × List Nat)} {segs : List Phdr} {k : Nat} {names : List Nat}

theorem nonStripped_eq (h : IsElf bs w eh secs segs k names) (path : List Nat) (d : Bool) :
    isNonStripped path (some bs) d = (parse w bs (hasSuffix path (str ".dwp"))).bind fun r =>
    if d then r.hasDebug
    else (r.indexByType 2 (List.range (numSecs r.eh r.first))).bind fun
      | none => some false
      | some k => (r.section k).map fun _ => true := by
  have hw := h.width_eq
  unfold width at hw
  have key : ∀ X : Option Bool, (X.bind fun b => if b then some true else some false) = X := by
    intro X
    rcases X with _ | _ | _ <;> rfl
  unfold isNonStripped nonStrippedImpl
  simp only
  by_cases h1 : isArch 1 bs = true
  · have h2 : isArch 2 bs = false := by
      unfold isArch at h1 ⊢
      simp only [Bool.and_eq_true, beq_iff_eq] at h1
      rw [h1.1.2]
      simp
    rw [if_pos h1] at hw
    cases hw
    rw [if_pos h1, h2]
    simp only [Bool.false_eq_true, if_false]
    exact key _
  · rw [if_neg h1] at hw
    by_cases h2 : isArch 2 bs = true
    · rw [if_pos h2] at hw
      cases hw
      rw [if_neg h1, if_pos h2]
      rfl
    · rw [if_neg h2] at hw
      cases hw

theorem hasDebug_go {dwp : Bool} {first : Shdr} (h : IsElf bs w eh secs segs k names) (hn : numSecs eh first = secs.length)
    (hs : strIdx eh first = k) (ks : List Nat) (hks : ∀ i ∈ ks, i < secs.length) :
    ∃ b, Reader.hasDebug.go (Reader.good bs w dwp eh secs segs first) ks = some b ∧
      (b = true ↔ ∃ i ∈ ks, ∃ s, secs[i]? = some s ∧ ∃ x, s.2 = str ".debug" ++ x) := by
  induction ks with
  | nil => exact ⟨false, rfl, by simp⟩
  | cons i ks ih =>
    obtain ⟨b, h1, h2⟩ := ih fun j hj => hks j (by simp [hj])
    obtain ⟨s, hi⟩ : ∃ s, secs[i]? = some s := ⟨_, List.getElem?_eq_getElem (hks i (by simp))⟩
    unfold Reader.hasDebug.go
    rw [shdr_good, hi, Option.map_some, Option.bind_some, h.nameAt_ok hn hs (h.names s (List.mem_of_getElem? hi)), Option.bind_some]
    by_cases hp : (str ".debug").isPrefixOf s.2 = true
    · rw [if_pos hp]
      refine ⟨true, rfl, ?_⟩
      rw [List.isPrefixOf_iff_prefix] at hp
      obtain ⟨x, hx⟩ := hp
      simp only [true_iff]
      exact ⟨i, by simp, s, hi, x, hx.symm⟩
    · rw [if_neg hp]
      refine ⟨b, h1, ?_⟩
      rw [h2]
      constructor
      · rintro ⟨j, hj, hh⟩
        exact ⟨j, by simp [hj], hh⟩
      · rintro ⟨j, hj, t, ht, x, hx⟩
        rcases List.mem_cons.1 hj with rfl | hj
        · rw [hi] at ht
          cases ht
          exact absurd (by rw [List.isPrefixOf_iff_prefix]; exact ⟨x, hx.symm⟩) hp
        · exact ⟨j, hj, t, ht, x, hx⟩

/-- **C66, debugging information there.** A file counts as having debugging information exactly if the name of one of its sections starts with
`.debug`. -/
theorem not_debug_stripped (h : IsElf bs w eh secs segs k names) (path : List Nat) :
    ∃ b, isNonStripped path (some bs) true = some b ∧ (b = true ↔ ∃ s ∈ secs, ∃ x, s.2 = str ".debug" ++ x) := by
  obtain ⟨first, h1, h2⟩ := h.parse_ok (hasSuffix path (str ".dwp"))
  obtain ⟨g1, _, g3⟩ := h2
  rw [nonStripped_eq h, h1, Option.bind_some, if_pos rfl]
  unfold Reader.hasDebug
  have hr : numSecs (Reader.good bs w (hasSuffix path (str ".dwp")) eh secs segs first).eh
    (Reader.good bs w (hasSuffix path (str ".dwp")) eh secs segs first).first = secs.length := g1
  rw [hr]
  obtain ⟨b, e1, e2⟩ := hasDebug_go (dwp := hasSuffix path (str ".dwp")) h g1 g3 (List.range secs.length).reverse (by simp)
  refine ⟨b, e1, ?_⟩
  rw [e2]
  constructor
  · rintro ⟨i, _, s, hs, hx⟩
    exact ⟨s, List.mem_of_getElem? hs, hx⟩
  · rintro ⟨s, hs, hx⟩
    obtain ⟨i, hi, rfl⟩ := List.mem_iff_getElem.1 hs
    exact ⟨i, by simpa using hi, _, List.getElem?_eq_getElem hi, hx⟩

/-- **C66, symbol table there.** A file counts as not stripped exactly if it has a symbol table (the first one with contents). -/
theorem not_stripped (h : IsElf bs w eh secs segs k names) (path : List Nat) :
    (∀ (i : Nat) (s : Shdr × List Nat) (c : List Nat), secs[i]? = some s → s.1.type = 2 → (∀ (j : Nat) (t : Shdr × List Nat), secs[j]? = some t → t.1.type = 2 → i ≤ j) → Contents bs s.1 c →
      isNonStripped path (some bs) false = some true) ∧
    ((∀ s ∈ secs, s.1.type ≠ 2) → isNonStripped path (some bs) false = some false) := by
  obtain ⟨first, h1, g1, _, g3⟩ := h.parse_ok (hasSuffix path (str ".dwp"))
  have hr : numSecs (Reader.good bs w (hasSuffix path (str ".dwp")) eh secs segs first).eh
    (Reader.good bs w (hasSuffix path (str ".dwp")) eh secs segs first).first = secs.length := g1
  rw [nonStripped_eq h, h1, Option.bind_some, if_neg (by simp), hr, indexByType_good _ _ (by simp)]
  refine ⟨?_, ?_⟩
  · intro i s c hi ht hmin hc
    rw [first_of_type hi ht hmin, Option.bind_some]
    simp only
    rw [h.section_ok g1 g3 hi hc]
    rfl
  · intro hno
    rw [List.find?_eq_none.2]
    · rfl
    · intro i _
      cases hs : secs[i]? with
      | none => simp
      | some t => simpa using hno t (List.mem_of_getElem? hs)

/-- **C66, stripped: other files.** A file that is no ELF file, or cannot be opened, counts as stripped. -/
theorem stripped_not_elf (path : List Nat) (disk : Option (List Nat)) (h : ∀ bs, disk = some bs → width bs = none) (d : Bool) :
    isNonStripped path disk d = some false := by
  unfold isNonStripped
  cases disk with
  | none => rfl
  | some bs =>
    have := h bs rfl
    unfold width at this
    unfold nonStrippedImpl
    by_cases h1 : isArch 1 bs = true
    · rw [if_pos h1] at this; cases this
    · rw [if_neg h1] at this
      by_cases h2 : isArch 2 bs = true
      · rw [if_pos h2] at this; cases this
      · simp [h1, h2]

/-- **C67, the flag about discriminators** (partial: `ShortOk`). The binary's profile has flow-sensitive discriminators exactly if one of its symbols has the
special name. -/
theorem fs_discriminator_partial (h : IsElf bs w eh secs segs k names) (path : List Nat) (ho : Opens path)
    (syms dyn : List (Sym × List Nat)) (tab dtab : List Nat) (hs : SymsOf bs w secs 2 syms tab) (hd : SymsOf bs w secs 11 dyn dtab)
    (hsh : ShortOk tab syms) (hsh' : ShortOk dtab dyn) :
    ∃ b, usesFsDiscriminator path (some bs) = some b ∧
      (b = true ↔ ∃ y ∈ syms ++ dyn, y.1.name ≠ 0 ∧ y.2 = str "__llvm_fs_discriminator__") := by
  classical
  have hvis := symbols_visited h path ho syms dyn tab dtab hs hd wanted (fun y => decide (Kept y))
    (fun y hy hz hst => wanted_ok tab y hz hst (hsh y hy hz)) (fun y hy hz hst => wanted_ok dtab y hz hst (hsh' y hy hz))
    none none false
  unfold usesFsDiscriminator
  rw [hvis]
  refine ⟨_, rfl, ?_⟩
  beta_reduce
  rw [List.any_map, List.any_filter, List.any_eq_true]
  constructor
  · rintro ⟨y, hy, hh⟩
    simp only [Bool.and_eq_true, decide_eq_true_eq, Function.comp_apply, beq_iff_eq] at hh
    exact ⟨y, hy, hh.1.1, hh.2⟩
  · rintro ⟨y, hy, hz, hn⟩
    refine ⟨y, hy, ?_⟩
    simp only [Bool.and_eq_true, decide_eq_true_eq, Function.comp_apply, beq_iff_eq, true_or, and_true]
    exact ⟨⟨hz, hz, .inl hn⟩, hn⟩

/-- **C67, addresses by name.** The address by name is the largest one of the functions with the name, and there is one exactly if
a function has the name. -/
theorem address_of_name (m : AddrMap) (hs : OMap.Sorted m) (n : Name) :
    (∀ a, addrOfName m n = some a ↔ (∃ size, (a, n, size) ∈ m) ∧ ∀ a' size, (a', n, size) ∈ m → a' ≤ a) ∧
    (addrOfName m n = none ↔ ∀ a size, (a, n, size) ∉ m) := by
  unfold addrOfName
  have hp : (m.filter fun e => decide (e.2.1 = n)).Pairwise (fun x y => x.1 < y.1) := by
    have : m.Pairwise (fun x y => x.1 < y.1) := by simpa [OMap.Sorted] using hs
    exact this.filter _
  have hmem : ∀ a size, (a, n, size) ∈ m ↔ (a, n, size) ∈ m.filter fun e => decide (e.2.1 = n) := by
    intro a size
    rw [List.mem_filter]
    simp
  have hname : ∀ e ∈ m.filter (fun e => decide (e.2.1 = n)), e.2.1 = n := by
    intro e he
    rw [List.mem_filter] at he
    simpa using he.2
  generalize m.filter (fun e => decide (e.2.1 = n)) = l at *
  rcases List.eq_nil_or_concat l with rfl | ⟨l', z, rfl⟩
  · simp only [List.getLast?_nil, Option.map_none, hmem]
    simp
  · obtain ⟨za, zn, zs⟩ := z
    have hz : zn = n := hname (za, zn, zs) (by simp)
    subst hz
    rw [List.concat_eq_append] at *
    rw [List.getLast?_concat, Option.map_some]
    rw [List.pairwise_append] at hp
    refine ⟨?_, ?_⟩
    · intro a
      constructor
      · intro h
        cases h
        refine ⟨⟨zs, (hmem _ _).2 (by simp)⟩, ?_⟩
        intro a' size ha
        rw [hmem, List.mem_append, List.mem_singleton] at ha
        rcases ha with ha | ha
        · exact le_of_lt (hp.2.2 _ ha (za, zn, zs) (by simp))
        · cases ha; exact le_refl _
      · rintro ⟨⟨size, ha⟩, hmax⟩
        have h1 := hmax za zs ((hmem _ _).2 (by simp))
        rw [hmem, List.mem_append, List.mem_singleton] at ha
        rcases ha with ha | ha
        · have := hp.2.2 _ ha (za, zn, zs) (by simp)
          simp only at this
          omega
        · cases ha; rfl
    · simp only [Option.some_ne_none, false_iff, not_forall, not_not]
      exact ⟨za, zs, (hmem _ _).2 (by simp)⟩

/-! ## Concrete cases and a departure -/

theorem exFile_not_stripped : isNonStripped exPath (some exFile) true = some true ∧ isNonStripped exPath (some exFile) false = some true ∧
    (∃ s ∈ exSecs, ∃ x, s.2 = str ".debug" ++ x) ∧ usesFsDiscriminator exPath (some exFile) = some false := by
  refine ⟨?_, by decide +kernel, ?_, by decide +kernel⟩
  · obtain ⟨b, h1, h2⟩ := not_debug_stripped exFile_elf exPath
    rw [h1, h2.2]
    refine ⟨exSecs[3], by decide, ?_⟩
    exact List.isPrefixOf_iff_prefix.1 (by decide) |>.imp fun _ h => h.symm
  · refine ⟨exSecs[3], by decide, ?_⟩
    exact List.isPrefixOf_iff_prefix.1 (by decide) |>.imp fun _ h => h.symm

theorem address_of_name_ex : addrOfName [(16, toName (str "f"), 4), (32, toName (str "g"), 4), (48, toName (str "f"), 4)] (toName (str "f")) = some 48 := by
  decide +kernel

/-- A file whose debugging sections are compressed in the old way counts as having none, although they can be asked for. -/
theorem zdebug_violated (h : IsElf bs w eh secs segs k names) (path : List Nat)
    (hz : ∀ s ∈ secs, ¬ ∃ x, s.2 = str ".debug" ++ x) (s : Shdr × List Nat) (_hs : s ∈ secs) (hn : s.2 = str ".zdebug_info") :
    isNonStripped path (some bs) true = some false ∧ Named (str ".debug_info") s.2 := by
  obtain ⟨b, h1, h2⟩ := not_debug_stripped h path
  refine ⟨?_, .inr ⟨str "info", by decide, by rw [hn]; decide⟩⟩
  rw [h1]
  cases b with
  | false => rfl
  | true =>
    obtain ⟨t, ht, hx⟩ := h2.1 rfl
    exact absurd hx (hz t ht)

end Verif.Elf

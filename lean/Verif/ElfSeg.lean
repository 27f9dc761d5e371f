import Verif.ElfSymProps
import Mathlib.Data.List.Forall2

/-! # C68: executable segments and the build id of an ELF file (symbol_map.cc:456-493, elf_reader.cc:379-386, 868-930) -/
namespace Verif.Elf
open Verif Verif.ByteReader
open Verif.AddrLookup (AddrMap Seg W staticVaddr fileOffset Loaded Layout)

/-- A segment that is loaded and executed. -/
def Exec (p : Phdr) : Prop := p.type = 1 ∧ p.flags % 2 = 1

instance (p : Phdr) : Decidable (Exec p) := by unfold Exec; infer_instance

variable {bs : List Nat} {w : Nat} {eh : Ehdr} {secs : List (Shdr × List Nat)} {segs : List Phdr} {k : Nat} {names : List Nat}

theorem execSegs_base (kernel : Bool) (base : Option Nat) (hb : kernel = false ∨ base.isSome = true) (ps : List Phdr) (acc : List Seg)
    (hlt : ∀ p ∈ ps, p.offset < W) (hge : ∀ p ∈ ps, Exec p → base.getD 0 ≤ p.offset)
    (hasc : ps.Pairwise fun p q => Exec p → Exec q → p.offset < q.offset)
    (hacc : ∀ s, acc.getLast? = some s → ∀ p ∈ ps, Exec p → s.offset + base.getD 0 < p.offset) :
    execSegs kernel ps base acc = some (acc ++ (ps.filter fun p => decide (Exec p)).map fun p => ⟨p.offset - base.getD 0, p.vaddr⟩) := by
  induction ps generalizing acc with
  | nil => simp [execSegs]
  | cons p ps ih =>
    unfold execSegs
    rw [List.pairwise_cons] at hasc
    by_cases he : Exec p
    · rw [if_pos (show p.type = 1 ∧ p.flags % 2 = 1 from he)]
      have hbase : (if (kernel && base.isNone) = true then some p.offset else base) = base := by
        rw [if_neg]
        rcases hb with h | h
        · simp [h]
        · cases base with
          | none => cases h
          | some b => simp
      simp only [hbase]
      have hge' := hge p (by simp) he
      have hoff : (p.offset + W - base.getD 0) % W = p.offset - base.getD 0 := by
        have := hlt p (by simp)
        unfold W at *
        omega
      rw [hoff, if_pos]
      · rw [ih _ (fun q hq => hlt q (by simp [hq])) (fun q hq => hge q (by simp [hq])) hasc.2]
        · rw [List.filter_cons_of_pos (by simpa using he)]
          simp
        · intro s hs q hq hqe
          rw [List.getLast?_append] at hs
          simp at hs
          subst hs
          have := hasc.1 q hq he hqe
          simp only
          omega
      · cases hl : acc.getLast? with
        | none => rfl
        | some s =>
          have := hacc s hl p (by simp) he
          simp only [decide_eq_true_eq]
          omega
    · rw [if_neg (show ¬ (p.type = 1 ∧ p.flags % 2 = 1) from he), ih _ (fun q hq => hlt q (by simp [hq])) (fun q hq => hge q (by simp [hq])) hasc.2
        (fun s hs q hq => hacc s hs q (by simp [hq])), List.filter_cons_of_neg (by simpa using he)]

theorem execSegs_kernel (ps : List Phdr) (hlt : ∀ p ∈ ps, p.offset < W)
    (hasc : ps.Pairwise fun p q => Exec p → Exec q → p.offset < q.offset) :
    execSegs true ps none [] = some ((ps.filter fun p => decide (Exec p)).map fun p =>
      ⟨p.offset - ((ps.filter fun p => decide (Exec p)).head?.map Phdr.offset).getD 0, p.vaddr⟩) := by
  induction ps with
  | nil => rfl
  | cons p ps ih =>
    rw [List.pairwise_cons] at hasc
    unfold execSegs
    by_cases he : Exec p
    · rw [if_pos (show p.type = 1 ∧ p.flags % 2 = 1 from he), List.filter_cons_of_pos (by simpa using he)]
      simp only [Option.isNone_none, Bool.and_self, if_true, Option.getD_some, List.getLast?_nil, List.nil_append, List.head?_cons,
        Option.map_some, List.map_cons]
      have hoff : (p.offset + W - p.offset) % W = 0 := by
        unfold W
        omega
      rw [hoff, execSegs_base true (some p.offset) (.inr rfl) ps _ (fun q hq => hlt q (by simp [hq])) ?_ hasc.2 ?_]
      · simp
      · intro q hq hqe
        exact Nat.le_of_lt (hasc.1 q hq he hqe)
      · intro s hs q hq hqe
        simp at hs
        subst hs
        have := hasc.1 q hq he hqe
        simpa using this
    · rw [if_neg (show ¬ (p.type = 1 ∧ p.flags % 2 = 1) from he), ih (fun q hq => hlt q (by simp [hq])) hasc.2, List.filter_cons_of_neg (by simpa using he)]

theorem IsElf.offset_lt (h : IsElf bs w eh secs segs k names) : ∀ p ∈ segs, p.offset < W := by
  intro p hp
  obtain ⟨i, hi⟩ := List.mem_iff_getElem?.1 hp
  have := (h.segments i p hi).2.addr.1
  rcases h.class_ with rfl | rfl <;> norm_num at this <;> unfold W <;> omega

/-- **C68, segments.** For every ELF file whose executable segments are in the order of their offsets: the segments to translate
addresses with are exactly these, with their addresses; the offsets of a kernel count from the first one. -/
theorem exec_segments (h : IsElf bs w eh secs segs k names) (path : List Nat) (ho : Opens path)
    (hasc : segs.Pairwise fun p q => Exec p → Exec q → p.offset < q.offset)
    (hmod : segs ≠ [] ∨ ¬ ∃ x, path = x ++ str ".ko") :
    loadableSegs path (some bs) false = some ((segs.filter fun p => decide (Exec p)).map fun p => ⟨p.offset, p.vaddr⟩) ∧
    ∀ pre p post, segs = pre ++ p :: post → Exec p → (∀ q ∈ pre, ¬ Exec q) →
      loadableSegs path (some bs) true =
        some ((segs.filter fun q => decide (Exec q)).map fun q => ⟨q.offset - p.offset, q.vaddr⟩) := by
  have hc : ¬ (segs.isEmpty && hasSuffix path (str ".ko")) = true := by
    rw [Bool.and_eq_true, List.isEmpty_iff, hasSuffix_iff]
    rintro ⟨h1, h2⟩
    rcases hmod with h | h
    · exact h h1
    · exact h h2
  unfold loadableSegs
  rw [segments_read h path ho]
  simp only [Option.bind_some]
  refine ⟨?_, ?_⟩
  · rw [execSegs_base false none (.inl rfl) segs [] h.offset_lt (by simp) hasc (by simp)]
    simp only [Option.bind_some]
    rw [if_neg hc]
    simp
  · intro pre p post he hp hpre
    rw [execSegs_kernel segs h.offset_lt hasc]
    simp only [Option.bind_some]
    rw [if_neg hc]
    have : (segs.filter fun q => decide (Exec q)).head? = some p := by
      rw [he, List.filter_append, List.filter_eq_nil_iff.2 (by simpa using hpre), List.filter_cons_of_pos (by simpa using hp)]
      rfl
    rw [this]
    rfl

/-- **C68, kernel modules.** A file without segments whose path ends in `.ko` has its first section named `.text`, if any. -/
theorem module_segment (h : IsElf bs w eh secs [] k names) (path : List Nat) (ho : Opens path) (hko : ∃ x, path = x ++ str ".ko")
    (kernel : Bool) :
    (∀ i s c, Chosen false secs (str ".text") i s → Contents bs s c →
      loadableSegs path (some bs) kernel = some [⟨s.offset, s.addr⟩]) ∧
    ((∀ s ∈ secs, s.2 ≠ str ".text") → loadableSegs path (some bs) kernel = some []) := by
  have hdwp : ((false : Bool) = true ↔ ∃ x, path = x ++ str ".dwp") := by
    refine ⟨fun h => (by cases h), fun hx => ?_⟩
    obtain ⟨x, hx⟩ := hx
    obtain ⟨y, rfl⟩ := hko
    have := congrArg List.getLast? hx
    rw [List.getLast?_append, List.getLast?_append] at this
    revert this
    show some 111 = some 112 → _
    simp
  obtain ⟨h1, h2⟩ := section_info_by_name h path ho false hdwp (str ".text")
  have he : loadableSegs path (some bs) kernel = (sectionInfoByName path (some bs) (str ".text")).map fun
      | none => []
      | some s => [⟨s.offset, s.addr⟩] := by
    unfold loadableSegs
    rw [segments_read h path ho]
    simp only [Option.bind_some, execSegs, List.isEmpty_nil, Bool.true_and]
    rw [if_pos ((hasSuffix_iff _ _).2 hko)]
    congr 1
  rw [he]
  refine ⟨?_, ?_⟩
  · intro i s c hc hcc
    rw [h1 i s c hc hcc]
    rfl
  · intro hno
    rw [h2 fun s hs hn => ?_]
    · rfl
    · rcases hn with hn | ⟨x, hx, _⟩
      · exact hno s hs hn
      · have := congrArg (fun l => l[1]?) hx
        revert this
        show some 116 = some 100 → _
        simp

/-- **C68, addresses** (with C20): in a file whose executable segments are laid out in the same order in the file and in memory, a
byte of such a segment has the address the program header gives it, and back. -/
theorem exec_addresses (h : IsElf bs w eh secs segs k names) (path : List Nat) (ho : Opens path)
    (hasc : segs.Pairwise fun p q => Exec p → Exec q → p.offset + p.filesz ≤ q.offset ∧ p.vaddr + p.filesz ≤ q.vaddr)
    (hpos : ∀ p ∈ segs, Exec p → 0 < p.filesz ∧ p.offset + p.filesz < 2 ^ 64 ∧ p.vaddr + p.filesz < 2 ^ 64)
    (p : Phdr) (hp : p ∈ segs) (he : Exec p) (j : Nat) (hj : j < p.filesz) :
    ∃ l, loadableSegs path (some bs) false = some l ∧ staticVaddr l (p.offset + j) = some (p.vaddr + j) ∧
      fileOffset l (p.vaddr + j) none = some (p.offset + j) := by
  have hne : segs ≠ [] := List.ne_nil_of_mem hp
  have hasc' : segs.Pairwise fun p q => Exec p → Exec q → p.offset < q.offset := by
    refine hasc.imp_of_mem ?_
    intro a b ha hb hab hea heb
    have h1 := (hab hea heb).1
    have h2 := (hpos a ha hea).1
    omega
  refine ⟨_, (exec_segments h path ho hasc' (.inl hne)).1, ?_⟩
  have hlay : ∀ l : List Phdr, l.Pairwise (fun p q => Exec p → Exec q → p.offset + p.filesz ≤ q.offset ∧ p.vaddr + p.filesz ≤ q.vaddr) →
      (∀ p ∈ l, Exec p → p.offset + p.filesz < 2 ^ 64 ∧ p.vaddr + p.filesz < 2 ^ 64) →
      Layout ((l.filter fun p => decide (Exec p)).map fun p => ⟨⟨p.offset, p.vaddr⟩, p.filesz⟩) := by
    intro l
    induction l with
    | nil => intro _ _; exact trivial
    | cons q l ih =>
      intro h1 h2
      rw [List.pairwise_cons] at h1
      have ih' := ih h1.2 fun p hp => h2 p (by simp [hp])
      by_cases hq : Exec q
      · rw [List.filter_cons_of_pos (by simpa using hq), List.map_cons]
        obtain ⟨g1, g2⟩ := h2 q (by simp) hq
        refine ⟨by unfold W; simpa using g1, by unfold W; simpa using g2, ?_, ih'⟩
        intro b hb
        rw [List.mem_map] at hb
        obtain ⟨c, hc, rfl⟩ := hb
        rw [List.mem_filter] at hc
        exact h1.1 c hc.1 hq (by simpa using hc.2)
      · rw [List.filter_cons_of_neg (by simpa using hq)]
        exact ih'
  have := AddrLookup.offset_vaddr_offset _ (hlay segs hasc fun p hp he => (hpos p hp he).2) ⟨⟨p.offset, p.vaddr⟩, p.filesz⟩
    (List.mem_map.2 ⟨p, List.mem_filter.2 ⟨hp, by simpa using he⟩, rfl⟩) j hj
  rw [List.map_map] at this
  exact this

/-! ## The build id -/

/-- Rounding up to 4 (elf_reader.cc:870). -/
def round4 (n : Nat) : Nat := (n + 3) / 4 * 4

/-- The test of one note (elf_reader.cc:897-911): `NT_GNU_BUILD_ID` is 3; the bytes of the id.  A note that is not inside the
section is not modelled. -/
def idOf (size : Nat) (bs : List Nat) (namesz descsz type : Nat) : Option (Option (List Nat)) :=
  if size ≥ 16 ∧ type = 3 ∧ namesz = 4 ∧ descsz ≤ 20 then
    if bs.length < 16 then none
    else if (bs.drop 12).take 4 = [71, 78, 85, 0] then
      if 16 + descsz ≤ bs.length then some (some ((bs.drop 16).take descsz)) else none
    else some none
  else some none

/-- The loop over the notes of a section of `size` bytes (elf_reader.cc:895-917). -/
def noteIds (size : Nat) (bs : List Nat) : Option (List (List Nat)) :=
  if 12 < bs.length then
    match readFields [4, 4, 4] bs with
    | some [n, d, t] =>
      (idOf size bs n d t).bind fun o =>
        (noteIds size (bs.drop (12 + round4 n + round4 d))).map (o.toList ++ ·)
    | _ => none
  else some []
termination_by bs.length
decreasing_by
  rw [List.length_drop]
  omega

/-- The loop over the sections of type `SHT_NOTE`, 7 (elf_reader.cc:888-918). -/
def Reader.allIds (r : Reader) : List Nat → Option (List (List Nat))
  | [] => some []
  | k :: ks => (r.shdr k).bind fun s =>
    if s.type = 7 then
      (r.section k).bind fun c => (noteIds c.length c).bind fun a => (r.allIds ks).map (a ++ ·)
    else r.allIds ks

/-- Hexadecimal digits (elf_reader.cc:905). -/
def hexDigit (n : Nat) : Nat := (str "0123456789abcdef").getD n 0

/-- The string for an id (elf_reader.cc:904-909). -/
def hexOf (id : List Nat) : List Nat := id.flatMap fun b => [hexDigit (b / 16), hexDigit (b % 16)]

/-- `GetBuildId` (elf_reader.cc:868-930); `GetSectionIndexByType` (802-811). -/
def buildId (path : List Nat) (disk : Option (List Nat)) : Option (List Nat) :=
  match openFile path disk with
  | none => some []
  | some bs => (reader path bs).bind fun
    | none => some []
    | some r => (r.allIds (List.range (numSecs r.eh r.first))).map fun
      | [id] => hexOf id
      | _ => []

/-! ## Specification of notes -/

/-- A note with its padding. -/
structure Note where
  name : List Nat
  namePad : List Nat
  desc : List Nat
  descPad : List Nat
  type : Nat

def Note.bytes (n : Note) : List Nat :=
  le 4 n.name.length ++ (le 4 n.desc.length ++ (le 4 n.type ++ (n.name ++ (n.namePad ++ (n.desc ++ n.descPad)))))

/-- Name and description are padded to four bytes. -/
structure Note.Ok (n : Note) : Prop where
  sizes : n.name.length < 2 ^ 32 ∧ n.desc.length < 2 ^ 32 ∧ n.type < 2 ^ 32
  namePad : n.namePad.length < 4 ∧ (n.name.length + n.namePad.length) % 4 = 0
  descPad : n.descPad.length < 4 ∧ (n.desc.length + n.descPad.length) % 4 = 0

/-- A build id of at most 20 bytes. -/
def Note.IsId (n : Note) : Prop := n.type = 3 ∧ n.name = [71, 78, 85, 0] ∧ n.desc.length ≤ 20

instance (n : Note) : Decidable n.IsId := by unfold Note.IsId; infer_instance

theorem noteIds_ok (ns : List Note) (hok : ∀ n ∈ ns, n.Ok) (size : Nat) (hsize : (ns.flatMap Note.bytes).length ≤ size) :
    noteIds size (ns.flatMap Note.bytes) = some ((ns.filter fun n => decide n.IsId).map Note.desc) := by
  induction ns with
  | nil =>
    unfold noteIds
    rw [if_neg (by simp)]
    rfl
  | cons n ns ih =>
    obtain ⟨⟨h1, h2, h3⟩, ⟨h4, h5⟩, h6, h7⟩ := hok n (by simp)
    have h4' : ∀ x, x < 2 ^ 32 → x < 256 ^ 4 := fun x h => by norm_num; norm_num at h; exact h
    rw [List.flatMap_cons] at hsize ⊢
    have hlen : n.bytes.length = 12 + (n.name.length + n.namePad.length) + (n.desc.length + n.descPad.length) := by
      unfold Note.bytes
      simp only [List.length_append, le_len]
      omega
    have hr1 : round4 n.name.length = n.name.length + n.namePad.length := by unfold round4; omega
    have hr2 : round4 n.desc.length = n.desc.length + n.descPad.length := by unfold round4; omega
    have ih' := ih (fun m hm => hok m (by simp [hm])) (by rw [List.length_append] at hsize; omega)
    unfold noteIds
    by_cases hlong : 12 < (n.bytes ++ ns.flatMap Note.bytes).length
    · rw [if_pos hlong]
      have hread : readFields [4, 4, 4] (n.bytes ++ ns.flatMap Note.bytes) = some [n.name.length, n.desc.length, n.type] := by
        unfold Note.bytes
        simp only [List.append_assoc]
        rw [readFields_le _ _ (by omega) (h4' _ h1), readFields_le _ _ (by omega) (h4' _ h2), readFields_le _ _ (by omega) (h4' _ h3)]
        rfl
      rw [hread]
      simp only
      have hdrop : (n.bytes ++ ns.flatMap Note.bytes).drop (12 + round4 n.name.length + round4 n.desc.length) =
          ns.flatMap Note.bytes := by
        rw [hr1, hr2, ← hlen, List.drop_left]
      have hid : idOf size (n.bytes ++ ns.flatMap Note.bytes) n.name.length n.desc.length n.type =
          some (if n.IsId then some n.desc else none) := by
        unfold idOf
        have hd12 : (n.bytes ++ ns.flatMap Note.bytes).drop 12 =
            n.name ++ (n.namePad ++ (n.desc ++ (n.descPad ++ ns.flatMap Note.bytes))) := by
          have : n.bytes ++ ns.flatMap Note.bytes = (le 4 n.name.length ++ (le 4 n.desc.length ++ le 4 n.type)) ++
              (n.name ++ (n.namePad ++ (n.desc ++ (n.descPad ++ ns.flatMap Note.bytes)))) := by
            unfold Note.bytes
            simp only [List.append_assoc]
          rw [this, List.drop_left' (by simp [le_len])]
        by_cases hc : n.type = 3 ∧ n.name.length = 4 ∧ n.desc.length ≤ 20
        · have hp0 : n.namePad = [] := List.eq_nil_of_length_eq_zero (by omega)
          have hl16 : 16 ≤ (n.bytes ++ ns.flatMap Note.bytes).length := by
            rw [List.length_append]
            omega
          rw [if_pos ⟨by omega, hc⟩, if_neg (by omega), hd12, List.take_left' hc.2.1]
          by_cases hg : n.name = [71, 78, 85, 0]
          · rw [if_pos hg, if_pos, if_pos ⟨hc.1, hg, hc.2.2⟩]
            · have : (n.bytes ++ ns.flatMap Note.bytes).drop 16 = n.desc ++ (n.descPad ++ ns.flatMap Note.bytes) := by
                rw [show 16 = 12 + 4 from rfl, ← List.drop_drop, hd12, List.drop_left' hc.2.1, hp0]
                rfl
              rw [this, List.take_left]
            · rw [List.length_append]
              omega
          · rw [if_neg hg, if_neg fun h => hg h.2.1]
        · rw [if_neg fun h => hc h.2, if_neg]
          rintro ⟨g1, g2, g3⟩
          exact hc ⟨g1, by rw [g2]; rfl, g3⟩
      rw [hid, Option.bind_some, hdrop, ih', Option.map_some]
      by_cases hc : n.IsId
      · rw [if_pos hc, List.filter_cons_of_pos (by simpa using hc)]
        rfl
      · rw [if_neg hc, List.filter_cons_of_neg (by simpa using hc)]
        rfl
    · rw [if_neg hlong]
      rw [List.length_append] at hlong
      have hnil : ns.flatMap Note.bytes = [] := List.eq_nil_of_length_eq_zero (by omega)
      rw [hnil] at ih'
      unfold noteIds at ih'
      rw [if_neg (by simp)] at ih'
      rw [List.filter_cons_of_neg]
      · exact ih'
      · simp only [decide_eq_true_eq]
        rintro ⟨_, g2, _⟩
        have : n.name.length = 4 := by rw [g2]; rfl
        omega

/-- The notes of a file: for each section, its notes if it is a section of notes. -/
def NotesOf (bs : List Nat) (secs : List (Shdr × List Nat)) (notes : List (List Note)) : Prop :=
  List.Forall₂ (fun (s : Shdr × List Nat) (ns : List Note) =>
    (s.1.type = 7 → Contents bs s.1 (ns.flatMap Note.bytes)) ∧ (s.1.type ≠ 7 → ns = []) ∧ ∀ n ∈ ns, n.Ok) secs notes

theorem allIds_ok (h : IsElf bs w eh secs segs k names) {dwp : Bool} {first : Shdr} (hn : numSecs eh first = secs.length)
    (hs : strIdx eh first = k) (notes : List (List Note)) (hnotes : NotesOf bs secs notes) (n : Nat) :
    ∀ m, m + n = secs.length → (Reader.good bs w dwp eh secs segs first).allIds ((List.range n).map (m + ·)) =
      some (((notes.drop m).flatMap fun ns => ns.filter fun n => decide n.IsId).map Note.desc) := by
  have hlen := hnotes.length_eq
  induction n with
  | zero =>
    intro m hm
    rw [List.drop_eq_nil_of_le (by omega)]
    rfl
  | succ n ih =>
    intro m hm
    have hmlt : m < secs.length := by omega
    have hmlt' : m < notes.length := by omega
    have hrange : (List.range (n + 1)).map (m + ·) = m :: (List.range n).map (m + 1 + ·) := by
      rw [List.range_succ_eq_map, List.map_cons, List.map_map]
      congr 1
      apply List.map_congr_left
      intro a _
      simp only [Function.comp_apply]
      omega
    rw [hrange]
    have hget : secs[m]? = some secs[m] := List.getElem?_eq_getElem hmlt
    have hrel := List.Forall₂.get hnotes hmlt hmlt'
    simp only [List.get_eq_getElem] at hrel
    obtain ⟨g1, g2, g3⟩ := hrel
    unfold Reader.allIds
    rw [shdr_good, hget, Option.map_some, Option.bind_some, ih (m + 1) (by omega)]
    have hdrop : notes.drop m = notes[m] :: notes.drop (m + 1) := List.drop_eq_getElem_cons hmlt'
    rw [hdrop, List.flatMap_cons]
    by_cases ht : secs[m].1.type = 7
    · rw [if_pos ht, h.section_ok hn hs hget (g1 ht), Option.bind_some, noteIds_ok _ g3 _ (Nat.le_refl _), Option.bind_some]
      simp
    · rw [if_neg ht, g2 ht]
      rfl

/-- **C68, build id.** For every ELF file with well-formed notes that has exactly one note with a build id of at most 20 bytes, its
bytes are given in hexadecimal; otherwise the build id is empty. -/
theorem build_id_read (h : IsElf bs w eh secs segs k names) (path : List Nat) (ho : Opens path) (notes : List (List Note))
    (hnotes : NotesOf bs secs notes) :
    (∀ pre n post, notes.flatten = pre ++ n :: post → n.IsId → (∀ m ∈ pre ++ post, ¬ m.IsId) → (∀ b ∈ n.desc, b < 256) →
      ∃ s, buildId path (some bs) = some s ∧ s.length = 2 * n.desc.length ∧ ∀ i b, n.desc[i]? = some b →
        s[2 * i]? = (str "0123456789abcdef")[b / 16]? ∧ s[2 * i + 1]? = (str "0123456789abcdef")[b % 16]?) ∧
    (((∀ n ∈ notes.flatten, ¬ n.IsId) ∨
      ∃ pre n mid n' post, notes.flatten = pre ++ n :: (mid ++ n' :: post) ∧ n.IsId ∧ n'.IsId) → buildId path (some bs) = some []) := by
  obtain ⟨first, h1, h2, _, h3⟩ := h.reader_ok path
  have hids := allIds_ok h (dwp := hasSuffix path (str ".dwp")) h2 h3 notes hnotes secs.length 0 (by omega)
  simp only [Nat.zero_add, List.map_id', List.drop_zero] at hids
  have hflat : (notes.flatMap fun ns => ns.filter fun n => decide n.IsId) = notes.flatten.filter fun n => decide n.IsId := by
    rw [List.filter_flatten, List.flatMap_def]
  rw [hflat] at hids
  have he : buildId path (some bs) = some (match (notes.flatten.filter fun n => decide n.IsId).map Note.desc with
      | [id] => hexOf id
      | _ => []) := by
    unfold buildId
    rw [openFile_ok ho]
    simp only
    rw [h1]
    simp only [Option.bind_some]
    show ((Reader.good bs w (hasSuffix path (str ".dwp")) eh secs segs first).allIds (List.range (numSecs eh first))).map _ = _
    rw [h2, hids]
    rfl
  rw [he]
  refine ⟨?_, ?_⟩
  · intro pre n post hsplit hn hno hb
    have : notes.flatten.filter (fun n => decide n.IsId) = [n] := by
      rw [hsplit, List.filter_append, List.filter_cons_of_pos (by simpa using hn),
        List.filter_eq_nil_iff.2 (fun m hm => by simpa using hno m (by simp [hm])),
        List.filter_eq_nil_iff.2 (fun m hm => by simpa using hno m (by simp [hm]))]
      rfl
    rw [this]
    refine ⟨hexOf n.desc, rfl, ?_, ?_⟩
    · simp only [hexOf]
      generalize n.desc = l
      clear * -
      induction l with
      | nil => rfl
      | cons b l ih => rw [List.flatMap_cons, List.length_append, ih]; simp; omega
    · simp only [hexOf]
      generalize n.desc = l at hb
      clear * - hb
      have hdig : ∀ x, x < 16 → some (hexDigit x) = (str "0123456789abcdef")[x]? := by decide
      induction l with
      | nil => intro i b h; cases h
      | cons c l ih =>
        intro i b hi
        rw [List.flatMap_cons]
        cases i with
        | zero =>
          simp at hi
          subst hi
          have := hb c (by simp)
          exact ⟨hdig _ (by omega), hdig _ (by omega)⟩
        | succ i =>
          rw [List.getElem?_cons_succ] at hi
          have := ih (fun b hb' => hb b (by simp [hb'])) i b hi
          rw [show 2 * (i + 1) = (2 * i) + 2 by omega, show (2 * i) + 2 + 1 = (2 * i + 1) + 2 by omega]
          exact this
  · rintro (hno | ⟨pre, n, mid, n', post, hsplit, hn, hn'⟩)
    · rw [List.filter_eq_nil_iff.2 (fun m hm => by simpa using hno m hm)]
      rfl
    · rw [hsplit, List.filter_append, List.filter_cons_of_pos (by simpa using hn), List.filter_append,
        List.filter_cons_of_pos (by simpa using hn'), List.map_append, List.map_cons, List.map_append, List.map_cons]
      generalize (List.filter (fun n => decide n.IsId) pre).map Note.desc = A
      generalize (List.filter (fun n => decide n.IsId) mid).map Note.desc = B
      generalize (List.filter (fun n => decide n.IsId) post).map Note.desc = C
      cases A with
      | nil => cases B <;> rfl
      | cons a A => cases A <;> rfl

end Verif.Elf

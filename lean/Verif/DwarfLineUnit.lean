import Verif.DwarfLineSpec

/-! # C58: line table units before DWARF 5, and whole `.debug_line` sections -/
namespace Verif.DwarfLine
open Verif.ByteReader

/-- A file entry of the header: name, directory, modification time and length. -/
structure FileEntry where
  name : List Nat
  dir : Nat
  mtime : Nat
  length : Nat
deriving DecidableEq, Repr

/-- The contents of a line table unit of DWARF version 2, 3 or 4 (DWARF 4, 6.2.4).  `lineBase` is the byte
that encodes the signed `line_base`; `lens` are the `standard_opcode_lengths`. -/
structure Unit4 where
  dwarf64 : Bool
  version : Nat
  headerLength : Nat
  minInsn : Nat
  isStmt : Nat
  lineBase : Nat
  lineRange : Nat
  opcodeBase : Nat
  lens : List Nat
  dirs : List (List Nat)
  files : List FileEntry
  prog : List (List Instr)

/-- Size of offsets in the unit. -/
def Unit4.offSize (u : Unit4) : Nat := if u.dwarf64 then 8 else 4

/-- The header as the line program sees it. -/
def Unit4.hdr (e : Endian) (w : Nat) (u : Unit4) : Hdr :=
  { endian := e, addrSize := w, minInsn := u.minInsn, defaultIsStmt := u.isStmt != 0,
    lineBase := int8 u.lineBase, lineRange := u.lineRange, opcodeBase := u.opcodeBase,
    stdLens := 0 :: u.lens ++ [0] }

/-- Directories have non-empty names without NUL, and so have files. -/
def NameOk (n : List Nat) : Prop := n ≠ [] ∧ ∀ c ∈ n, c ≠ 0

/-- Units the standard allows (one operation per instruction). -/
structure Unit4.Ok (u : Unit4) (w : Nat) : Prop where
  version : 2 ≤ u.version ∧ u.version ≤ 4
  headerLength : u.headerLength < 256 ^ u.offSize
  base : 1 ≤ u.opcodeBase ∧ u.opcodeBase ≤ 255
  range : 0 < u.lineRange
  lens : u.lens.length = u.opcodeBase - 1
  addr : w = 4 ∨ w = 8
  dirs : ∀ d ∈ u.dirs, NameOk d
  files : ∀ f ∈ u.files, NameOk f.name ∧ f.dir < 2 ^ 32

/-- Encoding of the file table. -/
def FilesEnc : List FileEntry → List Nat → Prop
  | [], bs => bs = []
  | f :: fs, bs => ∃ a b c d, IsU f.dir a ∧ IsU f.mtime b ∧ IsU f.length c ∧ FilesEnc fs d ∧
      bs = f.name ++ 0 :: (a ++ (b ++ (c ++ d)))

/-- The initial length of a unit whose remaining bytes are `n`. -/
def initialLength (e : Endian) (dwarf64 : Bool) (n : Nat) : List Nat :=
  if dwarf64 then encodeFixed e 4 0xffffffff ++ encodeFixed e 8 n else encodeFixed e 4 n

/-- Encoding of the directory table without its terminator. -/
def dirsBytes (ds : List (List Nat)) : List Nat := ds.flatMap fun d => d ++ [0]

/-- Encoding of a unit (DWARF 4, 6.2.4).  Version 4 has `maximum_operations_per_instruction`, here 1. -/
def Unit4.Enc (e : Endian) (w : Nat) (u : Unit4) (bs : List Nat) : Prop :=
  ∃ files prog body, FilesEnc u.files files ∧ ProgEnc (u.hdr e w) u.prog prog ∧
    body = encodeFixed e 2 u.version ++ (encodeFixed e u.offSize u.headerLength ++ (u.minInsn ::
      ((if 4 ≤ u.version then [1] else []) ++ (u.isStmt :: u.lineBase :: u.lineRange :: u.opcodeBase ::
        (u.lens ++ (dirsBytes u.dirs ++ 0 :: (files ++ 0 :: prog))))))) ∧
    body.length < (if u.dwarf64 then 2 ^ 64 else 0xffffffff) ∧
    bs = initialLength e u.dwarf64 body.length ++ body

/-- Numbered directory definitions. -/
def dirEvs : Nat → List (List Nat) → List Ev
  | _, [] => []
  | i, d :: ds => .dir d i :: dirEvs (i + 1) ds

/-- Numbered file definitions. -/
def fileEvs : Nat → List FileEntry → List Ev
  | _, [] => []
  | i, f :: fs => .file f.name i f.dir f.mtime f.length :: fileEvs (i + 1) fs

/-- What the handler must be told about a unit: the directories and the files, numbered from 1, then the
rows of the line program. -/
def Unit4.events (e : Endian) (w : Nat) (u : Unit4) : List Ev :=
  dirEvs 1 u.dirs ++ fileEvs 1 u.files ++ (meaning (u.hdr e w) u.prog).map Out.narrow

/-! ## Proof -/

theorem ok_bind {α β : Type} (a : α) (f : α → Except Err β) : (Except.ok a >>= f) = f a := rfl

theorem advance_ok (a t : List Nat) (ht : t ≠ []) : advance a.length (a ++ t) = .ok t := by
  unfold advance
  have : t.length ≠ 0 := by simpa using ht
  rw [if_neg (by simp only [List.length_append]; omega), List.drop_left]

theorem byte_ok (b : Nat) (t : List Nat) (ht : t ≠ []) : byte (b :: t) = .ok (b, t) := by
  unfold byte
  simp only [List.head?_cons, orUndef, ok_bind]
  have := advance_ok [b] t ht
  simp only [List.length_singleton, List.cons_append, List.nil_append] at this
  rw [this, ok_bind]

theorem uleb_ok {v : Nat} {a : List Nat} (h : IsU v a) (t : List Nat) (ht : t ≠ []) :
    uleb (a ++ t) = .ok (v, t) := by
  unfold uleb
  simp only [h.read, orUndef, ok_bind, advance_ok a t ht]

theorem fixed_ok (e : Endian) (n v : Nat) (hn : n = 1 ∨ n = 2 ∨ n = 3 ∨ n = 4 ∨ n = 8) (hv : v < 256 ^ n)
    (t : List Nat) (ht : t ≠ []) : fixed e n (encodeFixed e n v ++ t) = .ok (v, t) := by
  unfold fixed
  rw [fixed_roundtrip e n v hn hv]
  have := advance_ok (encodeFixed e n v) t ht
  rw [encodeFixed_len] at this
  simp only [orUndef, ok_bind, this]

theorem str_ok (name t : List Nat) (hn : ∀ c ∈ name, c ≠ 0) (ht : t ≠ []) :
    str (name ++ 0 :: t) = .ok (name, t) := by
  unfold str
  rw [cstr_spec _ _ hn]
  have := advance_ok (name ++ [0]) t ht
  simp only [List.length_append, List.length_singleton, List.append_assoc, List.cons_append,
    List.nil_append] at this
  simp only [orUndef, ok_bind, this]

theorem opLens_ok (lens t : List Nat) (ht : t ≠ []) : opLens lens.length (lens ++ t) = .ok (lens, t) := by
  induction lens with
  | nil => rfl
  | cons b lens ih =>
    simp only [List.length_cons, opLens, List.cons_append]
    rw [byte_ok b _ (by simp [ht]), ok_bind]
    simp only
    rw [ih, ok_bind]

theorem dirs4_ok (ds : List (List Nat)) (hds : ∀ d ∈ ds, NameOk d) (t : List Nat) (fuel i : Nat)
    (hf : ds.length < fuel) :
    dirs4 fuel i (dirsBytes ds ++ 0 :: t) = .ok (dirEvs i ds, 0 :: t) := by
  induction ds generalizing fuel i with
  | nil =>
    match fuel, hf with
    | fuel + 1, _ => simp [dirsBytes, dirs4, dirEvs]
  | cons d ds ih =>
    match fuel, hf with
    | fuel + 1, hf =>
      obtain ⟨hne, hz⟩ := hds d List.mem_cons_self
      have e : dirsBytes (d :: ds) ++ 0 :: t = d ++ 0 :: (dirsBytes ds ++ 0 :: t) := by
        simp [dirsBytes]
      rw [e]
      match d, hne, hz with
      | c :: cs, _, hz =>
        simp only [List.cons_append, dirs4]
        rw [if_neg (hz c List.mem_cons_self)]
        have hs := str_ok (c :: cs) (dirsBytes ds ++ 0 :: t) hz (by simp)
        simp only [List.cons_append] at hs
        rw [hs, ok_bind]
        simp only
        rw [ih (fun x hx => hds x (List.mem_cons_of_mem _ hx)) fuel (i + 1)
          (by simp only [List.length_cons] at hf; omega), ok_bind]
        rfl

theorem files4_ok (fs : List FileEntry) (hfs : ∀ f ∈ fs, NameOk f.name ∧ f.dir < 2 ^ 32) {bs : List Nat}
    (henc : FilesEnc fs bs) (t : List Nat) (fuel i : Nat) (hf : fs.length < fuel) :
    files4 fuel i (bs ++ 0 :: t) = .ok (fileEvs i fs, 0 :: t) := by
  induction fs generalizing fuel i bs with
  | nil =>
    simp only [FilesEnc] at henc
    subst henc
    match fuel, hf with
    | fuel + 1, _ => simp [files4, fileEvs]
  | cons f fs ih =>
    match fuel, hf with
    | fuel + 1, hf =>
      obtain ⟨⟨hne, hz⟩, hdir⟩ := hfs f List.mem_cons_self
      obtain ⟨a, b, c, d, ha, hb, hc, hd, rfl⟩ := henc
      have e : f.name ++ 0 :: (a ++ (b ++ (c ++ d))) ++ 0 :: t =
          f.name ++ 0 :: (a ++ (b ++ (c ++ (d ++ 0 :: t)))) := by simp
      rw [e]
      have hs := str_ok f.name (a ++ (b ++ (c ++ (d ++ 0 :: t)))) hz (by simp)
      have hcons : ∃ x xs, f.name = x :: xs ∧ x ≠ 0 := by
        cases hn : f.name with
        | nil => exact absurd hn hne
        | cons x xs => exact ⟨x, xs, rfl, hz x (by rw [hn]; exact List.mem_cons_self)⟩
      obtain ⟨x, xs, hx, hx0⟩ := hcons
      rw [hx] at hs ⊢
      simp only [List.cons_append] at hs ⊢
      simp only [files4]
      rw [if_neg hx0, hs, ok_bind]
      simp only
      rw [uleb_ok ha _ (by simp), ok_bind]
      simp only
      rw [uleb_ok hb _ (by simp), ok_bind]
      simp only
      rw [uleb_ok hc _ (by simp), ok_bind]
      simp only
      rw [ih (fun y hy => hfs y (List.mem_cons_of_mem _ hy)) hd fuel (i + 1)
        (by simp only [List.length_cons] at hf; omega), ok_bind]
      simp only [fileEvs, hx, Nat.mod_eq_of_lt hdir]

theorem dirsBytes_length (ds : List (List Nat)) : ds.length ≤ (dirsBytes ds).length := by
  induction ds with
  | nil => simp [dirsBytes]
  | cons d ds ih =>
    have e : dirsBytes (d :: ds) = d ++ 0 :: dirsBytes ds := by simp [dirsBytes]
    rw [e]
    simp only [List.length_cons, List.length_append]
    omega

theorem filesEnc_length (fs : List FileEntry) {bs : List Nat} (henc : FilesEnc fs bs) :
    fs.length ≤ bs.length := by
  induction fs generalizing bs with
  | nil => simp
  | cons f fs ih =>
    obtain ⟨a, b, c, d, _, _, _, hd, rfl⟩ := henc
    have := ih hd
    simp only [List.length_cons, List.length_append]
    omega

theorem tables4_ok (ds : List (List Nat)) (hds : ∀ d ∈ ds, NameOk d) (fs : List FileEntry)
    (hfs : ∀ f ∈ fs, NameOk f.name ∧ f.dir < 2 ^ 32) {files : List Nat}
    (henc : FilesEnc fs files) (t : List Nat) :
    tables4 (dirsBytes ds ++ 0 :: (files ++ 0 :: t)) = .ok (dirEvs 1 ds ++ fileEvs 1 fs, t) := by
  unfold tables4
  rw [dirs4_ok ds hds _ _ _ (by
    have := dirsBytes_length ds
    simp only [List.length_append]; omega), ok_bind]
  simp only
  have := advance_ok [0] (files ++ 0 :: t) (by simp)
  simp only [List.length_singleton, List.cons_append, List.nil_append] at this
  rw [this, ok_bind]
  rw [files4_ok fs hfs henc _ _ _ (by
    have := filesEnc_length fs henc
    simp only [List.length_append]; omega), ok_bind]
  rfl

theorem readInitialLength_ok (e : Endian) (d64 : Bool) (n : Nat)
    (hn : n < (if d64 then 2 ^ 64 else 0xffffffff)) (rest : List Nat) :
    readInitialLength e (initialLength e d64 n ++ rest) =
      some (n, (initialLength e d64 n).length, if d64 then 8 else 4) := by
  obtain ⟨h1, h2⟩ := initial_length_roundtrip e rest
  cases d64 with
  | true =>
    simp only [initialLength, if_true, List.append_assoc, List.length_append, encodeFixed_len] at hn ⊢
    rw [h2 n hn]
  | false =>
    simp only [initialLength, Bool.false_eq_true, if_false, encodeFixed_len] at hn ⊢
    rw [h1 n hn]

/-- **C58, the header**: for every unit of version 2 to 4 and every encoding of it, whatever follows. -/
theorem readHeader_ok (e : Endian) (w : Nat) (st : Strs) (u : Unit4) (hu : u.Ok w) (files prog rest : List Nat)
    (hfiles : FilesEnc u.files files)
    (body : List Nat)
    (hbody : body = encodeFixed e 2 u.version ++ (encodeFixed e u.offSize u.headerLength ++ (u.minInsn ::
      ((if 4 ≤ u.version then [1] else []) ++ (u.isStmt :: u.lineBase :: u.lineRange :: u.opcodeBase ::
        (u.lens ++ (dirsBytes u.dirs ++ 0 :: (files ++ 0 :: prog))))))))
    (hlen : body.length < (if u.dwarf64 then 2 ^ 64 else 0xffffffff)) :
    readHeader e w st (initialLength e u.dwarf64 body.length ++ (body ++ rest)) =
      .ok (u.hdr e w, dirEvs 1 u.dirs ++ fileEvs 1 u.files, body.length, u.offSize, prog ++ rest) := by
  unfold readHeader
  rw [readInitialLength_ok e _ _ hlen]
  have hne : body ++ rest ≠ [] := by
    intro h
    have := congrArg List.length h
    rw [hbody] at this
    simp only [List.length_append, List.length_cons, List.length_nil] at this
    omega
  simp only [orUndef, ok_bind]
  rw [advance_ok _ _ hne, ok_bind, if_neg (by simp only [List.length_append]; omega),
    if_neg (by have := hu.addr; omega)]
  have hrest : body ++ rest = encodeFixed e 2 u.version ++ (encodeFixed e u.offSize u.headerLength ++
      (u.minInsn :: ((if 4 ≤ u.version then [1] else []) ++ (u.isStmt :: u.lineBase :: u.lineRange ::
        u.opcodeBase :: (u.lens ++ (dirsBytes u.dirs ++ 0 :: (files ++ 0 :: (prog ++ rest)))))))) := by
    rw [hbody]
    simp
  have hv := hu.version
  rw [hrest, fixed_ok e 2 _ (by omega) (by norm_num; omega) _ (by simp), ok_bind]
  simp only
  rw [if_neg (by omega), show skipV5 u.version = Except.ok from by
    funext bs; unfold skipV5; rw [if_neg (by omega)], ok_bind]
  have hoff : u.offSize = (if u.dwarf64 = true then 8 else 4) := rfl
  rw [← hoff, fixed_ok e _ _ (by unfold Unit4.offSize; split <;> omega) hu.headerLength _ (by simp), ok_bind]
  simp only
  rw [byte_ok _ _ (by simp), ok_bind]
  simp only
  have hops : ∀ t : List Nat, t ≠ [] →
      skipMaxOps u.version ((if 4 ≤ u.version then [1] else []) ++ t) = .ok t := by
    intro t ht
    unfold skipMaxOps
    by_cases h4 : 4 ≤ u.version
    · simp only [if_pos h4, List.cons_append, List.nil_append]
      rw [byte_ok _ _ ht, ok_bind]
    · simp only [if_neg h4, List.nil_append]
  rw [hops _ (by simp), ok_bind]
  rw [byte_ok _ _ (by simp), ok_bind]
  simp only
  rw [byte_ok _ _ (by simp), ok_bind]
  simp only
  rw [byte_ok _ _ (by simp), ok_bind]
  simp only
  rw [byte_ok _ _ (by simp), ok_bind]
  simp only
  rw [← hu.lens, opLens_ok _ _ (by simp), ok_bind]
  simp only
  unfold tables
  rw [if_neg (by omega), tables4_ok _ hu.dirs _ hu.files hfiles, ok_bind]
  rfl

theorem hdr_ok {e : Endian} {w : Nat} {u : Unit4} (hu : u.Ok w) : (u.hdr e w).Ok :=
  { base := hu.base.1, base' := hu.base.2, range := hu.range, addr := hu.addr }

/-- **C58, a unit.** For every line table unit of DWARF version 2 to 4 (32- or 64-bit, either byte order) and
every encoding of it, whatever follows it in the section: the handler is told the directories and files,
numbered from 1, and then exactly the rows of the line program; and the reader returns the size of the
unit. -/
theorem unit_decoded (e : Endian) (w : Nat) (st : Strs) (u : Unit4) (hu : u.Ok w) (bs rest : List Nat)
    (henc : u.Enc e w bs) : start e w st (bs ++ rest) = .ok (u.events e w, bs.length) := by
  obtain ⟨files, prog, body, hfiles, hprog, hbody, hlen, rfl⟩ := henc
  unfold start
  rw [List.append_assoc, readHeader_ok e w st u hu files prog rest hfiles body hbody hlen, ok_bind]
  simp only
  have hl : (initialLength e u.dwarf64 body.length).length = (if u.offSize = 8 then 12 else 4) := by
    unfold initialLength Unit4.offSize
    cases u.dwarf64 <;> simp [encodeFixed_len]
  have hp : prog.length ≤ body.length := by
    rw [hbody]
    simp only [List.length_append, List.length_cons]
    omega
  have hrem : (if u.offSize = 8 then 12 else 4) + body.length -
      ((initialLength e u.dwarf64 body.length ++ (body ++ rest)).length - (prog ++ rest).length) =
      prog.length := by
    simp only [List.length_append]
    omega
  rw [hrem, lines_decoded (hdr_ok hu) u.prog hprog rest]
  simp only [orUndef, ok_bind, Unit4.events, List.append_assoc, List.length_append, hl]

/-- The loop of `Google3Addr2line::Prepare` over a `.debug_line` section without `.debug_info`
(legacy_addr2line.cc:160-181): `none` is undefined behaviour; a malformed unit ends the loop.  Every unit
read has at least one byte (the loop also stops otherwise), so the section's length bounds the number of
iterations. -/
def readSection (e : Endian) (w : Nat) : Nat → List Nat → Option (List (List Ev))
  | 0, _ => none
  | fuel + 1, bs =>
    if bs = [] then some []
    else
      match start e w ⟨none, none⟩ bs with
      | .error .malformed => some []
      | .error .undefined => none
      | .ok (evs, n) => if n = 0 then some [evs] else (readSection e w fuel (bs.drop n)).map (evs :: ·)

/-- **C58, a section.** A `.debug_line` section consisting of encoded units is decoded unit by unit. -/
theorem section_decoded (e : Endian) (w : Nat) (us : List (Unit4 × List Nat))
    (hus : ∀ u ∈ us, u.1.Ok w ∧ u.1.Enc e w u.2) :
    readSection e w ((us.flatMap (·.2)).length + 1) (us.flatMap (·.2)) = some (us.map fun u => u.1.events e w) := by
  suffices H : ∀ fuel, (us.flatMap (·.2)).length < fuel →
      readSection e w fuel (us.flatMap (·.2)) = some (us.map fun u => u.1.events e w) from H _ (by omega)
  induction us with
  | nil =>
    intro fuel hf
    match fuel, hf with
    | fuel + 1, _ => rfl
  | cons u us ih =>
    intro fuel hf
    obtain ⟨hu, henc⟩ := hus u List.mem_cons_self
    have hpos : 4 ≤ u.2.length := by
      obtain ⟨files, prog, body, _, _, _, _, hb⟩ := henc
      rw [hb]
      unfold initialLength
      cases u.1.dwarf64 <;> simp [encodeFixed_len] <;> omega
    match fuel, hf with
    | fuel + 1, hf =>
      simp only [List.flatMap_cons, List.length_append] at hf
      simp only [readSection, List.flatMap_cons]
      rw [if_neg (by
          intro h
          have := congrArg List.length h
          simp only [List.length_append, List.length_nil] at this
          omega),
        unit_decoded e w _ u.1 hu u.2 _ henc]
      simp only [List.drop_left]
      rw [if_neg (by omega), ih (fun x hx => hus x (List.mem_cons_of_mem _ hx)) fuel (by omega)]
      rfl

end Verif.DwarfLine

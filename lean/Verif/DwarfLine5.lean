import Verif.DwarfLineUnit

/-! # C58: line table units of DWARF 5

The reader handles the entry formats with paths and directory indices only, and numbers the entries from 1
where the standard numbers them from 0 (see `unit5_numbering_violated` in `DwarfLineEx`). -/
namespace Verif.DwarfLine
open Verif.ByteReader

/-- The string `name` of a table entry, in the given form: inline, or an offset into `.debug_line_str` or
`.debug_str`. -/
def StrEnc (e : Endian) (off : Nat) (st : Strs) (form : Nat) (name bs : List Nat) : Prop :=
  (∀ c ∈ name, c ≠ 0) ∧
  ((form = 0x08 ∧ bs = name ++ [0]) ∨
   (form = 0x1f ∧ ∃ pre post, st.lineStr = some (pre ++ (name ++ 0 :: post)) ∧ pre.length < 256 ^ off ∧
      bs = encodeFixed e off pre.length) ∨
   (form = 0x0e ∧ ∃ pre post, st.str = some (pre ++ (name ++ 0 :: post)) ∧ pre.length < 256 ^ off ∧
      bs = encodeFixed e off pre.length))

/-- The number of a table entry, in the given form. -/
def NumEnc (e : Endian) (form v : Nat) (bs : List Nat) : Prop :=
  (form = 0x0f ∧ IsU v bs) ∨ (form = 0x0b ∧ v < 256 ∧ bs = [v]) ∨
  (form = 0x05 ∧ v < 256 ^ 2 ∧ bs = encodeFixed e 2 v)

/-- A row of the tables: the columns of the format in turn (1: path, 2: directory index). -/
def RowEnc (e : Endian) (off : Nat) (st : Strs) (name : List Nat) (dir : Nat) :
    List (Nat × Nat) → List Nat → Prop
  | [], bs => bs = []
  | (t, f) :: cols, bs => ∃ a b, RowEnc e off st name dir cols b ∧ bs = a ++ b ∧
      ((t = 1 ∧ StrEnc e off st f name a) ∨ (t = 2 ∧ NumEnc e f dir a))

/-- All rows of a table. -/
def RowsEnc (e : Endian) (off : Nat) (st : Strs) (fmt : List (Nat × Nat)) :
    List (List Nat × Nat) → List Nat → Prop
  | [], bs => bs = []
  | r :: rs, bs => ∃ a b, RowEnc e off st r.1 r.2 fmt a ∧ RowsEnc e off st fmt rs b ∧ bs = a ++ b

/-- The pairs of an entry format. -/
def PairsEnc : List (Nat × Nat) → List Nat → Prop
  | [], bs => bs = []
  | (t, f) :: l, bs => ∃ a b c, IsU t a ∧ IsU f b ∧ PairsEnc l c ∧ bs = a ++ (b ++ c)

/-- A table: its format, the number of its entries, its entries. -/
def TableEnc (e : Endian) (off : Nat) (st : Strs) (fmt : List (Nat × Nat)) (rows : List (List Nat × Nat))
    (bs : List Nat) : Prop :=
  ∃ a b c d, IsU fmt.length a ∧ PairsEnc fmt b ∧ IsU rows.length c ∧ RowsEnc e off st fmt rows d ∧
    bs = a ++ (b ++ (c ++ d))

/-- A line table unit of DWARF 5 (DWARF 5, 6.2.4). -/
structure Unit5 where
  dwarf64 : Bool
  addressSize : Nat
  segmentSelectorSize : Nat
  headerLength : Nat
  minInsn : Nat
  isStmt : Nat
  lineBase : Nat
  lineRange : Nat
  opcodeBase : Nat
  lens : List Nat
  dirFmt : List (Nat × Nat)
  dirs : List (List Nat)
  fileFmt : List (Nat × Nat)
  files : List (List Nat × Nat)
  prog : List (List Instr)

/-- Size of offsets in the unit. -/
def Unit5.offSize (u : Unit5) : Nat := if u.dwarf64 then 8 else 4

/-- The header as the line program sees it. -/
def Unit5.hdr (e : Endian) (w : Nat) (u : Unit5) : Hdr :=
  { endian := e, addrSize := w, minInsn := u.minInsn, defaultIsStmt := u.isStmt != 0,
    lineBase := int8 u.lineBase, lineRange := u.lineRange, opcodeBase := u.opcodeBase,
    stdLens := 0 :: u.lens ++ [0] }

/-- A format with a path and known columns. -/
structure FmtOk (fmt : List (Nat × Nat)) (types : List Nat) : Prop where
  len : fmt.length ≤ 4
  path : ∃ c ∈ fmt, c.1 = 1
  types : ∀ c ∈ fmt, c.1 ∈ types ∧ c.1 < 2 ^ 32 ∧ c.2 < 2 ^ 32

/-- Units the standard allows, as far as the reader supports them. -/
structure Unit5.Ok (u : Unit5) (w : Nat) : Prop where
  headerLength : u.headerLength < 256 ^ u.offSize
  base : 1 ≤ u.opcodeBase ∧ u.opcodeBase ≤ 255
  range : 0 < u.lineRange
  lens : u.lens.length = u.opcodeBase - 1
  addr : w = 4 ∨ w = 8
  dirFmt : FmtOk u.dirFmt [1]
  fileFmt : FmtOk u.fileFmt [1, 2]
  dirs : u.dirs.length < 2 ^ 32
  files : u.files.length < 2 ^ 32
  fileDirs : ∀ f ∈ u.files, f.2 < 2 ^ 32

/-- Encoding of a unit (DWARF 5, 6.2.4), with `maximum_operations_per_instruction` 1. -/
def Unit5.Enc (e : Endian) (w : Nat) (st : Strs) (u : Unit5) (bs : List Nat) : Prop :=
  ∃ dirs files prog body, TableEnc e u.offSize st u.dirFmt (u.dirs.map fun d => (d, 0)) dirs ∧
    TableEnc e u.offSize st u.fileFmt u.files files ∧ ProgEnc (u.hdr e w) u.prog prog ∧
    body = encodeFixed e 2 5 ++ (u.addressSize :: u.segmentSelectorSize ::
      (encodeFixed e u.offSize u.headerLength ++ (u.minInsn :: 1 ::
        u.isStmt :: u.lineBase :: u.lineRange :: u.opcodeBase :: (u.lens ++ (dirs ++ (files ++ prog)))))) ∧
    body.length < (if u.dwarf64 then 2 ^ 64 else 0xffffffff) ∧
    bs = initialLength e u.dwarf64 body.length ++ body

/-- File definitions numbered from `i`; a file without a directory column is in directory 0. -/
def fileEvs5 (hasDir : Bool) : Nat → List (List Nat × Nat) → List Ev
  | _, [] => []
  | i, f :: fs => .file f.1 i (if hasDir then f.2 else 0) 0 0 :: fileEvs5 hasDir (i + 1) fs

/-- What the handler is told about a unit of version 5. -/
def Unit5.events (e : Endian) (w : Nat) (u : Unit5) : List Ev :=
  dirEvs 1 u.dirs ++ fileEvs5 (u.fileFmt.any (·.1 == 2)) 1 u.files ++
    (meaning (u.hdr e w) u.prog).map Out.narrow

/-! ## Proof -/

theorem stringForm_ok {e : Endian} {off : Nat} (hoff : off = 4 ∨ off = 8) {st : Strs} {form : Nat}
    {name bs : List Nat} (h : StrEnc e off st form name bs) (t : List Nat) (ht : t ≠ []) :
    stringForm e off st form (bs ++ t) = .ok (name, t) := by
  obtain ⟨hz, ⟨hf, hb⟩ | ⟨hf, pre, post, hs, hlt, hb⟩ | ⟨hf, pre, post, hs, hlt, hb⟩⟩ := h
  · subst hf hb
    unfold stringForm
    rw [if_pos rfl, List.append_assoc]
    exact str_ok name t hz ht
  · subst hf hb
    unfold stringForm
    rw [if_neg (by omega), if_pos rfl, fixed_ok e off _ (by omega) hlt t ht, ok_bind]
    simp only [hs, List.drop_left, cstr_spec _ _ hz, Option.map_some, orUndef, ok_bind]
  · subst hf hb
    unfold stringForm
    rw [if_neg (by omega), if_neg (by omega), if_neg (by omega), if_pos rfl]
    simp only [hs]
    rw [fixed_ok e off _ (by omega) hlt t ht, ok_bind]
    unfold strAt
    simp only
    rw [if_neg (by simp), List.drop_left, cstr_spec _ _ hz]
    simp only [Option.map_some, orUndef, ok_bind]

theorem unsignedForm_ok {e : Endian} {form v : Nat} {bs : List Nat} (h : NumEnc e form v bs) (t : List Nat)
    (ht : t ≠ []) : unsignedForm e form (bs ++ t) = .ok (v, t) := by
  obtain ⟨hf, hb⟩ | ⟨hf, hv, hb⟩ | ⟨hf, hv, hb⟩ := h
  · subst hf
    unfold unsignedForm
    rw [if_pos rfl]
    exact uleb_ok hb t ht
  · subst hf hb
    unfold unsignedForm
    rw [if_neg (by omega), if_pos rfl]
    unfold fixed
    have := advance_ok [v] t ht
    simp only [List.length_singleton] at this
    rw [this]
    rfl
  · subst hf hb
    unfold unsignedForm
    rw [if_neg (by omega), if_neg (by omega), if_pos rfl]
    exact fixed_ok e 2 v (by omega) hv t ht

theorem dirRow_ok {e : Endian} {off : Nat} (hoff : off = 4 ∨ off = 8) {st : Strs} {name : List Nat}
    {d : Nat} (fmt : List (Nat × Nat)) (hfmt : ∀ c ∈ fmt, c.1 = 1) {bs : List Nat}
    (h : RowEnc e off st name d fmt bs) (t : List Nat) (ht : t ≠ []) (n0 : Option (List Nat)) :
    dirRow e off st fmt n0 (bs ++ t) = .ok (if fmt = [] then n0 else some name, t) := by
  induction fmt generalizing bs n0 with
  | nil => simp only [RowEnc] at h; subst h; rfl
  | cons c fmt ih =>
    obtain ⟨ty, f⟩ := c
    obtain ⟨a, b, hb, rfl, hc⟩ := h
    have hty : ty = 1 := hfmt (ty, f) List.mem_cons_self
    have ha : StrEnc e off st f name a := by
      rcases hc with ⟨_, ha⟩ | ⟨h2, _⟩
      · exact ha
      · omega
    simp only [dirRow]
    rw [if_pos hty, List.append_assoc, stringForm_ok hoff ha _ (by simp [ht]), ok_bind]
    simp only
    rw [ih (fun c hc => hfmt c (List.mem_cons_of_mem _ hc)) hb]
    simp

theorem ok_any1 (name : List Nat) (n0 : Option (List Nat)) (d d0 : Nat) (t : List Nat) (p q : Bool) :
    (Except.ok (if p = true then some name else some name, if q = true then d else d0, t) : Except Err _) =
      .ok (if ((1 : Nat) == 1 || p) = true then some name else n0,
        if ((1 : Nat) == 2 || q) = true then d else d0, t) := by
  cases p <;> cases q <;> rfl

theorem ok_any2 (name : List Nat) (n0 : Option (List Nat)) (d d0 : Nat) (t : List Nat) (p q : Bool) :
    (Except.ok (if p = true then some name else n0, if q = true then d else d, t) : Except Err _) =
      .ok (if ((2 : Nat) == 1 || p) = true then some name else n0,
        if ((2 : Nat) == 2 || q) = true then d else d0, t) := by
  cases p <;> cases q <;> rfl

theorem fileRow_ok {e : Endian} {off : Nat} (hoff : off = 4 ∨ off = 8) {st : Strs} {name : List Nat}
    {d : Nat} (fmt : List (Nat × Nat)) (hfmt : ∀ c ∈ fmt, c.1 ∈ [1, 2]) {bs : List Nat}
    (h : RowEnc e off st name d fmt bs) (t : List Nat) (ht : t ≠ []) (n0 : Option (List Nat)) (d0 : Nat) :
    fileRow e off st fmt n0 d0 (bs ++ t) =
      .ok (if fmt.any (·.1 == 1) then some name else n0, if fmt.any (·.1 == 2) then d else d0, t) := by
  induction fmt generalizing bs n0 d0 with
  | nil => simp only [RowEnc] at h; subst h; rfl
  | cons c fmt ih =>
    obtain ⟨ty, f⟩ := c
    obtain ⟨a, b, hb, rfl, hc⟩ := h
    have ih' := fun n0 d0 => ih (fun c hc => hfmt c (List.mem_cons_of_mem _ hc)) hb n0 d0
    simp only [fileRow]
    rcases hc with ⟨hty, ha⟩ | ⟨hty, ha⟩
    · rw [if_pos hty, List.append_assoc, stringForm_ok hoff ha _ (by simp [ht]), ok_bind]
      simp only
      rw [ih']
      subst hty
      simp only [List.any_cons]
      exact ok_any1 name n0 d d0 t _ _
    · rw [if_neg (by omega), if_pos hty, List.append_assoc, unsignedForm_ok ha _ (by simp [ht]), ok_bind]
      simp only
      rw [ih']
      subst hty
      simp only [List.any_cons]
      exact ok_any2 name n0 d d0 t _ _

theorem dirs5_ok {e : Endian} {off : Nat} (hoff : off = 4 ∨ off = 8) {st : Strs} (fmt : List (Nat × Nat))
    (hfmt : ∀ c ∈ fmt, c.1 = 1) (hne : fmt ≠ []) (ds : List (List Nat)) {bs : List Nat}
    (h : RowsEnc e off st fmt (ds.map fun d => (d, 0)) bs) (t : List Nat) (ht : t ≠ []) (i : Nat) :
    dirs5 e off st fmt ds.length i (bs ++ t) = .ok (dirEvs i ds, t) := by
  induction ds generalizing bs i with
  | nil => simp only [List.map_nil, RowsEnc] at h; subst h; rfl
  | cons d ds ih =>
    obtain ⟨a, b, ha, hb, rfl⟩ := h
    simp only [List.length_cons, dirs5]
    rw [List.append_assoc, dirRow_ok hoff fmt hfmt ha _ (by simp [ht]), ok_bind]
    simp only [if_neg hne]
    rw [ih hb, ok_bind]
    rfl

theorem files5_ok {e : Endian} {off : Nat} (hoff : off = 4 ∨ off = 8) {st : Strs} (fmt : List (Nat × Nat))
    (hfmt : FmtOk fmt [1, 2]) (fs : List (List Nat × Nat)) (hfs : ∀ f ∈ fs, f.2 < 2 ^ 32) {bs : List Nat}
    (h : RowsEnc e off st fmt fs bs) (t : List Nat) (ht : t ≠ []) (i : Nat) :
    files5 e off st fmt fs.length i (bs ++ t) = .ok (fileEvs5 (fmt.any (·.1 == 2)) i fs, t) := by
  induction fs generalizing bs i with
  | nil => simp only [RowsEnc] at h; subst h; rfl
  | cons f fs ih =>
    obtain ⟨a, b, ha, hb, rfl⟩ := h
    have hp : fmt.any (·.1 == 1) = true := by
      obtain ⟨c, hc, h1⟩ := hfmt.path
      exact List.any_eq_true.2 ⟨c, hc, by simpa using h1⟩
    have hd := hfs f List.mem_cons_self
    simp only [List.length_cons, files5]
    rw [List.append_assoc, fileRow_ok hoff fmt (fun c hc => (hfmt.types c hc).1) ha _ (by simp [ht]), ok_bind]
    simp only [hp, if_true]
    rw [ih (fun x hx => hfs x (List.mem_cons_of_mem _ hx)) hb, ok_bind]
    simp only [fileEvs5]
    congr 4
    split
    · rw [Nat.mod_eq_of_lt hd]
    · rfl

theorem typesForms_ok (fmt : List (Nat × Nat)) (hfmt : ∀ c ∈ fmt, c.1 < 2 ^ 32 ∧ c.2 < 2 ^ 32)
    {bs : List Nat} (h : PairsEnc fmt bs) (t : List Nat) (ht : t ≠ []) :
    typesForms fmt.length (bs ++ t) = .ok (fmt, t) := by
  induction fmt generalizing bs with
  | nil => simp only [PairsEnc] at h; subst h; rfl
  | cons c fmt ih =>
    obtain ⟨ty, f⟩ := c
    obtain ⟨a, b, d, ha, hb, hd, rfl⟩ := h
    obtain ⟨h1, h2⟩ := hfmt (ty, f) List.mem_cons_self
    simp only [List.length_cons, typesForms, List.append_assoc]
    rw [uleb_ok ha _ (by simp [ht]), ok_bind]
    simp only
    rw [uleb_ok hb _ (by simp [ht]), ok_bind]
    simp only
    rw [ih (fun c hc => hfmt c (List.mem_cons_of_mem _ hc)) hd, ok_bind]
    simp only at h1 h2
    rw [Nat.mod_eq_of_lt h1, Nat.mod_eq_of_lt h2]

theorem formats_ok (fmt : List (Nat × Nat)) (types : List Nat) (hfmt : FmtOk fmt types) {a b : List Nat}
    (ha : IsU fmt.length a) (hb : PairsEnc fmt b) (t : List Nat) (ht : t ≠ []) :
    formats (a ++ (b ++ t)) = .ok (fmt, t) := by
  unfold formats
  have h1 := hfmt.len
  have h2 : 1 ≤ fmt.length := by
    obtain ⟨c, hc, _⟩ := hfmt.path
    exact List.length_pos_of_mem hc
  rw [uleb_ok ha _ (by simp [ht]), ok_bind]
  have hm : fmt.length % 2 ^ 32 = fmt.length := Nat.mod_eq_of_lt (by norm_num; omega)
  simp only [hm]
  rw [if_neg (by omega)]
  exact typesForms_ok fmt (fun c hc => (hfmt.types c hc).2) hb t ht

theorem tables5_ok {e : Endian} {off : Nat} (hoff : off = 4 ∨ off = 8) {st : Strs}
    (dfmt ffmt : List (Nat × Nat)) (hd : FmtOk dfmt [1]) (hf : FmtOk ffmt [1, 2]) (ds : List (List Nat))
    (fs : List (List Nat × Nat)) (hdl : ds.length < 2 ^ 32) (hfl : fs.length < 2 ^ 32)
    (hfd : ∀ f ∈ fs, f.2 < 2 ^ 32) {db fb : List Nat}
    (hdb : TableEnc e off st dfmt (ds.map fun d => (d, 0)) db) (hfb : TableEnc e off st ffmt fs fb)
    (t : List Nat) (ht : t ≠ []) :
    tables5 e off st (db ++ (fb ++ t)) = .ok (dirEvs 1 ds ++ fileEvs5 (ffmt.any (·.1 == 2)) 1 fs, t) := by
  obtain ⟨a, b, c, d, ha, hb, hc, hdd, rfl⟩ := hdb
  obtain ⟨a', b', c', d', ha', hb', hc', hdd', rfl⟩ := hfb
  rw [List.length_map] at hc
  have hne : dfmt ≠ [] := by
    obtain ⟨c, hc, _⟩ := hd.path
    exact List.ne_nil_of_mem hc
  unfold tables5
  simp only [List.append_assoc]
  rw [formats_ok dfmt _ hd ha hb _ (by simp [ht]), ok_bind]
  simp only
  rw [uleb_ok hc _ (by simp [ht]), ok_bind]
  simp only
  rw [Nat.mod_eq_of_lt hdl, dirs5_ok hoff dfmt (fun c hc => by simpa using (hd.types c hc).1) hne ds hdd _
    (by simp [ht]), ok_bind]
  simp only
  rw [formats_ok ffmt _ hf ha' hb' _ (by simp [ht]), ok_bind]
  simp only
  rw [uleb_ok hc' _ (by simp [ht]), ok_bind]
  simp only
  rw [Nat.mod_eq_of_lt hfl, files5_ok hoff ffmt hf fs hfd hdd' _ ht, ok_bind]

/-- **C58, a unit of DWARF 5**, for the entry formats the reader supports: every directory, file and row is
reported, in order; but the entries are numbered from 1, while the standard numbers them from 0 (which is
what is missing). -/
theorem unit5_decoded_partial (e : Endian) (w : Nat) (st : Strs) (u : Unit5) (hu : u.Ok w)
    (bs rest : List Nat) (henc : u.Enc e w st bs) (hne : u.prog ≠ [] ∨ rest ≠ []) :
    start e w st (bs ++ rest) = .ok (u.events e w, bs.length) := by
  obtain ⟨dirs, files, prog, body, hdirs, hfiles, hprog, hbody, hlen, rfl⟩ := henc
  have hok : (u.hdr e w).Ok :=
    { base := hu.base.1, base' := hu.base.2, range := hu.range, addr := hu.addr }
  have hpr : prog ++ rest ≠ [] := by
    rcases hne with h | h
    · cases hp : u.prog with
      | nil => exact absurd hp h
      | cons s p =>
        rw [hp] at hprog
        obtain ⟨a, b, ha, _, rfl⟩ := hprog
        have := seqEnc_pos hok s ha
        intro hh
        have := congrArg List.length hh
        simp only [List.length_append, List.length_nil] at this
        omega
    · simp [h]
  have hoff : u.offSize = 4 ∨ u.offSize = 8 := by unfold Unit5.offSize; cases u.dwarf64 <;> simp
  have hrest : body ++ rest = encodeFixed e 2 5 ++ (u.addressSize :: u.segmentSelectorSize ::
      (encodeFixed e u.offSize u.headerLength ++ (u.minInsn :: 1 ::
        u.isStmt :: u.lineBase :: u.lineRange :: u.opcodeBase ::
          (u.lens ++ (dirs ++ (files ++ (prog ++ rest))))))) := by
    rw [hbody]
    simp
  have hhdr : readHeader e w st (initialLength e u.dwarf64 body.length ++ (body ++ rest)) =
      .ok (u.hdr e w, dirEvs 1 u.dirs ++ fileEvs5 (u.fileFmt.any (·.1 == 2)) 1 u.files, body.length,
        u.offSize, prog ++ rest) := by
    unfold readHeader
    rw [readInitialLength_ok e _ _ hlen]
    simp only [orUndef, ok_bind]
    rw [advance_ok _ _ (by rw [hrest]; simp), ok_bind, if_neg (by simp only [List.length_append]; omega),
      if_neg (by have := hu.addr; omega), hrest,
      fixed_ok e 2 _ (by omega) (by norm_num) _ (by simp), ok_bind]
    simp only
    rw [if_neg (by omega)]
    have h5 : ∀ x y : Nat, ∀ t : List Nat, t ≠ [] → skipV5 5 (x :: y :: t) = .ok t := by
      intro x y t ht
      unfold skipV5
      rw [if_pos rfl, byte_ok _ _ (by simp), ok_bind]
      simp only
      rw [byte_ok _ _ ht, ok_bind]
    rw [h5 _ _ _ (by simp), ok_bind]
    have hoffe : u.offSize = (if u.dwarf64 = true then 8 else 4) := rfl
    rw [← hoffe, fixed_ok e _ _ (by omega) hu.headerLength _ (by simp), ok_bind]
    simp only
    rw [byte_ok _ _ (by simp), ok_bind]
    simp only
    have hm : ∀ t : List Nat, t ≠ [] → skipMaxOps 5 (1 :: t) = .ok t := by
      intro t ht
      unfold skipMaxOps
      rw [if_pos (by omega), byte_ok _ _ ht, ok_bind]
    rw [hm _ (by simp), ok_bind]
    rw [byte_ok _ _ (by simp), ok_bind]
    simp only
    rw [byte_ok _ _ (by simp), ok_bind]
    simp only
    rw [byte_ok _ _ (by simp), ok_bind]
    simp only
    rw [byte_ok _ _ (by simp [hpr]), ok_bind]
    simp only
    rw [← hu.lens, opLens_ok _ _ (by simp [hpr]), ok_bind]
    simp only
    unfold tables
    rw [if_pos rfl, tables5_ok hoff _ _ hu.dirFmt hu.fileFmt _ _ hu.dirs hu.files hu.fileDirs hdirs hfiles _ hpr,
      ok_bind]
    rfl
  unfold start
  rw [List.append_assoc, hhdr, ok_bind]
  simp only
  have hl : (initialLength e u.dwarf64 body.length).length = (if u.offSize = 8 then 12 else 4) := by
    unfold initialLength Unit5.offSize
    cases u.dwarf64 <;> simp [encodeFixed_len]
  have hp : prog.length ≤ body.length := by
    rw [hbody]
    simp only [List.length_append, List.length_cons]
    omega
  have hrem : (if u.offSize = 8 then 12 else 4) + body.length -
      ((initialLength e u.dwarf64 body.length ++ (body ++ rest)).length - (prog ++ rest).length) =
      prog.length := by
    simp only [List.length_append]
    omega
  rw [hrem, lines_decoded hok u.prog hprog rest]
  simp only [orUndef, ok_bind, Unit5.events, List.append_assoc, List.length_append, hl]

end Verif.DwarfLine

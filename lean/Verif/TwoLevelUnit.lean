import Verif.TwoLevelProg

/-! # C98: units with two-level line tables, from the bytes of `.debug_line` to the stacks of addresses

`ReadHeader`, `ReadLines` and `Start` of class `LineInfo` (util/symbolize/dwarf2reader.cc) for version 0xf006, and the loop over
`.debug_line` of legacy_addr2line.cc. -/
namespace Verif.TwoLevelUnit
open Verif.ByteReader Verif.DwarfLine Verif.TwoLevelProg
open Verif.TwoLevel (Log Call AMap LUnit Body Frame Reports Ans handleUnit dirCalls fileCalls subCalls)

/-- One row of the subprogram table (dwarf2reader.cc:1824-1851). -/
def subRow (e : Endian) (off : Nat) (st : Strs) :
    List (Nat × Nat) → Option (List Nat) → Nat → Nat → List Nat → Except Err (Option (List Nat) × Nat × Nat × List Nat)
  | [], name, f, l, bs => .ok (name, f, l, bs)
  | (t, fm) :: cols, name, f, l, bs =>
    if t = 6 then do
      let (s, bs) ← stringForm e off st fm bs
      subRow e off st cols (some s) f l bs
    else if t = 7 then do
      let (f, bs) ← unsignedForm e fm bs
      subRow e off st cols name f l bs
    else if t = 8 then do
      let (l, bs) ← unsignedForm e fm bs
      subRow e off st cols name f l bs
    else .error .malformed

/-- The subprogram table (dwarf2reader.cc:1823-1853): `n` rows, numbered from `i`. -/
def subs2 (e : Endian) (off : Nat) (st : Strs) (fmt : List (Nat × Nat)) : Nat → Nat → List Nat → Except Err (List Call × List Nat)
  | 0, _, bs => .ok ([], bs)
  | n + 1, i, bs => do
    let (name, f, l, bs) ← subRow e off st fmt none 0 0 bs
    match name with
    | none => .error .malformed
    | some name => do
      let (cs, bs) ← subs2 e off st fmt n (i + 1) bs
      .ok (.subprog name i (f % 2 ^ 32) (l % 2 ^ 32) :: cs, bs)

/-- The three tables (dwarf2reader.cc:1722-1854); the first two as in version 5. -/
def tables2 (e : Endian) (off : Nat) (st : Strs) (bs : List Nat) : Except Err (List Call × List Nat) := do
  let (evs, bs) ← tables5 e off st bs
  let (fmt, bs) ← formats bs
  let (n, bs) ← uleb bs
  let (ss, bs) ← subs2 e off st fmt (n % 2 ^ 32) 1 bs
  .ok (evs.flatMap callOf ++ ss, bs)

/-- `ReadHeader` (dwarf2reader.cc:1462-1858) for version 0xf006: the header, the handler calls, the unit length, the offset size, the offsets
of the two tables, and the bytes from `end_of_prologue_length` and from `after_header_` on.  Other versions are those of `DwarfLine.readHeader`. -/
def readHeader2 (e : Endian) (w : Nat) (st : Strs) (buf : List Nat) :
    Except Err (Hdr × List Call × Nat × Nat × Nat × Nat × List Nat × List Nat) := do
  let (unitLen, n, offSize) ← orUndef (readInitialLength e buf)
  let bs ← advance n buf
  if buf.length < n + unitLen then .error .malformed else
  if w = 0 then .error .malformed else do
  let (version, bs) ← fixed e 2 bs
  if version ≠ 0xf006 then .error .malformed else do
  let (_, bs0) ← fixed e offSize bs
  let (minInsn, bs) ← byte bs0
  let (_, bs) ← byte bs
  let (isStmt, bs) ← byte bs
  let (lineBase, bs) ← byte bs
  let (lineRange, bs) ← byte bs
  let (opcodeBase, bs) ← byte bs
  let (lens, bs) ← opLens (opcodeBase - 1) bs
  let bs ← advance 7 bs
  let (lo, bs) ← fixed e offSize bs
  let (ao, bs) ← fixed e offSize bs
  let (calls, bs) ← tables2 e offSize st bs
  .ok ({ endian := e, addrSize := w, minInsn := minInsn, defaultIsStmt := isStmt != 0,
         lineBase := int8 lineBase, lineRange := lineRange, opcodeBase := opcodeBase,
         stdLens := 0 :: lens ++ [0] }, calls, unitLen, offSize, lo, ao, bs0, bs)

/-- `LineInfo::Start` (dwarf2reader.cc:1288-1299, 2079-2175): the logical rows, the handler calls and the value returned.  Without an actuals
table a normal line program follows the header. -/
def start2 (e : Endian) (w : Nat) (st : Strs) (buf : List Nat) : Except Err ((List Log × List Call) × Nat) := do
  let (h, calls, unitLen, offSize, lo, ao, bs0, bs) ← readHeader2 e w st buf
  let total := (if offSize = 8 then 12 else 4) + unitLen
  if ao = 0 then do
    let rows ← orUndef (readLines h (total - (buf.length - bs.length)) bs)
    .ok (([], calls ++ rows.flatMap callOf), total)
  else do
    let r ← orUndef (readTwoLevel h (ao - lo) (total - (buf.length - bs0.length + ao)) (bs0.drop lo) (bs0.drop ao))
    .ok ((r.1, calls ++ r.2), total)

/-- The loop over `.debug_line` without `.debug_info` (legacy_addr2line.cc:161-181), for two-level units; a malformed unit is not modelled. -/
def readSection2 (e : Endian) (w : Nat) (st : Strs) (vaddr : Nat) (sm : Option (OMap Nat Nat)) : Nat → List Nat → AMap → Option AMap
  | 0, _, _ => none
  | fuel + 1, buf, m =>
    if buf.isEmpty then some m
    else
      match start2 e w st buf with
      | .error _ => none
      | .ok r => (handleUnit vaddr sm m r.1).bind fun m => readSection2 e w st vaddr sm fuel (buf.drop r.2) m

/-! ## Specification -/

/-- A row of the subprogram table: the columns in turn (6: name, 7: file, 8: line). -/
def SubRowEnc (e : Endian) (off : Nat) (st : Strs) (s : List Nat × Nat × Nat) : List (Nat × Nat) → List Nat → Prop
  | [], bs => bs = []
  | (t, f) :: cols, bs => ∃ a b, SubRowEnc e off st s cols b ∧ bs = a ++ b ∧
      ((t = 6 ∧ StrEnc e off st f s.1 a) ∨ (t = 7 ∧ NumEnc e f s.2.1 a) ∨ (t = 8 ∧ NumEnc e f s.2.2 a))

/-- All rows. -/
def SubRowsEnc (e : Endian) (off : Nat) (st : Strs) (fmt : List (Nat × Nat)) : List (List Nat × Nat × Nat) → List Nat → Prop
  | [], bs => bs = []
  | r :: rs, bs => ∃ a b, SubRowEnc e off st r fmt a ∧ SubRowsEnc e off st fmt rs b ∧ bs = a ++ b

/-- The subprogram table: its format, the number of its entries, its entries. -/
def SubTableEnc (e : Endian) (off : Nat) (st : Strs) (fmt : List (Nat × Nat)) (rows : List (List Nat × Nat × Nat)) (bs : List Nat) : Prop :=
  ∃ a b c d, IsU fmt.length a ∧ PairsEnc fmt b ∧ IsU rows.length c ∧ SubRowsEnc e off st fmt rows d ∧ bs = a ++ (b ++ (c ++ d))

/-- A unit. -/
structure Unit2 where
  dwarf64 : Bool
  headerLength : Nat
  minInsn : Nat
  maxOps : Nat
  isStmt : Nat
  lineBase : Nat
  lineRange : Nat
  opcodeBase : Nat
  lens : List Nat
  fake : List Nat
  dirFmt : List (Nat × Nat)
  dirs : List (List Nat)
  fileFmt : List (Nat × Nat)
  files : List (List Nat × Nat)
  subFmt : List (Nat × Nat)
  subs : List (List Nat × Nat × Nat)
  gap : List Nat
  lprog : List LInstr
  aprog : List (List AInstr)

def Unit2.offSize (u : Unit2) : Nat := if u.dwarf64 then 8 else 4

/-- The header as the line programs see it. -/
def Unit2.hdr (e : Endian) (w : Nat) (u : Unit2) : Hdr :=
  { endian := e, addrSize := w, minInsn := u.minInsn, defaultIsStmt := u.isStmt != 0,
    lineBase := int8 u.lineBase, lineRange := u.lineRange, opcodeBase := u.opcodeBase, stdLens := 0 :: u.lens ++ [0] }

/-- Encoding: the offsets of the tables count from the end of the header length. -/
def Unit2.Enc (e : Endian) (w : Nat) (st : Strs) (u : Unit2) (bs : List Nat) : Prop :=
  ∃ dirs files subs lbs abs pre body, TableEnc e u.offSize st u.dirFmt (u.dirs.map fun d => (d, 0)) dirs ∧
    TableEnc e u.offSize st u.fileFmt u.files files ∧ SubTableEnc e u.offSize st u.subFmt u.subs subs ∧
    LProgEnc (u.hdr e w) u.lprog lbs ∧ AProgEnc (u.hdr e w) u.aprog abs ∧
    pre.length + lbs.length < 256 ^ u.offSize ∧
    pre = u.minInsn :: u.maxOps :: u.isStmt :: u.lineBase :: u.lineRange :: u.opcodeBase ::
      (u.lens ++ (u.fake ++ (encodeFixed e u.offSize pre.length ++ (encodeFixed e u.offSize (pre.length + lbs.length) ++
        (dirs ++ (files ++ (subs ++ u.gap))))))) ∧
    body = encodeFixed e 2 0xf006 ++ (encodeFixed e u.offSize u.headerLength ++ (pre ++ (lbs ++ abs))) ∧
    body.length < (if u.dwarf64 then 2 ^ 64 else 0xffffffff) ∧
    bs = initialLength e u.dwarf64 body.length ++ body

/-- What the unit says: its tables (a column that is missing is 0), its logical rows and its actual rows. -/
def Unit2.lunit (u : Unit2) (rows : List LRow) (acts : List (Nat × Nat × Bool)) : LUnit :=
  ⟨u.dirs, u.files.map fun f => (if u.fileFmt.any (·.1 == 2) then f.2 else 0, f.1),
    u.subs.map fun s => (s.1, if u.subFmt.any (·.1 == 7) then s.2.1 else 0, if u.subFmt.any (·.1 == 8) then s.2.2 else 0),
    .twoLevel (rows.map LRow.narrow) acts⟩

/-- Well-formed units, with `rows` and `acts` the meaning of their programs. -/
structure Unit2.Ok (u : Unit2) (e : Endian) (w : Nat) (rows : List LRow) (acts : List (Nat × Nat × Bool)) : Prop where
  headerLength : u.headerLength < 256 ^ u.offSize
  base : 1 ≤ u.opcodeBase ∧ u.opcodeBase ≤ 255
  range : 0 < u.lineRange
  lens : u.lens.length = u.opcodeBase - 1
  fake : u.fake.length = 7
  addr : w = 4 ∨ w = 8
  dirFmt : FmtOk u.dirFmt [1]
  fileFmt : FmtOk u.fileFmt [1, 2]
  subFmt : u.subFmt.length ≤ 4 ∧ (∃ c ∈ u.subFmt, c.1 = 6) ∧ (∃ c ∈ u.subFmt, c.1 = 7) ∧ ∀ c ∈ u.subFmt, c.1 < 2 ^ 32 ∧ c.2 < 2 ^ 32
  dirs : u.dirs.length < 2 ^ 32
  files : u.files.length < 2 ^ 32
  subs : u.subs.length < 2 ^ 32
  fileDirs : ∀ f ∈ u.files, f.2 ≤ u.dirs.length
  subFiles : ∀ s ∈ u.subs, 1 ≤ s.2.1 ∧ s.2.1 ≤ u.files.length ∧ s.2.2 < 2 ^ 32
  logicals : logMeaning (u.hdr e w) u.lprog [] LRow.init = some rows
  count : rows.length < 2 ^ 31
  rowFiles : ∀ r ∈ rows, 1 ≤ r.regs.file ∧ r.regs.file ≤ u.files.length ∧ r.sub ≤ u.subs.length
  actuals : actMeaning (u.hdr e w) rows u.aprog = some acts
  some : u.aprog ≠ []

/-! ## Proofs -/

theorem ok_sub6 (s : List Nat × Nat × Nat) (n0 : Option (List Nat)) (f0 l0 : Nat) (t : List Nat) (p q r : Bool) :
    (Except.ok (if p = true then some s.1 else some s.1, if q = true then s.2.1 else f0, if r = true then s.2.2 else l0, t) : Except Err _) =
      .ok (if ((6 : Nat) == 6 || p) = true then some s.1 else n0, if ((6 : Nat) == 7 || q) = true then s.2.1 else f0,
        if ((6 : Nat) == 8 || r) = true then s.2.2 else l0, t) := by
  cases p <;> cases q <;> cases r <;> rfl

theorem ok_sub7 (s : List Nat × Nat × Nat) (n0 : Option (List Nat)) (f0 l0 : Nat) (t : List Nat) (p q r : Bool) :
    (Except.ok (if p = true then some s.1 else n0, if q = true then s.2.1 else s.2.1, if r = true then s.2.2 else l0, t) : Except Err _) =
      .ok (if ((7 : Nat) == 6 || p) = true then some s.1 else n0, if ((7 : Nat) == 7 || q) = true then s.2.1 else f0,
        if ((7 : Nat) == 8 || r) = true then s.2.2 else l0, t) := by
  cases p <;> cases q <;> cases r <;> rfl

theorem ok_sub8 (s : List Nat × Nat × Nat) (n0 : Option (List Nat)) (f0 l0 : Nat) (t : List Nat) (p q r : Bool) :
    (Except.ok (if p = true then some s.1 else n0, if q = true then s.2.1 else f0, if r = true then s.2.2 else s.2.2, t) : Except Err _) =
      .ok (if ((8 : Nat) == 6 || p) = true then some s.1 else n0, if ((8 : Nat) == 7 || q) = true then s.2.1 else f0,
        if ((8 : Nat) == 8 || r) = true then s.2.2 else l0, t) := by
  cases p <;> cases q <;> cases r <;> rfl

theorem subRow_ok {e : Endian} {off : Nat} (hoff : off = 4 ∨ off = 8) {st : Strs} {s : List Nat × Nat × Nat} (fmt : List (Nat × Nat))
    {bs : List Nat} (h : SubRowEnc e off st s fmt bs) (t : List Nat) (ht : t ≠ []) : ∀ (n0 : Option (List Nat)) (f0 l0 : Nat),
    subRow e off st fmt n0 f0 l0 (bs ++ t) =
      .ok (if fmt.any (·.1 == 6) then some s.1 else n0, if fmt.any (·.1 == 7) then s.2.1 else f0, if fmt.any (·.1 == 8) then s.2.2 else l0, t) := by
  induction fmt generalizing bs with
  | nil => intro n0 f0 l0; simp only [SubRowEnc] at h; subst h; rfl
  | cons c fmt ih =>
    intro n0 f0 l0
    obtain ⟨ty, f⟩ := c
    obtain ⟨a, b, hb, rfl, hc⟩ := h
    have ih' := ih hb
    simp only [subRow]
    rcases hc with ⟨rfl, ha⟩ | ⟨rfl, ha⟩ | ⟨rfl, ha⟩
    · rw [if_pos rfl, List.append_assoc, stringForm_ok hoff ha _ (by simp [ht]), ok_bind]
      simp only
      rw [ih']
      simp only [List.any_cons]
      exact ok_sub6 s n0 f0 l0 t _ _ _
    · rw [if_neg (by omega), if_pos rfl, List.append_assoc, unsignedForm_ok ha _ (by simp [ht]), ok_bind]
      simp only
      rw [ih']
      simp only [List.any_cons]
      exact ok_sub7 s n0 f0 l0 t _ _ _
    · rw [if_neg (by omega), if_neg (by omega), if_pos rfl, List.append_assoc, unsignedForm_ok ha _ (by simp [ht]), ok_bind]
      simp only
      rw [ih']
      simp only [List.any_cons]
      exact ok_sub8 s n0 f0 l0 t _ _ _

theorem subs2_ok {e : Endian} {off : Nat} (hoff : off = 4 ∨ off = 8) {st : Strs} (fmt : List (Nat × Nat)) (hn : ∃ c ∈ fmt, c.1 = 6)
    (ss : List (List Nat × Nat × Nat)) (hss : ∀ s ∈ ss, s.2.1 < 2 ^ 32 ∧ s.2.2 < 2 ^ 32) : ∀ {bs : List Nat}, SubRowsEnc e off st fmt ss bs →
    ∀ (t : List Nat), t ≠ [] → ∀ (i : Nat), subs2 e off st fmt ss.length i (bs ++ t) =
      .ok (subCalls i (ss.map fun s => (s.1, if fmt.any (·.1 == 7) then s.2.1 else 0, if fmt.any (·.1 == 8) then s.2.2 else 0)), t) := by
  have hp : fmt.any (·.1 == 6) = true := by
    obtain ⟨c, hc, h1⟩ := hn
    exact List.any_eq_true.2 ⟨c, hc, by simpa using h1⟩
  induction ss with
  | nil => intro bs h t ht i; simp only [SubRowsEnc] at h; subst h; rfl
  | cons s ss ih =>
    intro bs h t ht i
    obtain ⟨a, b, ha, hb, rfl⟩ := h
    obtain ⟨h1, h2⟩ := hss s List.mem_cons_self
    simp only [List.length_cons, subs2]
    rw [List.append_assoc, subRow_ok hoff fmt ha _ (by simp [ht]), ok_bind]
    simp only [hp, if_true]
    rw [ih (fun x hx => hss x (List.mem_cons_of_mem _ hx)) hb t ht, ok_bind]
    simp only [List.map_cons, subCalls]
    have e1 : ∀ (p : Bool) (v : Nat), v < 2 ^ 32 → (if p = true then v else 0) % 2 ^ 32 = if p = true then v else 0 := by
      intro p v hv
      cases p
      · rfl
      · exact Nat.mod_eq_of_lt hv
    rw [e1 _ _ h1, e1 _ _ h2]

theorem formats_ok2 (fmt : List (Nat × Nat)) (h1 : 1 ≤ fmt.length) (h2 : fmt.length ≤ 4) (hfmt : ∀ c ∈ fmt, c.1 < 2 ^ 32 ∧ c.2 < 2 ^ 32)
    {a b : List Nat} (ha : IsU fmt.length a) (hb : PairsEnc fmt b) (t : List Nat) (ht : t ≠ []) : formats (a ++ (b ++ t)) = .ok (fmt, t) := by
  unfold formats
  rw [uleb_ok ha _ (by simp [ht]), ok_bind]
  have hm : fmt.length % 2 ^ 32 = fmt.length := Nat.mod_eq_of_lt (by norm_num; omega)
  simp only [hm]
  rw [if_neg (by omega)]
  exact typesForms_ok fmt hfmt hb t ht

theorem dirEvs_calls (ds : List (List Nat)) : ∀ i, (dirEvs i ds).flatMap callOf = dirCalls i ds := by
  induction ds with
  | nil => intro i; rfl
  | cons d ds ih => intro i; simp [dirEvs, dirCalls, callOf, ih]

theorem fileEvs_calls (p : Bool) (fs : List (List Nat × Nat)) : ∀ i,
    (fileEvs5 p i fs).flatMap callOf = fileCalls i (fs.map fun f => (if p then f.2 else 0, f.1)) := by
  induction fs with
  | nil => intro i; rfl
  | cons d ds ih => intro i; simp [fileEvs5, fileCalls, callOf, ih]

theorem tables2_ok {e : Endian} {off : Nat} (hoff : off = 4 ∨ off = 8) {st : Strs} {w : Nat} {u : Unit2} {rows : List LRow}
    {acts : List (Nat × Nat × Bool)} (hu : u.Ok e w rows acts) {db fb sb : List Nat}
    (hdb : TableEnc e off st u.dirFmt (u.dirs.map fun d => (d, 0)) db) (hfb : TableEnc e off st u.fileFmt u.files fb)
    (hsb : SubTableEnc e off st u.subFmt u.subs sb) (t : List Nat) (ht : t ≠ []) :
    tables2 e off st (db ++ (fb ++ (sb ++ t))) =
      .ok (dirCalls 1 (u.lunit rows acts).dirs ++ fileCalls 1 (u.lunit rows acts).files ++ subCalls 1 (u.lunit rows acts).subs, t) := by
  obtain ⟨a, b, c, d, ha, hb, hc, hd, rfl⟩ := hsb
  have hfl : u.files.length < 2 ^ 32 := hu.files
  unfold tables2
  rw [tables5_ok hoff _ _ hu.dirFmt hu.fileFmt _ _ hu.dirs hu.files (fun f hf => lt_of_le_of_lt (hu.fileDirs f hf) hu.dirs) hdb hfb _ (by simp [ht]), ok_bind]
  simp only
  have h1 : 1 ≤ u.subFmt.length := by
    obtain ⟨c, hc, _⟩ := hu.subFmt.2.1
    exact List.length_pos_of_mem hc
  simp only [List.append_assoc]
  rw [formats_ok2 _ h1 hu.subFmt.1 hu.subFmt.2.2.2 ha hb _ (by simp [ht]), ok_bind]
  simp only
  rw [uleb_ok hc _ (by simp [ht]), ok_bind]
  simp only
  rw [Nat.mod_eq_of_lt hu.subs, subs2_ok hoff _ hu.subFmt.2.1 _ (fun s hs => by
    obtain ⟨p1, p2, p3⟩ := hu.subFiles s hs
    exact ⟨lt_of_le_of_lt p2 hfl, p3⟩) hd _ ht, ok_bind]
  simp only [Unit2.lunit, List.flatMap_append, dirEvs_calls, fileEvs_calls, List.append_assoc]

theorem hdr_ok {e : Endian} {w : Nat} {u : Unit2} {rows : List LRow} {acts : List (Nat × Nat × Bool)} (hu : u.Ok e w rows acts) : (u.hdr e w).Ok :=
  { base := hu.base.1, base' := hu.base.2, range := hu.range, addr := hu.addr }

theorem aprogEnc_ne {h : Hdr} {p : List (List AInstr)} {bs : List Nat} (henc : AProgEnc h p bs) (hp : p ≠ []) : bs ≠ [] := by
  cases p with
  | nil => exact absurd rfl hp
  | cons s p =>
    obtain ⟨a, b, ha, _, rfl⟩ := henc
    have := aseqEnc_pos s ha
    intro hh
    have := congrArg List.length hh
    simp only [List.length_append, List.length_nil] at this
    omega

/-- **C98, a unit.** Every encoding of a well-formed unit is read as its tables, its logical rows and its actual rows; the value returned is
its length. -/
theorem unit_decoded (e : Endian) (w : Nat) (st : Strs) (u : Unit2) {rows : List LRow} {acts : List (Nat × Nat × Bool)} (hu : u.Ok e w rows acts)
    (bs rest : List Nat) (henc : u.Enc e w st bs) : start2 e w st (bs ++ rest) = .ok ((u.lunit rows acts).calls, bs.length) := by
  obtain ⟨dirs, files, subs, lbs, abs, pre, body, hdirs, hfiles, hsubs, hl, ha, hao, hpre, hbody, hlen, rfl⟩ := henc
  have hok := hdr_ok hu
  have habs := aprogEnc_ne ha hu.some
  have hoff : u.offSize = 4 ∨ u.offSize = 8 := by unfold Unit2.offSize; cases u.dwarf64 <;> simp
  have hprel : 0 < pre.length := by rw [hpre]; simp
  have hrest : body ++ rest = encodeFixed e 2 0xf006 ++ (encodeFixed e u.offSize u.headerLength ++ (pre ++ (lbs ++ (abs ++ rest)))) := by
    rw [hbody]; simp
  have hpre' : pre ++ (lbs ++ (abs ++ rest)) = u.minInsn :: u.maxOps :: u.isStmt :: u.lineBase :: u.lineRange :: u.opcodeBase ::
      (u.lens ++ (u.fake ++ (encodeFixed e u.offSize pre.length ++ (encodeFixed e u.offSize (pre.length + lbs.length) ++
        (dirs ++ (files ++ (subs ++ (u.gap ++ (lbs ++ (abs ++ rest)))))))))) := by
    conv_lhs => rw [hpre]
    simp
  have htail : u.gap ++ (lbs ++ (abs ++ rest)) ≠ [] := by simp [habs]
  have hhdr : readHeader2 e w st (initialLength e u.dwarf64 body.length ++ (body ++ rest)) =
      .ok (u.hdr e w, dirCalls 1 (u.lunit rows acts).dirs ++ fileCalls 1 (u.lunit rows acts).files ++ subCalls 1 (u.lunit rows acts).subs, body.length,
        u.offSize, pre.length, pre.length + lbs.length, pre ++ (lbs ++ (abs ++ rest)), u.gap ++ (lbs ++ (abs ++ rest))) := by
    unfold readHeader2
    rw [readInitialLength_ok e _ _ hlen]
    simp only [orUndef, ok_bind]
    rw [advance_ok _ _ (by rw [hrest]; simp [habs]), ok_bind, if_neg (by simp only [List.length_append]; omega),
      if_neg (by have := hu.addr; omega), hrest,
      fixed_ok e 2 _ (by omega) (by norm_num) _ (by simp [habs]), ok_bind]
    simp only
    rw [if_neg (by simp)]
    have hoffe : u.offSize = (if u.dwarf64 = true then 8 else 4) := rfl
    rw [← hoffe, fixed_ok e _ _ (by omega) hu.headerLength _ (by simp [habs]), ok_bind]
    simp only
    rw [hpre']
    rw [byte_ok _ _ (by simp), ok_bind]
    simp only
    rw [byte_ok _ _ (by simp), ok_bind]
    simp only
    rw [byte_ok _ _ (by simp), ok_bind]
    simp only
    rw [byte_ok _ _ (by simp), ok_bind]
    simp only
    rw [byte_ok _ _ (by simp), ok_bind]
    simp only
    rw [byte_ok _ _ (by simp [habs]), ok_bind]
    simp only
    rw [← hu.lens, opLens_ok _ _ (by simp [habs]), ok_bind]
    simp only
    rw [← hu.fake, advance_ok _ _ (by simp [habs]), ok_bind]
    rw [fixed_ok e _ _ (by omega) (by omega) _ (by simp [habs]), ok_bind]
    simp only
    rw [fixed_ok e _ _ (by omega) hao _ (by simp [habs]), ok_bind]
    simp only
    rw [tables2_ok hoff hu hdirs hfiles hsubs _ htail, ok_bind]
    rfl
  unfold start2
  rw [List.append_assoc, hhdr, ok_bind]
  simp only
  have hli : (initialLength e u.dwarf64 body.length).length = (if u.offSize = 8 then 12 else 4) := by
    unfold initialLength Unit2.offSize
    cases u.dwarf64 <;> simp [encodeFixed_len]
  have hb : body.length = 2 + u.offSize + pre.length + lbs.length + abs.length := by
    rw [hbody]
    simp only [List.length_append, encodeFixed_len]
    omega
  have hrem : (if u.offSize = 8 then 12 else 4) + body.length - ((initialLength e u.dwarf64 body.length ++ (body ++ rest)).length -
      (pre ++ (lbs ++ (abs ++ rest))).length + (pre.length + lbs.length)) = abs.length := by
    rw [List.length_append, List.length_append, hli, hb]
    simp only [List.length_append]
    omega
  rw [if_neg (by omega), hrem, Nat.add_sub_cancel_left, List.drop_left, show pre ++ (lbs ++ (abs ++ rest)) = (pre ++ lbs) ++ (abs ++ rest) by simp,
    show pre.length + lbs.length = (pre ++ lbs).length by simp, List.drop_left,
    (programs_decoded hok u.lprog u.aprog hl ha hu.logicals (lt_trans hu.count (by norm_num)) hu.actuals (abs ++ rest) rest).1]
  simp only [orUndef, ok_bind, LUnit.calls, LUnit.logs, Unit2.lunit, List.append_assoc, List.length_append, hli]

theorem actRow_range {rows : List LRow} {r : Regs} {e : Bool} {x : Nat × Nat × Bool} (h : actRow rows r e = some x) :
    1 ≤ x.2.1 ∧ x.2.1 ≤ rows.length := by
  unfold actRow at h
  split at h
  · simp only [Option.some.injEq] at h
    subst h
    simp only
    omega
  · cases h

theorem mapM_range {rows : List LRow} (l : List Regs) : ∀ {acts : List (Nat × Nat × Bool)}, (l.mapM fun x => actRow rows x false) = some acts →
    ∀ a ∈ acts, 1 ≤ a.2.1 ∧ a.2.1 ≤ rows.length := by
  induction l with
  | nil => intro acts h a ha; simp only [List.mapM_nil, Option.pure_def, Option.some.injEq] at h; subst h; cases ha
  | cons r l ih =>
    intro acts h a ha
    simp only [List.mapM_cons, Option.pure_def, Option.bind_eq_bind] at h
    obtain ⟨x, h1, h2⟩ := Option.bind_eq_some_iff.1 h
    obtain ⟨xs, h3, h4⟩ := Option.bind_eq_some_iff.1 h2
    simp only [Option.some.injEq] at h4
    subst h4
    rcases List.mem_cons.1 ha with rfl | ha
    · exact actRow_range h1
    · exact ih h3 a ha

theorem seq_range {h : Hdr} {rows : List LRow} (is : List AInstr) : ∀ {r : Regs} {acts : List (Nat × Nat × Bool)}, actSeq h rows is r = some acts →
    ∀ a ∈ acts, 1 ≤ a.2.1 ∧ a.2.1 ≤ rows.length := by
  induction is with
  | nil =>
    intro r acts h a ha
    obtain ⟨x, h1, rfl⟩ := Option.map_eq_some_iff.1 h
    rw [List.mem_singleton] at ha
    subst ha
    exact actRow_range h1
  | cons i is ih =>
    intro r acts hh a ha
    obtain ⟨x, h1, h2⟩ := Option.bind_eq_some_iff.1 hh
    obtain ⟨l, h3, rfl⟩ := Option.map_eq_some_iff.1 h2
    rcases List.mem_append.1 ha with ha | ha
    · cases i with
      | base i =>
        obtain ⟨l', h4, rfl⟩ := Option.map_eq_some_iff.1 h1
        exact mapM_range _ h4 a ha
      | setAddressFromLogical d =>
        simp only [AInstr.exec] at h1
        split at h1
        · obtain ⟨c, _, rfl⟩ := Option.map_eq_some_iff.1 h1
          cases ha
        · cases h1
    · exact ih h3 a ha

theorem act_range {h : Hdr} {rows : List LRow} {p : List (List AInstr)} {acts : List (Nat × Nat × Bool)} (hm : actMeaning h rows p = some acts) :
    ∀ a ∈ acts, 1 ≤ a.2.1 ∧ a.2.1 ≤ rows.length := by
  obtain ⟨ll, h1, rfl⟩ := Option.map_eq_some_iff.1 hm
  clear hm
  induction p generalizing ll with
  | nil => intro a ha; simp only [List.mapM_nil, Option.pure_def, Option.some.injEq] at h1; subst h1; simp at ha
  | cons q p ih =>
    intro a ha
    simp only [List.mapM_cons, Option.pure_def, Option.bind_eq_bind] at h1
    obtain ⟨x, h2, h3⟩ := Option.bind_eq_some_iff.1 h1
    obtain ⟨xs, h4, h5⟩ := Option.bind_eq_some_iff.1 h3
    simp only [Option.some.injEq] at h5
    subst h5
    rw [List.flatten_cons] at ha
    rcases List.mem_append.1 ha with ha | ha
    · exact seq_range q h2 a ha
    · exact ih xs h4 a ha

theorem lunit_ok {e : Endian} {w : Nat} {st : Strs} {u : Unit2} {rows : List LRow} {acts : List (Nat × Nat × Bool)} (hu : u.Ok e w rows acts)
    {bs : List Nat} (henc : u.Enc e w st bs) : (u.lunit rows acts).Ok := by
  obtain ⟨dirs, files, subs, lbs, abs, pre, body, hdirs, hfiles, hsubs, hl, ha, hao, hpre, hbody, hlen, rfl⟩ := henc
  have hctx := (programs_decoded (hdr_ok hu) u.lprog u.aprog hl ha hu.logicals (lt_trans hu.count (by norm_num)) hu.actuals [] []).2
  have hfl : u.files.length < 2 ^ 32 := hu.files
  have hsl : u.subs.length < 2 ^ 32 := hu.subs
  refine ⟨?_, ?_, ?_, ?_, ?_⟩
  · intro f hf
    obtain ⟨x, hx, rfl⟩ := List.mem_map.1 hf
    have := hu.fileDirs x hx
    simp only [Unit2.lunit]
    split <;> omega
  · intro s hs
    obtain ⟨x, hx, rfl⟩ := List.mem_map.1 hs
    have hf := hu.subFiles x hx
    have h7 : u.subFmt.any (·.1 == 7) = true := by
      obtain ⟨c, hc, h1⟩ := hu.subFmt.2.2.1
      exact List.any_eq_true.2 ⟨c, hc, by simpa using h1⟩
    simp only [Unit2.lunit, h7, if_true, List.length_map]
    exact ⟨hf.1, hf.2.1⟩
  · intro rows' h
    simp [Unit2.lunit] at h
  · intro i l hl
    simp only [LUnit.logs, Unit2.lunit, List.getElem?_map] at hl
    obtain ⟨r, hr, rfl⟩ := Option.map_eq_some_iff.1 hl
    obtain ⟨h1, h2, h3⟩ := hu.rowFiles r (List.mem_of_getElem? hr)
    simp only [LRow.narrow, Unit2.lunit, List.length_map]
    rw [Nat.mod_eq_of_lt (lt_of_le_of_lt h2 hfl), Nat.mod_eq_of_lt (lt_of_le_of_lt h3 hsl)]
    exact ⟨h1, h2, hctx i r hr, h3⟩
  · intro logs acts' h a hmem _
    simp only [Unit2.lunit, Body.twoLevel.injEq] at h
    obtain ⟨rfl, rfl⟩ := h
    rw [List.length_map]
    exact act_range hu.actuals a hmem

/-- A unit with the meaning of its programs and its bytes. -/
structure Item where
  u : Unit2
  rows : List LRow
  acts : List (Nat × Nat × Bool)
  bytes : List Nat

theorem unit_pos {e : Endian} {w : Nat} {st : Strs} {u : Unit2} {bs : List Nat} (henc : u.Enc e w st bs) : bs ≠ [] := by
  obtain ⟨dirs, files, subs, lbs, abs, pre, body, hdirs, hfiles, hsubs, hl, ha, hao, hpre, hbody, hlen, rfl⟩ := henc
  intro h
  have := congrArg List.length h
  rw [hbody] at this
  simp only [List.length_append, encodeFixed_len, List.length_nil] at this
  omega

theorem forall₂_of_map {α β γ : Type} {R : β → γ → Prop} (f : α → β) {l : List α} {l' : List γ} (h : List.Forall₂ R (l.map f) l') :
    List.Forall₂ (fun a => R (f a)) l l' := by
  induction l generalizing l' with
  | nil => cases h; exact .nil
  | cons a l ih => cases h with | cons h1 h2 => exact .cons h1 (ih h2)

/-- **C98.** For every `.debug_line` section made of well-formed two-level units: reading it succeeds, and looking up an address in the map
gives the stack that the last row at the greatest row address not above it describes. -/
theorem section_stacks (e : Endian) (w : Nat) (st : Strs) (vaddr : Nat) (sm : Option (OMap Nat Nat)) (us : List Item)
    (hu : ∀ x ∈ us, x.u.Ok e w x.rows x.acts ∧ x.u.Enc e w st x.bytes) :
    ∃ m accs, readSection2 e w st vaddr sm ((us.flatMap (·.bytes)).length + 1) (us.flatMap (·.bytes)) AMap.new = some m ∧
      List.Forall₂ (fun (x : Item) acc => (x.u.lunit x.rows x.acts).Says (LineMap.shouldAdd vaddr sm) acc) us accs ∧
      ∀ a, ∃ r, m.lookup a = some r ∧ Ans accs.flatten a r := by
  have key : ∀ (us : List Item), (∀ x ∈ us, x.u.Ok e w x.rows x.acts ∧ x.u.Enc e w st x.bytes) → ∀ (m : AMap) (fuel : Nat),
      (us.flatMap (·.bytes)).length < fuel → readSection2 e w st vaddr sm fuel (us.flatMap (·.bytes)) m =
        (us.map fun x => (x.u.lunit x.rows x.acts).calls).foldlM (handleUnit vaddr sm) m := by
    intro us
    induction us with
    | nil =>
      intro _ m fuel hf
      match fuel, hf with
      | fuel + 1, _ => rfl
    | cons x us ih =>
      intro hu m fuel hf
      obtain ⟨hok, henc⟩ := hu x List.mem_cons_self
      match fuel, hf with
      | fuel + 1, hf =>
        have hne := unit_pos henc
        have hpos := List.length_pos_iff.2 hne
        simp only [List.flatMap_cons, readSection2, List.map_cons, List.foldlM_cons] at hf ⊢
        rw [if_neg (by simp [hne]), unit_decoded e w st x.u hok x.bytes _ henc]
        simp only [List.drop_left, Option.bind_eq_bind]
        congr 1
        funext m'
        exact ih (fun y hy => hu y (List.mem_cons_of_mem _ hy)) m' fuel (by simp only [List.length_append] at hf; omega)
  have hu' : ∀ x ∈ us.map (fun x => x.u.lunit x.rows x.acts), x.Ok := by
    intro x hx
    obtain ⟨y, hy, rfl⟩ := List.mem_map.1 hx
    exact lunit_ok (hu y hy).1 (hu y hy).2
  obtain ⟨m, accs, h1, h2, h3⟩ := TwoLevel.two_level vaddr sm (us.map fun x => x.u.lunit x.rows x.acts) hu'
  refine ⟨m, accs, ?_, forall₂_of_map _ h2, h3⟩
  rw [key us hu AMap.new _ (by omega)]
  unfold TwoLevel.handleAll at h1
  rw [List.map_map] at h1
  exact h1

end Verif.TwoLevelUnit

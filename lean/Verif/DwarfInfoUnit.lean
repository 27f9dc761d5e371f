import Verif.DwarfInfoSpec

/-! # C62: abbreviations, unit headers and the section `.debug_info` -/
namespace Verif.DwarfInfo
open Verif.ByteReader
open Verif.DwarfLine (cstr IsU IsS encodeFixed_len encodeDigits_len initialLength readInitialLength_ok)

/-! ## Specification -/

/-- Encodings of the attribute specifications of an abbreviation (DWARF 5, 7.5.3), closed by a pair of zeros.
Constants in an abbreviation are restricted to natural numbers below 2^32. -/
def SpecsEnc : List Spec → List Nat → Prop
  | [], bs => ∃ z z', IsU 0 z ∧ IsU 0 z' ∧ bs = z ++ z'
  | sp :: sps, bs => ∃ a b c r, IsU sp.name a ∧ IsU sp.form b ∧ sp.name < 2 ^ 32 ∧ sp.form < 2 ^ 32 ∧
      sp.value < 2 ^ 32 ∧ ¬(sp.name = 0 ∧ sp.form = 0) ∧
      (if sp.form = 0x21 then IsS sp.value c else c = [] ∧ sp.value = 0) ∧ SpecsEnc sps r ∧
      bs = a ++ (b ++ (c ++ r))

/-- Encodings of abbreviations with the codes `n`, `n + 1` and so on, closed by a zero. -/
def AbbrevsEnc : List Abbrev → Nat → List Nat → Prop
  | [], _, bs => IsU 0 bs
  | a :: as, n, bs => ∃ c t ss r, IsU n c ∧ IsU a.tag t ∧ n < 2 ^ 32 ∧ a.tag < 2 ^ 32 ∧ SpecsEnc a.attrs ss ∧
      AbbrevsEnc as (n + 1) r ∧ bs = c ++ (t ++ (if a.children then 1 else 0) :: (ss ++ r))

/-- A unit: its format, version, unit type (1 compile, 4 skeleton, 5 split compile; version 5 only) and signature,
address size, position of its abbreviations, the abbreviations, its entries and padding. -/
structure IUnit where
  dwarf64 : Bool
  version : Nat
  unitType : Nat
  dwoId : Nat
  addrSize : Nat
  abbrevOff : Nat
  abbrevs : List Abbrev
  forest : Forest
  pad : List (List Nat)

def IUnit.offSize (u : IUnit) : Nat := if u.dwarf64 then 8 else 4

def IUnit.ilSize (u : IUnit) : Nat := if u.dwarf64 then 12 else 4

/-- The unit header after the length (DWARF 5, 7.5.1). -/
def IUnit.header (e : Endian) (u : IUnit) : List Nat :=
  if u.version = 5 then
    encodeFixed e 2 5 ++ (u.unitType :: u.addrSize :: (encodeFixed e u.offSize u.abbrevOff ++
      (if u.unitType = 1 then [] else encodeFixed e 8 u.dwoId)))
  else encodeFixed e 2 u.version ++ (encodeFixed e u.offSize u.abbrevOff ++ [u.addrSize])

/-- What the reader knows inside the unit. -/
def IUnit.ctx (e : Endian) (secs : Secs) (u : IUnit) : Ctx :=
  ⟨e, u.addrSize, u.offSize, u.version, secs.str, secs.lineStr, secs.strOffsets, secs.addr⟩

structure IUnit.Ok (u : IUnit) : Prop where
  version : 2 ≤ u.version ∧ u.version ≤ 5
  unitType : u.unitType = 1 ∨ u.unitType = 4 ∨ u.unitType = 5
  addrSize : u.addrSize = 4 ∨ u.addrSize = 8
  abbrevOff : u.abbrevOff < 256 ^ u.offSize
  entries : u.forest ≠ .nil

/-- The abbreviations of the unit are where its header says. -/
def IUnit.AbbrevsAt (u : IUnit) (secs : Secs) : Prop :=
  ∃ pre x post, secs.abbr = some (pre ++ (x ++ post)) ∧ pre.length = u.abbrevOff ∧ AbbrevsEnc u.abbrevs 1 x

/-- In version 5 the tables of string offsets and addresses, if there are any, start with a header of the same
version, format and address size as the unit. -/
structure IUnit.TablesOk (e : Endian) (u : IUnit) (secs : Secs) : Prop where
  strs : u.version = 5 → ∀ tab, secs.strOffsets = some tab → ∃ n rest,
    n < (if u.dwarf64 then 2 ^ 64 else 0xffffffff) ∧
    tab = initialLength e u.dwarf64 n ++ (encodeFixed e 2 5 ++ (encodeFixed e 2 0 ++ rest))
  addrs : u.version = 5 → ∀ tab, secs.addr = some tab → ∃ n seg rest,
    n < (if u.dwarf64 then 2 ^ 64 else 0xffffffff) ∧
    tab = initialLength e u.dwarf64 n ++ (encodeFixed e 2 5 ++ (u.addrSize :: seg :: rest))

/-- Encodings of a unit at an offset of the section. -/
def IUnit.Enc (e : Endian) (secs : Secs) (wants : Nat → Bool) (u : IUnit) (off : Nat) (bs : List Nat) : Prop :=
  ∃ t body, u.forest.Enc (u.ctx e secs) u.abbrevs wants (off + u.ilSize + (u.header e).length) t ∧ Nulls u.pad ∧
    body = u.header e ++ (t ++ u.pad.flatten) ∧ body.length < (if u.dwarf64 then 2 ^ 64 else 0xffffffff) ∧
    bs = initialLength e u.dwarf64 body.length ++ body

/-- The bases of the tables in force at the start of a unit: after the header of the first table (version 5). -/
def IUnit.bases {σ : Type} (H : Handler σ) (secs : Secs) (u : IUnit) (s : σ) : σ :=
  let s := if u.version = 5 ∧ secs.strOffsets.isSome then H.setStrBase s (u.ilSize + 4) else s
  if u.version = 5 ∧ secs.addr.isSome then H.setAddrBase s (u.ilSize + 4) else s

/-- What a reader should do with a unit of `n` bytes. -/
def IUnit.walk {σ : Type} (H : Handler σ) (e : Endian) (secs : Secs) (u : IUnit) (off n : Nat) (s : σ) : Option σ := do
  let (s, wanted) ← H.startUnit s off u.addrSize u.offSize (n - u.ilSize) u.version
  if wanted then u.forest.walk H (u.ctx e secs) u.abbrevs (u.bases H secs s) else some s

/-- What a reader should do with a section: its units with their bytes, from an offset on. -/
def walkUnits {σ : Type} (H : Handler σ) (e : Endian) (secs : Secs) : List (IUnit × List Nat) → Nat → σ → Option σ
  | [], _, s => some s
  | (u, bs) :: us, off, s => do
    let s ← u.walk H e secs off bs.length s
    walkUnits H e secs us (off + bs.length) s

/-- The units of a section, one after the other from an offset on. -/
def UnitsAt (e : Endian) (secs : Secs) (wants : Nat → Bool) : List (IUnit × List Nat) → Nat → Prop
  | [], _ => True
  | (u, bs) :: us, off => u.Ok ∧ u.AbbrevsAt secs ∧ u.TablesOk e secs ∧ u.Enc e secs wants off bs ∧
      UnitsAt e secs wants us (off + bs.length)

/-! ## Proofs -/

/-- A natural number in signed LEB128, read as unsigned. -/
theorem isS_readU {v : Nat} {bs : List Nat} (h : IsS v bs) (rest : List Nat) :
    readU (bs ++ rest) = some (v, bs.length) := by
  obtain ⟨h1, h2, ds, d1, d2, d3, d4, rfl⟩ := h
  rw [uleb_decode ds rest d1 d2 d3, encodeDigits_len]
  have hv := value_lt ds d2
  unfold signedValue at d4
  split at d4
  · exfalso
    have : ((value ds : Nat) : Int) < 2 ^ (7 * ds.length) := by exact_mod_cast hv
    omega
  · have : value ds = v := by exact_mod_cast d4
    rw [this, Nat.mod_eq_of_lt (by norm_num at h2 ⊢; omega)]

theorem specs_ok (sps : List Spec) : ∀ (bs : List Nat), SpecsEnc sps bs → ∀ rest,
    readSpecs (bs ++ rest) = some (sps, rest) := by
  induction sps with
  | nil =>
    rintro bs ⟨z, z', hz, hz', rfl⟩ rest
    rw [readSpecs, List.append_assoc, hz.read]
    simp only [Option.bind_eq_bind, Option.bind_some, List.drop_left]
    rw [hz'.read]
    simp
  | cons sp sps ih =>
    rintro bs ⟨a, b, c, r, ha, hb, h1, h2, h3, h4, hc, hr, rfl⟩ rest
    rw [readSpecs]
    simp only [List.append_assoc]
    rw [ha.read]
    simp only [Option.bind_eq_bind, Option.bind_some, List.drop_left]
    rw [hb.read]
    simp only [Option.bind_some, List.drop_left, Nat.mod_eq_of_lt h1, Nat.mod_eq_of_lt h2]
    rw [if_neg h4]
    by_cases hf : sp.form = 0x21
    · rw [if_pos hf] at hc ⊢
      rw [isS_readU hc]
      simp only [Option.bind_some, List.drop_left]
      rw [ih r hr, Nat.mod_eq_of_lt h3]
      rfl
    · rw [if_neg hf] at hc ⊢
      obtain ⟨rfl, hv⟩ := hc
      rw [List.nil_append, ih r hr]
      simp only [Option.bind_some]
      rw [← hv]

/-- **C62, abbreviations.** -/
theorem abbrevs_ok (as : List Abbrev) : ∀ (n : Nat) (bs : List Nat), 0 < n → AbbrevsEnc as n bs → ∀ rest,
    readAbbrevs n (bs ++ rest) = some as := by
  induction as with
  | nil =>
    intro n bs _ hz rest
    rw [readAbbrevs, IsU.read hz]
    simp
  | cons a as ih =>
    rintro n bs hn ⟨c, t, ss, r, hc, ht, h1, h2, hs, hr, rfl⟩ rest
    rw [readAbbrevs]
    simp only [List.append_assoc]
    rw [hc.read]
    simp only [Option.bind_eq_bind, Option.bind_some, List.drop_left, Nat.mod_eq_of_lt h1]
    rw [if_neg (by omega), ht.read]
    simp only [Option.bind_some, List.drop_left, List.cons_append, List.head?_cons, List.drop_succ_cons,
      List.drop_zero, List.append_assoc, if_true]
    rw [specs_ok _ _ hs]
    simp only [Option.bind_some]
    rw [ih (n + 1) r (by omega) hr, Nat.mod_eq_of_lt h2]
    cases a with
    | mk tag ch attrs => cases ch <;> rfl

theorem specs_value (sps : List Spec) : ∀ (bs : List Nat), SpecsEnc sps bs → ∀ sp ∈ sps, sp.Ok := by
  induction sps with
  | nil => simp
  | cons sp sps ih =>
    rintro bs ⟨a, b, c, r, ha, hb, h1, h2, h3, h4, hc, hr, rfl⟩ x hx
    rcases List.mem_cons.1 hx with rfl | hx
    · intro hf
      rw [if_neg hf] at hc
      exact hc.2
    · exact ih r hr x hx

theorem abbrevs_specs (as : List Abbrev) : ∀ (n : Nat) (bs : List Nat), AbbrevsEnc as n bs →
    ∀ a ∈ as, ∀ sp ∈ a.attrs, sp.Ok := by
  induction as with
  | nil => simp
  | cons a as ih =>
    rintro n bs ⟨c, t, ss, r, hc, ht, h1, h2, hs, hr, rfl⟩ x hx
    rcases List.mem_cons.1 hx with rfl | hx
    · exact specs_value _ _ hs
    · exact ih _ r hr x hx

theorem ilSize_eq (e : Endian) (u : IUnit) (n : Nat) : (initialLength e u.dwarf64 n).length = u.ilSize := by
  unfold initialLength IUnit.ilSize
  cases u.dwarf64 <;> simp [encodeFixed_len]

theorem header_length (e : Endian) (u : IUnit) : (u.header e).length = if u.version = 5 then
    4 + u.offSize + (if u.unitType = 1 then 0 else 8) else 3 + u.offSize := by
  unfold IUnit.header
  by_cases h : u.version = 5
  · rw [if_pos h, if_pos h]
    by_cases h1 : u.unitType = 1 <;> simp [h1, encodeFixed_len] <;> omega
  · rw [if_neg h, if_neg h]
    simp [encodeFixed_len]
    omega

/-- **C62, unit headers.** -/
theorem readHeader_ok (e : Endian) (u : IUnit) (hu : u.Ok) (x : List Nat) (hx : x ≠ []) (body : List Nat)
    (hb : body = u.header e ++ x) (hlt : body.length < (if u.dwarf64 then 2 ^ 64 else 0xffffffff)) (rest : List Nat) :
    readHeader e (initialLength e u.dwarf64 body.length ++ (body ++ rest)) = some (some
      ⟨body.length, u.version, u.abbrevOff, u.addrSize, u.offSize, u.ilSize + (u.header e).length⟩) := by
  have hil := ilSize_eq e u body.length
  have hxl : x.length ≠ 0 := by simpa using hx
  have hhl := header_length e u
  have hbl : body.length = (u.header e).length + x.length := by rw [hb]; simp
  have hv := hu.version
  have hoff : (if u.dwarf64 = true then 8 else 4) = u.offSize := rfl
  have hoffs : u.offSize = 4 ∨ u.offSize = 8 := by unfold IUnit.offSize; split <;> simp
  have hdrop : ∀ k t, (initialLength e u.dwarf64 body.length ++ t).drop (u.ilSize + k) = t.drop k := by
    intro k t
    rw [← List.drop_drop, ← hil, List.drop_left]
  have hd0 : ∀ t, (initialLength e u.dwarf64 body.length ++ t).drop u.ilSize = t := fun t => hdrop 0 t
  have hilpos : 4 ≤ u.ilSize := by unfold IUnit.ilSize; split <;> omega
  unfold readHeader
  rw [readInitialLength_ok e _ _ hlt, hil]
  simp only [hoff, List.length_append, hil]
  rw [if_neg (by omega), if_neg (by split at hhl <;> omega), hd0]
  by_cases h5 : u.version = 5
  · rw [if_pos h5] at hhl
    have hbody : body ++ rest = encodeFixed e 2 5 ++ (u.unitType :: u.addrSize :: (encodeFixed e u.offSize u.abbrevOff ++
      ((if u.unitType = 1 then [] else encodeFixed e 8 u.dwoId) ++ (x ++ rest)))) := by
      rw [hb]; unfold IUnit.header; rw [if_pos h5]; simp
    have e2 : ∀ t, (encodeFixed e 2 5 ++ t).drop 2 = t := fun t => drop_fixed e 2 5 t
    have e3 : ∀ b t, (encodeFixed e 2 5 ++ (b :: t)).drop 3 = t := by
      intro b t; rw [show (3 : Nat) = 2 + 1 from rfl, ← List.drop_drop, e2]; rfl
    have e4 : ∀ b c t, (encodeFixed e 2 5 ++ (b :: c :: t)).drop 4 = t := by
      intro b c t; rw [show (4 : Nat) = 2 + 2 from rfl, ← List.drop_drop, e2]; rfl
    rw [hdrop 2, hdrop 3, hdrop 4, hbody, readFixed_ok e 2 5 (by omega) (by norm_num)]
    simp only [e2, e3, e4, List.head?_cons]
    rw [if_neg (by omega), if_pos trivial, if_neg (by omega), if_neg (by have := hu.unitType; simp; omega),
      if_neg (by omega), if_neg (by have := hu.addrSize; omega), if_neg (by omega),
      readFixed_ok e _ _ (by omega) hu.abbrevOff]
    simp only
    rw [if_neg (by omega), h5, hhl]
    congr 3
    have := hu.unitType
    by_cases h1 : u.unitType = 1
    · rw [if_neg (by omega), if_pos h1]; omega
    · rw [if_pos (by omega), if_neg h1]; omega
  · rw [if_neg h5] at hhl
    have hbody : body ++ rest = encodeFixed e 2 u.version ++ (encodeFixed e u.offSize u.abbrevOff ++
      (u.addrSize :: (x ++ rest))) := by
      rw [hb]; unfold IUnit.header; rw [if_neg h5]; simp
    have e2 : ∀ t, (encodeFixed e 2 u.version ++ t).drop 2 = t := fun t => drop_fixed e 2 u.version t
    have e3 : ∀ t, (encodeFixed e 2 u.version ++ (encodeFixed e u.offSize u.abbrevOff ++ t)).drop (2 + u.offSize) = t := by
      intro t; rw [← List.drop_drop, e2, drop_fixed]
    rw [Nat.add_assoc u.ilSize 2, hdrop 2, hdrop (2 + u.offSize), hbody,
      readFixed_ok e 2 _ (by omega) (by norm_num; omega)]
    simp only [e2, e3, List.head?_cons]
    rw [if_neg (by omega), if_neg h5, if_neg (by omega), readFixed_ok e _ _ (by omega) hu.abbrevOff]
    simp only
    rw [if_neg (by omega), if_neg (by have := hu.addrSize; omega), if_neg (by omega), hhl]
    congr 3
    omega

theorem strOffsets_ok {σ : Type} (H : Handler σ) (e : Endian) (u : IUnit) (secs : Secs) (h : u.TablesOk e secs) (s : σ) :
    useStrOffsets H e u.version u.offSize secs.strOffsets s = some (some
      (if u.version = 5 ∧ secs.strOffsets.isSome then H.setStrBase s (u.ilSize + 4) else s, u.offSize)) := by
  unfold useStrOffsets
  cases hs : secs.strOffsets with
  | none => simp
  | some tab =>
    by_cases h5 : u.version = 5
    · obtain ⟨n, rest, hn, rfl⟩ := h.strs h5 tab hs
      have hil := ilSize_eq e u n
      have hilpos : 4 ≤ u.ilSize := by unfold IUnit.ilSize; split <;> omega
      simp only [h5, if_true, Option.isSome_some, and_self]
      unfold strOffsetsHeader
      rw [readInitialLength_ok e _ _ hn, if_neg (by simp only [List.length_append, hil, encodeFixed_len]; omega)]
      simp only [List.drop_left]
      rw [readFixed_ok e 2 5 (by omega) (by norm_num)]
      simp only [ne_eq, not_true_eq_false, if_false, hil]
      rfl
    · simp [h5]

theorem addr_ok {σ : Type} (H : Handler σ) (e : Endian) (u : IUnit) (secs : Secs) (h : u.TablesOk e secs) (s : σ) :
    useAddr H e u.version u.addrSize u.offSize secs.addr s = some (some
      (if u.version = 5 ∧ secs.addr.isSome then H.setAddrBase s (u.ilSize + 4) else s, u.offSize)) := by
  unfold useAddr
  cases hs : secs.addr with
  | none => simp
  | some tab =>
    by_cases h5 : u.version = 5
    · obtain ⟨n, seg, rest, hn, rfl⟩ := h.addrs h5 tab hs
      have hil := ilSize_eq e u n
      have hilpos : 4 ≤ u.ilSize := by unfold IUnit.ilSize; split <;> omega
      simp only [h5, if_true, Option.isSome_some, and_self]
      unfold addrHeader
      rw [readInitialLength_ok e _ _ hn, if_neg (by simp only [List.length_append, hil, encodeFixed_len]; omega)]
      simp only [List.drop_left, ← List.drop_drop]
      rw [readFixed_ok e 2 5 (by omega) (by norm_num), drop_fixed e 2 5]
      simp only [ne_eq, not_true_eq_false, if_false, hil, List.head?_cons]
      rfl
    · simp [h5]

theorem forest_enc_ne {cx : Ctx} {abbrevs : List Abbrev} {wants : Nat → Bool} {t : Forest} (h : t ≠ .nil) {off : Nat}
    {bs : List Nat} (he : t.Enc cx abbrevs wants off bs) : bs ≠ [] := by
  cases t with
  | nil => exact absurd rfl h
  | cons o code vals kids next =>
    obtain ⟨a, c, b, k, z, n, _, _, _, hc, _, _, _, rfl⟩ := he
    have := isU_pos hc
    simp [this]

/-- **C62, a unit.** -/
theorem readUnit_ok {σ : Type} (H : Handler σ) (e : Endian) (secs : Secs) {wants : Nat → Bool} (hw : Wants H wants)
    (u : IUnit) (hu : u.Ok) (hab : u.AbbrevsAt secs) (htab : u.TablesOk e secs) (off : Nat) (bs : List Nat)
    (hbs : u.Enc e secs wants off bs) (rest : List Nat) (hinfo : secs.info.drop off = bs ++ rest) (s : σ) :
    readUnit H e secs off s = (u.walk H e secs off bs.length s).map fun s => (s, some bs.length) := by
  obtain ⟨t, body, ht, hz, hbody, hlt, rfl⟩ := hbs
  obtain ⟨pre, x, post, hab1, hab2, hab3⟩ := hab
  have hil := ilSize_eq e u body.length
  have hne := forest_enc_ne hu.entries ht
  have hilo : (if u.offSize = 8 then 12 else 4) = u.ilSize := by
    unfold IUnit.offSize IUnit.ilSize; cases u.dwarf64 <;> rfl
  have hsz : Sizes (u.ctx e secs) := ⟨hu.addrSize, by
    show u.offSize = 4 ∨ u.offSize = 8
    unfold IUnit.offSize; split <;> simp⟩
  unfold readUnit
  rw [hinfo, List.append_assoc, readHeader_ok e u hu (t ++ u.pad.flatten) (by simp [hne]) body hbody hlt]
  unfold IUnit.walk
  simp only [Option.bind_eq_bind]
  rw [show (initialLength e u.dwarf64 body.length ++ body).length = u.ilSize + body.length by simp [hil],
    Nat.add_sub_cancel_left]
  cases H.startUnit s off u.addrSize u.offSize body.length u.version with
  | none => rfl
  | some p =>
    obtain ⟨s1, wanted⟩ := p
    simp only [Option.bind_some]
    rw [hilo, Nat.add_comm body.length]
    cases wanted with
    | false => rfl
    | true =>
      simp only [Bool.not_true, Bool.false_eq_true, if_false, if_true]
      rw [hab1]
      simp only
      rw [← hab2, List.drop_left, abbrevs_ok _ 1 x (by omega) hab3]
      simp only
      rw [strOffsets_ok H e u secs htab]
      simp only
      rw [addr_ok H e u secs htab]
      simp only
      rw [hilo]
      have hd : secs.info.drop (off + (u.ilSize + (u.header e).length)) = t ++ (u.pad.flatten ++ rest) := by
        rw [← List.drop_drop, hinfo, ← List.drop_drop, ← hil, List.append_assoc, List.drop_left, hbody,
          List.append_assoc, List.drop_left, List.append_assoc]
      have hr : u.ilSize + body.length - (u.ilSize + (u.header e).length) = t.length + u.pad.flatten.length := by
        rw [hbody]; simp; omega
      rw [hd, hr]
      have key := dies_unit H hsz (abbrevs_specs _ _ _ hab3) hw u.forest _ _ ht u.pad hz rest
      rw [Nat.add_assoc] at key
      unfold IUnit.ctx at key ⊢
      unfold IUnit.bases
      rw [key]
      simp only
      generalize Forest.walk H _ _ _ _ = o
      cases o <;> rfl

theorem unit_pos {e : Endian} {secs : Secs} {wants : Nat → Bool} {u : IUnit} {off : Nat} {bs : List Nat}
    (h : u.Enc e secs wants off bs) : bs.length ≠ 0 := by
  obtain ⟨t, body, _, _, _, _, rfl⟩ := h
  have hil := ilSize_eq e u body.length
  have hilpos : 4 ≤ u.ilSize := by unfold IUnit.ilSize; split <;> omega
  simp only [List.length_append, hil]
  omega

theorem readInfo_from {σ : Type} (H : Handler σ) (e : Endian) (secs : Secs) {wants : Nat → Bool} (hw : Wants H wants)
    (us : List (IUnit × List Nat)) : ∀ (off : Nat) (s : σ), off ≤ secs.info.length → UnitsAt e secs wants us off →
    secs.info.drop off = us.flatMap Prod.snd → readInfo H e secs off s = walkUnits H e secs us off s := by
  induction us with
  | nil =>
    intro off s hle _ hinfo
    have : secs.info.length ≤ off := by
      have := congrArg List.length hinfo
      simp at this
      omega
    rw [readInfo, if_pos this]
    rfl
  | cons ub us ih =>
    obtain ⟨u, bs⟩ := ub
    intro off s hle hat hinfo
    obtain ⟨h1, h2, h3, h4, h5⟩ := hat
    have hpos := unit_pos h4
    rw [List.flatMap_cons] at hinfo
    have hlen := congrArg List.length hinfo
    simp only [List.length_drop, List.length_append] at hlen
    rw [readInfo, if_neg (by omega), readUnit_ok H e secs hw u h1 h2 h3 off bs h4 _ hinfo]
    simp only [walkUnits, Option.bind_eq_bind]
    cases u.walk H e secs off bs.length s with
    | none => rfl
    | some s1 =>
      simp only [Option.map_some, Option.bind_some]
      apply ih _ _ (by omega) h5
      rw [← List.drop_drop, hinfo, List.drop_left]

/-- **C62.** For every handler whose interest in an entry depends on the tag only, and every `.debug_info` section
that consists of well-formed units, in either byte order, both formats and versions 2 to 5: reading the section is
walking over the units and their entries. -/
theorem info_decoded_partial {σ : Type} (H : Handler σ) (e : Endian) (secs : Secs) {wants : Nat → Bool} (hw : Wants H wants)
    (us : List (IUnit × List Nat)) (hat : UnitsAt e secs wants us 0) (hinfo : secs.info = us.flatMap Prod.snd) (s : σ) :
    readInfo H e secs 0 s = walkUnits H e secs us 0 s :=
  readInfo_from H e secs hw us 0 s (Nat.zero_le _) hat (by simpa using hinfo)

/-! ## Strings and addresses by number -/

theorem table_entry (e : Endian) (k : Nat) (hk : k = 4 ∨ k = 8) (vs : List Nat) (rest : List Nat) : ∀ (i v : Nat), vs[i]? = some v →
    v < 256 ^ k → readFixed e k ((vs.flatMap (encodeFixed e k) ++ rest).drop (i * k)) = some v := by
  induction vs with
  | nil => intro i v h; cases h
  | cons x vs ih =>
    intro i v h hv
    rw [List.flatMap_cons, List.append_assoc]
    cases i with
    | zero =>
      rw [List.getElem?_cons_zero, Option.some.injEq] at h
      subst h
      rw [Nat.zero_mul, List.drop_zero]
      exact fixed_roundtrip e k x (by omega) hv _
    | succ i =>
      rw [List.getElem?_cons_succ] at h
      have : (encodeFixed e k x ++ (vs.flatMap (encodeFixed e k) ++ rest)).drop ((i + 1) * k) =
          (vs.flatMap (encodeFixed e k) ++ rest).drop (i * k) := by
        rw [Nat.add_mul, Nat.one_mul, Nat.add_comm, ← List.drop_drop]
        congr 1
        have := List.drop_left (l₁ := encodeFixed e k x) (l₂ := vs.flatMap (encodeFixed e k) ++ rest)
        rwa [encodeFixed_len] at this
      rw [this]
      exact ih i v h hv

/-- **C62, strings by number.** The string with number `i` is the one at the offset that is entry `i` of the table of offsets
starting at the base (before version 5: at the start of the section). -/
theorem str_by_number (cx : Ctx) (hk : cx.offSize = 4 ∨ cx.offSize = 8) (pre rest offs str s : List Nat) (i off b : Nat)
    (htab : cx.strOffsets = some (pre ++ (offs.flatMap (encodeFixed cx.endian cx.offSize) ++ rest)))
    (hb : pre.length = if cx.version < 5 then 0 else b) (hi : offs[i]? = some off) (hoff : off < 256 ^ cx.offSize)
    (hpos : pre.length + i * cx.offSize < 2 ^ 64) (hstr : cx.str = some str) (hs : StrIn str off s) :
    strIndex cx b i = some (some s) := by
  have h := table_entry cx.endian cx.offSize hk offs rest i off hi hoff
  have hd : (pre ++ (offs.flatMap (encodeFixed cx.endian cx.offSize) ++ rest)).drop (pre.length + i * cx.offSize) =
      (offs.flatMap (encodeFixed cx.endian cx.offSize) ++ rest).drop (i * cx.offSize) := by
    rw [← List.drop_drop, List.drop_left]
  unfold strIndex
  rw [hstr, htab]
  simp only [Option.bind_eq_bind, Option.bind_some]
  by_cases hv : cx.version < 5
  · rw [if_pos hv] at hb ⊢
    rw [hb, Nat.zero_add] at hd hpos
    rw [Nat.mod_eq_of_lt hpos, hd, h, Option.bind_some]
    exact strAt_ok hs
  · rw [if_neg hv] at hb ⊢
    rw [← hb, Nat.mod_eq_of_lt hpos, hd, h, Option.bind_some]
    exact strAt_ok hs

/-- **C62, addresses by number.** The address with number `i` is entry `i` of the table of addresses starting at the base. -/
theorem addr_by_number (cx : Ctx) (hk : cx.addrSize = 4 ∨ cx.addrSize = 8) (pre rest as : List Nat) (i a : Nat)
    (htab : cx.addr = some (pre ++ (as.flatMap (encodeFixed cx.endian cx.addrSize) ++ rest))) (hi : as[i]? = some a)
    (ha : a < 256 ^ cx.addrSize) (hpos : pre.length + i * cx.addrSize < 2 ^ 64) : addrIndex cx pre.length i = some a := by
  unfold addrIndex
  rw [htab]
  simp only [Option.bind_eq_bind, Option.bind_some]
  rw [Nat.mod_eq_of_lt hpos, ← List.drop_drop, List.drop_left]
  exact table_entry cx.endian cx.addrSize hk as rest i a hi ha

/-- Two strings and two addresses by number; the tables start after headers of 8 bytes. -/
theorem by_number_ex : strIndex ⟨.little, 8, 4, 5, some [97, 0, 98, 99, 0], none,
      some [0, 0, 0, 0, 0, 0, 0, 0, 2, 0, 0, 0, 0, 0, 0, 0], none⟩ 8 0 = some (some [98, 99]) := by
  refine str_by_number _ (by decide) [0, 0, 0, 0, 0, 0, 0, 0] [] [2, 0] [97, 0, 98, 99, 0] [98, 99] 0 2 8 (by decide) rfl rfl
    (by decide) (by decide) rfl ?_
  exact ⟨[97, 0], [], rfl, rfl, by decide⟩

end Verif.DwarfInfo

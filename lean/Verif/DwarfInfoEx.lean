import Verif.DwarfInfoUnit
import Verif.DwarfLineEx

/-! # C62: a concrete section, and where the reader departs from DWARF -/
namespace Verif.DwarfInfo
open Verif.ByteReader
open Verif.DwarfLine (IsU IsS isU_digit initialLength readInitialLength_ok)

/-- What a handler that records its calls has seen. -/
inductive Seen where
  | unit (off version : Nat)
  | start (off tag : Nat)
  | attr (off name form : Nat) (v : Val)
  | stop (off : Nat)
deriving DecidableEq, Repr

/-- A handler that records its calls and is interested in compile units and subprograms. -/
def recorder : Handler (List Seen) where
  startUnit s off _ _ _ version := some (s ++ [.unit off version], true)
  startDie s off tag _ := some (s ++ [.start off tag], decide (tag = 0x11 ∨ tag = 0x2e))
  attr s off name form v := some (s ++ [.attr off name form v])
  endDie s off := some (s ++ [.stop off])
  strBase _ := 0
  addrBase _ := 0
  setStrBase s _ := s
  setAddrBase s _ := s

def exWants (tag : Nat) : Bool := decide (tag = 0x11 ∨ tag = 0x2e)

theorem recorder_wants : Wants recorder exWants := by
  intro s off tag attrs s' w h
  simp only [recorder, Option.some.injEq, Prod.mk.injEq] at h
  exact h.2.symm

/-- A compile unit with a name; a subprogram with name, address and size; a variable with a location. -/
def exAbbrevs : List Abbrev :=
  [⟨0x11, true, [⟨0x03, 0x0e, 0⟩, ⟨0x1b, 0x16, 0⟩]⟩,
   ⟨0x2e, true, [⟨0x03, 0x08, 0⟩, ⟨0x11, 0x01, 0⟩, ⟨0x12, 0x06, 0⟩]⟩,
   ⟨0x34, false, [⟨0x02, 0x18, 0⟩, ⟨0x3b, 0x0b, 0⟩]⟩]

/-- The bytes of the abbreviations, the last code written in two bytes. -/
def exAbbrevBytes : List Nat :=
  [1, 0x11, 1, 0x03, 0x0e, 0x1b, 0x16, 0, 0, 2, 0x2e, 1, 0x03, 0x08, 0x11, 0x01, 0x12, 0x06, 0, 0,
   3, 0x34, 0, 0x02, 0x18, 0x3b, 0x0b, 0, 0, 0x80, 0]

def exForest : Forest :=
  .cons 11 1 [(0x0e, .str [97, 46, 99]), (0x08, .str [47, 116])]
    (.cons 20 2 [(0x08, .str [102]), (0x01, .u 0x401000), (0x06, .u 0x30)]
      (.cons 35 3 [(0x18, .block [0x91, 0x10]), (0x0b, .u 7)] .nil .nil) .nil) .nil

def exUnit : IUnit :=
  ⟨false, 4, 1, 0, 8, 0, exAbbrevs, exForest, [[0]]⟩

def exTree : List Nat :=
  [1, 1, 0, 0, 0, 0x08, 47, 116, 0] ++ [2, 102, 0, 0, 0x10, 0x40, 0, 0, 0, 0, 0, 0x30, 0, 0, 0] ++
  [3, 2, 0x91, 0x10, 7] ++ [0] ++ [0]

def exInfoBytes : List Nat := [39, 0, 0, 0] ++ [4, 0, 0, 0, 0, 0, 8] ++ exTree ++ [0]

def exSecs : Secs := ⟨exInfoBytes, some exAbbrevBytes, some [0, 97, 46, 99, 0], none, none, none⟩

theorem isU_zero2 : IsU 0 [0x80, 0] := ⟨by norm_num, [0, 0], by simp, by simp, by simp, rfl, rfl⟩

theorem exAbbrevs_enc : AbbrevsEnc exAbbrevs 1 exAbbrevBytes := by
  refine ⟨[1], [0x11], [0x03, 0x0e, 0x1b, 0x16, 0, 0], _, isU_digit _ (by decide), isU_digit _ (by decide), by omega,
    by decide, ⟨[3], [0x0e], [], _, isU_digit _ (by decide), isU_digit _ (by decide), by decide, by decide, by decide, by decide,
      ⟨rfl, rfl⟩, ⟨[0x1b], [0x16], [], _, isU_digit _ (by decide), isU_digit _ (by decide), by decide, by decide, by decide, by decide,
        ⟨rfl, rfl⟩, ⟨[0], [0], isU_digit _ (by decide), isU_digit _ (by decide), rfl⟩, rfl⟩, rfl⟩, ?_, rfl⟩
  refine ⟨[2], [0x2e], [0x03, 0x08, 0x11, 0x01, 0x12, 0x06, 0, 0], _, isU_digit _ (by decide), isU_digit _ (by decide), by omega,
    by decide, ⟨[3], [0x08], [], _, isU_digit _ (by decide), isU_digit _ (by decide), by decide, by decide, by decide, by decide,
      ⟨rfl, rfl⟩, ⟨[0x11], [0x01], [], _, isU_digit _ (by decide), isU_digit _ (by decide), by decide, by decide, by decide, by decide,
        ⟨rfl, rfl⟩, ⟨[0x12], [0x06], [], _, isU_digit _ (by decide), isU_digit _ (by decide), by decide, by decide, by decide, by decide,
        ⟨rfl, rfl⟩, ⟨[0], [0], isU_digit _ (by decide), isU_digit _ (by decide), rfl⟩, rfl⟩, rfl⟩, rfl⟩, ?_, rfl⟩
  refine ⟨[3], [0x34], [0x02, 0x18, 0x3b, 0x0b, 0, 0], _, isU_digit _ (by decide), isU_digit _ (by decide), by omega,
    by decide, ⟨[2], [0x18], [], _, isU_digit _ (by decide), isU_digit _ (by decide), by decide, by decide, by decide, by decide,
      ⟨rfl, rfl⟩, ⟨[0x3b], [0x0b], [], _, isU_digit _ (by decide), isU_digit _ (by decide), by decide, by decide, by decide, by decide,
        ⟨rfl, rfl⟩, ⟨[0], [0], isU_digit _ (by decide), isU_digit _ (by decide), rfl⟩, rfl⟩, rfl⟩, isU_zero2, rfl⟩

theorem exForest_enc : exForest.Enc (exUnit.ctx .little exSecs) exAbbrevs exWants 11 exTree := by
  refine ⟨exAbbrevs[0], [1], [1, 0, 0, 0, 0x08, 47, 116, 0], [2, 102, 0, 0, 0x10, 0x40, 0, 0, 0, 0, 0, 0x30, 0, 0, 0, 3, 2, 0x91, 0x10, 7, 0],
    [0], [], rfl, by decide, rfl, isU_digit _ (by decide), ?_,
    ⟨?_, isU_digit _ (by decide)⟩, rfl, rfl⟩
  · refine ⟨_, _, _, [1, 0, 0, 0], _, .strp 0 1 [97, 46, 99] [0, 97, 46, 99, 0] rfl (by decide)
      ⟨[0], [], rfl, rfl, by decide⟩, ⟨_, _, _, [0x08, 47, 116, 0], _, ?_, ⟨rfl, rfl⟩, rfl, rfl⟩, rfl, rfl⟩
    exact .indirect 0x08 0 0x08 _ [8] [47, 116, 0] (by decide) (by decide) (isU_digit _ (by decide))
      (.string 0 [47, 116] (by decide))
  · refine ⟨exAbbrevs[1], [2], [102, 0, 0, 0x10, 0x40, 0, 0, 0, 0, 0, 0x30, 0, 0, 0], [3, 2, 0x91, 0x10, 7], [0], [], rfl, by decide, rfl,
      isU_digit _ (by decide), ?_, ⟨?_, isU_digit _ (by decide)⟩, rfl, rfl⟩
    · refine ⟨_, _, _, [102, 0], _, .string 0 [102] (by decide), ⟨_, _, _, [0, 0x10, 0x40, 0, 0, 0, 0, 0], _,
        .addr 0 0x401000 (by decide), ⟨_, _, _, [0x30, 0, 0, 0], _, .fixed 0x06 4 0x30 0 (by decide) (by decide), ⟨rfl, rfl⟩,
          rfl, rfl⟩, rfl, rfl⟩, rfl, rfl⟩
    · refine ⟨exAbbrevs[2], [3], [2, 0x91, 0x10, 7], [], [], [], rfl, by decide, rfl, isU_digit _ (by decide), ?_,
        ⟨rfl, rfl, rfl⟩, rfl, rfl⟩
      refine ⟨_, _, _, [2, 0x91, 0x10], _, .block 0x18 0 (by decide) [2] [0x91, 0x10] (isU_digit _ (by decide)),
        ⟨_, _, _, [7], _, .fixed 0x0b 1 7 0 (by decide) (by decide), ⟨rfl, rfl⟩, rfl, rfl⟩, rfl, rfl⟩

theorem exUnits_at : UnitsAt .little exSecs exWants [(exUnit, exInfoBytes)] 0 := by
  refine ⟨⟨by decide, by decide, by decide, by decide, by simp [exUnit, exForest]⟩,
    ⟨[], exAbbrevBytes, [], by simp [exSecs], rfl, exAbbrevs_enc⟩,
    ⟨by intro h; simp [exUnit] at h, by intro h; simp [exUnit] at h⟩, ?_, trivial⟩
  refine ⟨exTree, _, exForest_enc, ?_, rfl, by decide, rfl⟩
  intro z hz
  simp [exUnit] at hz
  subst hz
  exact isU_digit 0 (by omega)

/-- The hypotheses of `info_decoded_partial` hold for a section with nested entries, an indirect form, a padded number and
padding, and this is what the reader reports. -/
theorem exInfo_decoded : readInfo recorder .little exSecs 0 [] = some
    [.unit 0 4, .start 11 0x11, .attr 11 0x03 0x0e (.str (some [97, 46, 99])), .attr 11 0x1b 0x08 (.str (some [47, 116])),
     .start 20 0x2e, .attr 20 0x03 0x08 (.str (some [102])), .attr 20 0x11 0x01 (.u 0x401000), .attr 20 0x12 0x06 (.u 0x30),
     .start 35 0x34, .stop 35, .stop 20, .stop 11] := by
  rw [info_decoded_partial recorder .little exSecs recorder_wants [(exUnit, exInfoBytes)] exUnits_at (by simp [exSecs])]
  decide +kernel

/-! ## Departures from the standard -/

/-- Abbreviation codes may be any numbers; the reader fails unless they are 1, 2, 3, ... -/
theorem abbrev_codes_violated : readAbbrevs 1 [2, 0x2e, 0, 0, 0, 0] = none := by
  have hs : readSpecs [0, 0, 0] = some ([], [0]) :=
    specs_ok [] [0, 0] ⟨[0], [0], isU_digit _ (by decide), isU_digit _ (by decide), rfl⟩ [0]
  rw [readAbbrevs, show readU [2, 0x2e, 0, 0, 0, 0] = some (2, 1) from by decide]
  simp only [Option.bind_eq_bind, Option.bind_some]
  rw [if_neg (by decide), show readU (List.drop 1 [2, 0x2e, 0, 0, 0, 0]) = some (0x2e, 1) from by decide]
  simp [hs]

/-- The constant -1 in an abbreviation (byte 0x7f in signed LEB128) is read as 127. -/
theorem implicit_const_violated : IsS (-1) [0x7f] ∧
    readSpecs [0x3b, 0x21, 0x7f, 0, 0] = some ([⟨0x3b, 0x21, 127⟩], []) := by
  refine ⟨⟨by norm_num, by norm_num, [0x7f], by simp, by simp, by simp, by decide, rfl⟩, ?_⟩
  have hs : readSpecs [0, 0] = some ([], []) :=
    specs_ok [] [0, 0] ⟨[0], [0], isU_digit _ (by decide), isU_digit _ (by decide), rfl⟩ []
  rw [readSpecs, show readU [0x3b, 0x21, 0x7f, 0, 0] = some (0x3b, 1) from by decide]
  simp only [Option.bind_eq_bind, Option.bind_some]
  rw [show readU (List.drop 1 [0x3b, 0x21, 0x7f, 0, 0]) = some (0x21, 1) from by decide]
  simp only [Option.bind_some]
  rw [if_neg (by decide), if_pos (by decide)]
  simp only [List.drop_succ_cons, List.drop_zero]
  rw [show readU [0x7f, 0, 0] = some (0x7f, 1) from by decide]
  simp [hs]

/-- An address number from 128 on takes two bytes, but only one is consumed: everything after it is misread. -/
theorem addrx_violated (cx : Ctx) (sb ab a : Nat)
    (ha : addrIndex cx ab 128 = some a) (rest : List Nat) :
    IsU 128 [0x80, 1] ∧ formVal cx sb ab 0x1b 0 ([0x80, 1] ++ rest) = some (some (.u a), 1) := by
  have hu : IsU 128 [0x80, 1] := ⟨by norm_num, [0, 1], by simp, by simp, by simp, rfl, rfl⟩
  refine ⟨hu, ?_⟩
  have := hu.read rest
  simp [formVal] at this ⊢
  simp [this, ha]

/-- A two-byte address number is ignored: always address 0 of the table, and one byte is consumed. -/
theorem addrx2_violated (cx : Ctx) (sb ab : Nat) (i : Nat) (rest : List Nat) :
    formVal cx sb ab 0x2a 0 (encodeFixed cx.endian 2 i ++ rest) = (addrIndex cx ab 0).map fun a => (some (.u a), 1) := by
  cases h : addrIndex cx ab 0 <;> simp [formVal, h]

/-- A string in `.debug_line_str` cannot be skipped, a location list number cannot be reported: the program stops. -/
theorem forms_violated (cx : Ctx) (sb ab : Nat) (bs : List Nat) :
    skipAttr cx 0x1f bs = none ∧ formVal cx sb ab 0x22 0 bs = none ∧ formVal cx sb ab 0x1c 0 bs = none := by
  refine ⟨?_, by simp [formVal], by simp [formVal]⟩
  unfold skipAttr
  rw [resolve_direct _ (by decide)]
  simp [skipForm]

/-- A constant of 16 bytes is not reported. -/
theorem data16_violated (cx : Ctx) (sb ab : Nat) (bs : List Nat) : formVal cx sb ab 0x1e 0 bs = some (none, 16) := by
  simp [formVal]

/-- A unit that ends without closing its entries: they are never ended. -/
theorem unclosed_violated (cx : Ctx) : dies recorder cx [⟨0x11, true, []⟩] 1 11 [1] [] [] = some [.start 11 0x11] := by
  have h0 : ∀ s : List Seen, dies recorder cx [⟨0x11, true, []⟩] 0 12 [] [11] s = some s := by
    intro s
    rw [dies, if_pos rfl]
  rw [dies, show readU [1] = some (1, 1) from by decide]
  have hd : dieAttrs recorder cx 11 true [] [] [.start 11 0x11] = some ([.start 11 0x11], 0) := rfl
  have hs : recorder.startDie [] 11 0x11 [] = some ([.start 11 0x11], true) := by simp [recorder]
  simp [hs, hd, h0]

/-- The table of string offsets decides the size of offsets in the whole unit: after a 64-bit table header, a 32-bit
unit is read with 64-bit offsets. -/
theorem table_format_violated {σ : Type} (H : Handler σ) (s : σ) (rest : List Nat) :
    useStrOffsets H .little 5 4 (some ([0xff, 0xff, 0xff, 0xff, 20, 0, 0, 0, 0, 0, 0, 0, 5, 0, 0, 0] ++ rest)) s =
      some (some (H.setStrBase s 16, 8)) := by
  simp only [useStrOffsets, if_true, strOffsetsHeader]
  have h := readInitialLength_ok .little true 20 (by decide) ([5, 0, 0, 0] ++ rest)
  have he : initialLength .little true 20 = [0xff, 0xff, 0xff, 0xff, 20, 0, 0, 0, 0, 0, 0, 0] := by decide
  rw [he] at h
  rw [show ([0xff, 0xff, 0xff, 0xff, 20, 0, 0, 0, 0, 0, 0, 0, 5, 0, 0, 0] ++ rest : List Nat) =
    [0xff, 0xff, 0xff, 0xff, 20, 0, 0, 0, 0, 0, 0, 0] ++ ([5, 0, 0, 0] ++ rest) from rfl, h]
  simp [readFixed, read2]

end Verif.DwarfInfo

import Verif.DwarfLine5

/-! # C58: concrete units, and where the reader departs from the standard -/
namespace Verif.DwarfLine
open Verif.ByteReader

theorem isU_digit (v : Nat) (h : v < 128) : IsU v [v] :=
  ⟨Nat.lt_of_lt_of_le h (by norm_num), [v], by simp, by simpa using h, by simp, by simp [value], rfl⟩

/-- A version 4 unit with two sequences: special opcodes, a padded operand, a discriminator, a file. -/
def exUnit : Unit4 :=
  { dwarf64 := false, version := 4, headerLength := 39, minInsn := 1, isStmt := 1, lineBase := 251,
    lineRange := 14, opcodeBase := 13, lens := [0, 1, 1, 1, 1, 0, 0, 0, 1, 0, 0, 1],
    dirs := [[47, 97]], files := [⟨[98, 46, 99], 1, 0, 0⟩, ⟨[99, 46, 104], 0, 0, 0⟩],
    prog := [[.setAddress 0x1000, .advanceLine 9, .copy, .setFile 2, .setDiscriminator 3, .special 100,
              .other 10 [], .advancePc 4],
             [.setAddress 0x2000, .special 20, .constAddPc]] }

/-- Its bytes. -/
def exBytes : List Nat :=
  [87, 0, 0, 0, 4, 0, 39, 0, 0, 0, 1, 1, 1, 251, 14, 13, 0, 1, 1, 1, 1, 0, 0, 0, 1, 0, 0, 1,
   47, 97, 0, 0, 98, 46, 99, 0, 1, 0, 0, 99, 46, 104, 0, 0, 0, 0, 0,
   0, 9, 2, 0, 16, 0, 0, 0, 0, 0, 0, 3, 9, 1, 4, 130, 0, 0, 2, 4, 3, 100, 10, 2, 4, 0, 1, 1,
   0, 9, 2, 0, 32, 0, 0, 0, 0, 0, 0, 20, 8, 0, 1, 1]

/-- The reader on these bytes: the hypotheses of `unit_decoded` are met by a unit with all kinds of
instructions, and its conclusion is what one expects. -/
theorem exUnit_decoded : start .little 8 ⟨none, none⟩ exBytes =
    .ok ([.dir [47, 97] 1, .file [98, 46, 99] 1 1 0 0, .file [99, 46, 104] 2 0 0 0,
      .line 0x1000 1 10 0 0 false, .line 0x1006 2 8 0 3 false, .line 0x100a 2 8 0 0 true,
      .line 0x2000 1 3 0 0 false, .line 0x2011 1 3 0 0 true], 91) := by
  decide +kernel

theorem isS_digit (v : Nat) (h : v < 64) : IsS v [v] := by
  refine ⟨by omega, by norm_num; omega, [v], by simp, by simp; omega, by simp, ?_, rfl⟩
  unfold signedValue
  rw [if_neg (show ¬ 64 ≤ [v].getLast?.getD 0 by simp; omega)]
  simp [value]

theorem exUnit_ok : exUnit.Ok 8 :=
  { version := by decide
    headerLength := by decide +kernel
    base := by decide
    range := by decide
    lens := by decide
    addr := Or.inr rfl
    dirs := by simp [exUnit, NameOk]
    files := by simp [exUnit, NameOk] }

theorem exUnit_enc : exUnit.Enc .little 8 exBytes := by
  refine ⟨[98, 46, 99, 0, 1, 0, 0, 99, 46, 104, 0, 0, 0, 0],
    [0, 9, 2, 0, 16, 0, 0, 0, 0, 0, 0, 3, 9, 1, 4, 130, 0, 0, 2, 4, 3, 100, 10, 2, 4, 0, 1, 1,
     0, 9, 2, 0, 32, 0, 0, 0, 0, 0, 0, 20, 8, 0, 1, 1], exBytes.drop 4, ?_, ?_, by decide +kernel,
     by decide +kernel, by decide +kernel⟩
  · exact ⟨[1], [0], [0], [99, 46, 104, 0, 0, 0, 0], isU_digit 1 (by omega), isU_digit 0 (by omega),
      isU_digit 0 (by omega), ⟨[0], [0], [0], [], isU_digit 0 (by omega), isU_digit 0 (by omega),
        isU_digit 0 (by omega), rfl, rfl⟩, rfl⟩
  · refine ⟨[0, 9, 2, 0, 16, 0, 0, 0, 0, 0, 0, 3, 9, 1, 4, 130, 0, 0, 2, 4, 3, 100, 10, 2, 4, 0, 1, 1],
      [0, 9, 2, 0, 32, 0, 0, 0, 0, 0, 0, 20, 8, 0, 1, 1], ?_, ⟨[0, 9, 2, 0, 32, 0, 0, 0, 0, 0, 0, 20, 8, 0, 1, 1], [], ?_, rfl, rfl⟩, rfl⟩
    · refine ⟨[0, 9, 2, 0, 16, 0, 0, 0, 0, 0, 0], _, ⟨by decide +kernel, [9], isU_digit 9 (by omega), by decide +kernel⟩,
        ⟨[3, 9], _, ⟨by decide, [9], isS_digit 9 (by omega), rfl⟩,
        ⟨[1], _, ⟨by decide, rfl⟩,
        ⟨[4, 130, 0], _, ⟨by decide, [130, 0], ⟨by norm_num, [2, 0], by simp, by simp, by simp, by simp [value],
          rfl⟩, rfl⟩,
        ⟨[0, 2, 4, 3], _, ⟨[2], [3], isU_digit 3 (by omega), isU_digit 2 (by omega), rfl⟩,
        ⟨[100], _, ⟨by decide, by decide, rfl⟩,
        ⟨[10], _, ⟨by decide, by decide, rfl, by decide, by decide, by decide, [], rfl, rfl⟩,
        ⟨[2, 4], [0, 1, 1], ⟨by decide, [4], isU_digit 4 (by omega), rfl⟩,
          ⟨[1], isU_digit 1 (by omega), rfl⟩, rfl⟩, rfl⟩, rfl⟩, rfl⟩, rfl⟩, rfl⟩, rfl⟩, rfl⟩
    · exact ⟨[0, 9, 2, 0, 32, 0, 0, 0, 0, 0, 0], _, ⟨by decide +kernel, [9], isU_digit 9 (by omega), by decide +kernel⟩,
        ⟨[20], _, ⟨by decide, by decide, rfl⟩,
        ⟨[8], [0, 1, 1], ⟨by decide, rfl⟩, ⟨[1], isU_digit 1 (by omega), rfl⟩, rfl⟩, rfl⟩, rfl⟩

/-! ## Where the reader departs from the standard -/

/-- `header_length` is ignored: a header followed by four bytes of padding, which `header_length` counts
(it is 24 instead of 20), is read as if the padding were instructions.  Here the padding `2, 127, 2, 127`
moves the rows by 254 bytes. -/
theorem header_length_ignored_violated :
    start .little 8 ⟨none, none⟩
      [36, 0, 0, 0, 4, 0, 24, 0, 0, 0, 1, 1, 1, 251, 14, 13, 0, 1, 1, 1, 1, 0, 0, 0, 1, 0, 0, 1, 0, 0,
       2, 127, 2, 127, 2, 1, 1, 0, 1, 1] =
    .ok ([.line 255 1 1 0 0 false, .line 255 1 1 0 0 true], 40) := by
  decide +kernel

/-- An unterminated sequence is not bounded by its unit: the reader runs into the next unit and reports
rows from the bytes of its header, although the first unit only has the row of address 0. -/
theorem unterminated_sequence_violated :
    start .little 8 ⟨none, none⟩
      ([27, 0, 0, 0, 4, 0, 20, 0, 0, 0, 1, 1, 1, 251, 14, 13, 0, 1, 1, 1, 1, 0, 0, 0, 1, 0, 0, 1, 0, 0, 1] ++
       [35, 0, 1, 1]) =
    .ok ([.line 0 1 1 0 0 false, .line 1 1 4 0 0 false, .line 1 1 4 0 0 true], 31) := by
  decide +kernel

/-- `maximum_operations_per_instruction` is ignored: with two operations per 16-byte instruction, advancing
by two operations is one instruction (address 16); the reader reports address 32. -/
theorem max_ops_ignored_violated :
    start .little 8 ⟨none, none⟩
      [32, 0, 0, 0, 4, 0, 20, 0, 0, 0, 16, 2, 1, 251, 14, 13, 0, 1, 1, 1, 1, 0, 0, 0, 1, 0, 0, 1, 0, 0,
       2, 2, 1, 0, 1, 1] =
    .ok ([.line 32 1 1 0 0 false, .line 32 1 1 0 0 true], 36) := by
  decide +kernel

/-- A version 5 unit with two directories `/a`, `/b` and the files `m` in directory 0 and `n` in
directory 1; its only row is of file 1, which is `n`. -/
def exUnit5 (ft : List Nat) (f0 f1 : List Nat) : List Nat :=
  let hd := [5, 0, 8, 0, 0, 0, 0, 0, 1, 1, 1, 251, 14, 13, 0, 1, 1, 1, 1, 0, 0, 0, 1, 0, 0, 1,
    1, 1, 8, 2, 47, 97, 0, 47, 98, 0] ++ ft ++ [2, 109, 0, 0] ++ f0 ++ [110, 0, 1] ++ f1 ++ [1, 0, 1, 1]
  [hd.length, 0, 0, 0] ++ hd

/-- The contents of these bytes. -/
def exU5 : Unit5 :=
  { dwarf64 := false, addressSize := 8, segmentSelectorSize := 0, headerLength := 0, minInsn := 1, isStmt := 1,
    lineBase := 251, lineRange := 14, opcodeBase := 13, lens := [0, 1, 1, 1, 1, 0, 0, 0, 1, 0, 0, 1],
    dirFmt := [(1, 8)], dirs := [[47, 97], [47, 98]], fileFmt := [(1, 8), (2, 11)],
    files := [([109], 0), ([110], 1)], prog := [[.copy]] }

theorem exU5_ok : exU5.Ok 8 :=
  { headerLength := by decide +kernel
    base := by decide
    range := by decide
    lens := by decide
    addr := Or.inr rfl
    dirFmt := ⟨by decide, ⟨(1, 8), by decide, rfl⟩, by simp [exU5]⟩
    fileFmt := ⟨by decide, ⟨(1, 8), by decide, rfl⟩, by simp [exU5]⟩
    dirs := by decide
    files := by decide
    fileDirs := by simp [exU5] }

theorem exU5_enc : exU5.Enc .little 8 ⟨none, none⟩ (exUnit5 [2, 1, 8, 2, 11] [] []) := by
  refine ⟨[1, 1, 8, 2, 47, 97, 0, 47, 98, 0], [2, 1, 8, 2, 11, 2, 109, 0, 0, 110, 0, 1], [1, 0, 1, 1],
    (exUnit5 [2, 1, 8, 2, 11] [] []).drop 4, ?_, ?_, ?_, by decide +kernel, by decide +kernel,
    by decide +kernel⟩
  · exact ⟨[1], [1, 8], [2], [47, 97, 0, 47, 98, 0], isU_digit 1 (by omega),
      ⟨[1], [8], [], isU_digit 1 (by omega), isU_digit 8 (by omega), rfl, rfl⟩, isU_digit 2 (by omega),
      ⟨[47, 97, 0], [47, 98, 0], ⟨[47, 97, 0], [], rfl, rfl, Or.inl ⟨rfl, by simp, Or.inl ⟨rfl, rfl⟩⟩⟩,
        ⟨[47, 98, 0], [], ⟨[47, 98, 0], [], rfl, rfl, Or.inl ⟨rfl, by simp, Or.inl ⟨rfl, rfl⟩⟩⟩, rfl, rfl⟩, rfl⟩,
      rfl⟩
  · exact ⟨[2], [1, 8, 2, 11], [2], [109, 0, 0, 110, 0, 1], isU_digit 2 (by omega),
      ⟨[1], [8], [2, 11], isU_digit 1 (by omega), isU_digit 8 (by omega),
        ⟨[2], [11], [], isU_digit 2 (by omega), isU_digit 11 (by omega), rfl, rfl⟩, rfl⟩, isU_digit 2 (by omega),
      ⟨[109, 0, 0], [110, 0, 1],
        ⟨[109, 0], [0], ⟨[0], [], rfl, rfl, Or.inr ⟨rfl, Or.inr (Or.inl ⟨rfl, by decide, rfl⟩)⟩⟩, rfl,
          Or.inl ⟨rfl, by simp, Or.inl ⟨rfl, rfl⟩⟩⟩,
        ⟨[110, 0, 1], [],
          ⟨[110, 0], [1], ⟨[1], [], rfl, rfl, Or.inr ⟨rfl, Or.inr (Or.inl ⟨rfl, by decide, rfl⟩)⟩⟩, rfl,
            Or.inl ⟨rfl, by simp, Or.inl ⟨rfl, rfl⟩⟩⟩, rfl, rfl⟩, rfl⟩, rfl⟩
  · exact ⟨[1, 0, 1, 1], [], ⟨[1], [0, 1, 1], ⟨by decide, rfl⟩, ⟨[1], isU_digit 1 (by omega), rfl⟩, rfl⟩, rfl, rfl⟩

/-- The standard numbers the directories and files of version 5 from 0; the reader numbers them from 1.  So
the row of file 1 (`n`, in directory 1, `/b`) is attributed to the file the handler knows as 1: `m`; and
that file's directory 0 is not `/a` but the empty name the handler keeps at index 0. -/
theorem unit5_numbering_violated : start .little 8 ⟨none, none⟩ (exUnit5 [2, 1, 8, 2, 11] [] []) =
    .ok ([.dir [47, 97] 1, .dir [47, 98] 2, .file [109] 1 0 0 0, .file [110] 2 1 0 0,
      .line 0 1 1 0 0 false, .line 0 1 1 0 0 true], 56) := by
  decide +kernel

/-- A file table with MD5 sums, as clang writes by default, makes the whole unit malformed: no row is
reported. -/
theorem unit5_md5_violated : start .little 8 ⟨none, none⟩
    (exUnit5 [3, 1, 8, 2, 11, 5, 30] (List.replicate 16 0) (List.replicate 16 0)) = .error .malformed := by
  decide +kernel

end Verif.DwarfLine

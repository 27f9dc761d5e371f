import Verif.TwoLevelUnit
import Verif.DwarfLineEx

/-! # C98: a concrete two-level unit, and tables the reader does not survive -/
namespace Verif.TwoLevelUnit
open Verif.ByteReader Verif.DwarfLine Verif.TwoLevelProg
open Verif.TwoLevel (Log Call AMap LUnit Frame Sub)

/-- Two functions in one file, the second one inlined into the first. -/
def exUnit2 : Unit2 :=
  { dwarf64 := false, headerLength := 0, minInsn := 1, maxOps := 1, isStmt := 1, lineBase := 251, lineRange := 14, opcodeBase := 16,
    lens := [0, 1, 1, 1, 1, 0, 0, 0, 1, 0, 0, 1, 1, 2, 0], fake := [0, 0, 0, 0, 0, 0, 0],
    dirFmt := [(1, 8)], dirs := [[47, 97]], fileFmt := [(1, 8), (2, 11)], files := [([98], 1)],
    subFmt := [(6, 8), (7, 11), (8, 11)], subs := [([102], 1, 3), ([103], 1, 9)], gap := [],
    lprog := [.base (.setAddress 0x1000), .base (.advanceLine 9), .setSubprogram 1, .base .copy, .inlinedCall 0 2, .base (.advanceLine 2),
      .base .copy, .popContext, .base .copy, .endSequence],
    aprog := [[.setAddressFromLogical 0, .base .copy, .base (.advancePc 4), .base (.advanceLine 1), .base .copy, .base (.advancePc 4),
      .base (.advanceLine 1), .base .copy, .base (.advancePc 8)]] }

/-- The bytes of a unit like it, with the given programs. -/
def exBytes2 (l a : List Nat) : List Nat :=
  let body := [6, 240, 0, 0, 0, 0, 1, 1, 1, 251, 14, 16, 0, 1, 1, 1, 1, 0, 0, 0, 1, 0, 0, 1, 1, 2, 0, 0, 0, 0, 0, 0, 0, 0, 68, 0, 0, 0,
    68 + l.length, 0, 0, 0, 1, 1, 8, 1, 47, 97, 0, 2, 1, 8, 2, 11, 1, 98, 0, 1, 3, 6, 8, 7, 11, 8, 11, 2, 102, 0, 1, 3, 103, 0, 1, 9] ++ l ++ a
  [body.length, 0, 0, 0] ++ body

def exL : List Nat := [0, 9, 2, 0, 16, 0, 0, 0, 0, 0, 0, 3, 9, 13, 1, 1, 14, 0, 2, 3, 2, 1, 15, 1, 0, 1, 1]

def exA : List Nat := [13, 0, 1, 2, 4, 3, 1, 1, 2, 4, 3, 1, 1, 2, 8, 0, 1, 1]

def exRows : List LRow :=
  [⟨⟨0x1000, 1, 10, 0, 0⟩, 0, 1⟩, ⟨⟨0x1000, 1, 12, 0, 0⟩, 1, 2⟩, ⟨⟨0x1000, 1, 10, 0, 0⟩, 0, 1⟩, ⟨⟨0x1000, 1, 10, 0, 0⟩, 0, 1⟩]

def exActs : List (Nat × Nat × Bool) := [(0x1000, 1, false), (0x1004, 2, false), (0x1008, 3, false), (0x1010, 3, true)]

theorem exUnit2_ok : exUnit2.Ok .little 8 exRows exActs :=
  { headerLength := by decide +kernel
    base := by decide
    range := by decide
    lens := by decide
    fake := by decide
    addr := Or.inr rfl
    dirFmt := ⟨by decide, ⟨(1, 8), by decide, rfl⟩, by simp [exUnit2]⟩
    fileFmt := ⟨by decide, ⟨(1, 8), by decide, rfl⟩, by simp [exUnit2]⟩
    subFmt := ⟨by decide, ⟨(6, 8), by decide, rfl⟩, ⟨(7, 11), by decide, rfl⟩, by simp [exUnit2]⟩
    dirs := by decide
    files := by decide
    subs := by decide
    fileDirs := by simp [exUnit2]
    subFiles := by simp [exUnit2]
    logicals := by decide +kernel
    count := by decide
    rowFiles := by simp [exUnit2, exRows]
    actuals := by decide +kernel
    some := by simp [exUnit2] }

theorem exUnit2_enc : exUnit2.Enc .little 8 ⟨none, none⟩ (exBytes2 exL exA) := by
  refine ⟨[1, 1, 8, 1, 47, 97, 0], [2, 1, 8, 2, 11, 1, 98, 0, 1], [3, 6, 8, 7, 11, 8, 11, 2, 102, 0, 1, 3, 103, 0, 1, 9], exL, exA,
    ((exBytes2 exL exA).drop 10).take 68, (exBytes2 exL exA).drop 4, ?_, ?_, ?_, ?_, ?_, by decide +kernel, by decide +kernel, by decide +kernel,
    by decide +kernel, by decide +kernel⟩
  · exact ⟨[1], [1, 8], [1], [47, 97, 0], isU_digit 1 (by omega), ⟨[1], [8], [], isU_digit 1 (by omega), isU_digit 8 (by omega), rfl, rfl⟩,
      isU_digit 1 (by omega), ⟨[47, 97, 0], [], ⟨[47, 97, 0], [], rfl, rfl, Or.inl ⟨rfl, by simp, Or.inl ⟨rfl, rfl⟩⟩⟩, rfl, rfl⟩, rfl⟩
  · exact ⟨[2], [1, 8, 2, 11], [1], [98, 0, 1], isU_digit 2 (by omega),
      ⟨[1], [8], [2, 11], isU_digit 1 (by omega), isU_digit 8 (by omega), ⟨[2], [11], [], isU_digit 2 (by omega), isU_digit 11 (by omega), rfl, rfl⟩, rfl⟩,
      isU_digit 1 (by omega), ⟨[98, 0, 1], [], ⟨[98, 0], [1], ⟨[1], [], rfl, rfl, Or.inr ⟨rfl, Or.inr (Or.inl ⟨rfl, by decide, rfl⟩)⟩⟩, rfl,
        Or.inl ⟨rfl, by simp, Or.inl ⟨rfl, rfl⟩⟩⟩, rfl, rfl⟩, rfl⟩
  · exact ⟨[3], [6, 8, 7, 11, 8, 11], [2], [102, 0, 1, 3, 103, 0, 1, 9], isU_digit 3 (by omega),
      ⟨[6], [8], [7, 11, 8, 11], isU_digit 6 (by omega), isU_digit 8 (by omega),
        ⟨[7], [11], [8, 11], isU_digit 7 (by omega), isU_digit 11 (by omega), ⟨[8], [11], [], isU_digit 8 (by omega), isU_digit 11 (by omega), rfl, rfl⟩, rfl⟩, rfl⟩,
      isU_digit 2 (by omega),
      ⟨[102, 0, 1, 3], [103, 0, 1, 9],
        ⟨[102, 0], [1, 3], ⟨[1], [3], ⟨[3], [], rfl, rfl, Or.inr (Or.inr ⟨rfl, Or.inr (Or.inl ⟨rfl, by decide, rfl⟩)⟩)⟩, rfl,
          Or.inr (Or.inl ⟨rfl, Or.inr (Or.inl ⟨rfl, by decide, rfl⟩)⟩)⟩, rfl, Or.inl ⟨rfl, by simp, Or.inl ⟨rfl, rfl⟩⟩⟩,
        ⟨[103, 0, 1, 9], [],
          ⟨[103, 0], [1, 9], ⟨[1], [9], ⟨[9], [], rfl, rfl, Or.inr (Or.inr ⟨rfl, Or.inr (Or.inl ⟨rfl, by decide, rfl⟩)⟩)⟩, rfl,
            Or.inr (Or.inl ⟨rfl, Or.inr (Or.inl ⟨rfl, by decide, rfl⟩)⟩)⟩, rfl, Or.inl ⟨rfl, by simp, Or.inl ⟨rfl, rfl⟩⟩⟩, rfl, rfl⟩, rfl⟩, rfl⟩
  · exact ⟨[0, 9, 2, 0, 16, 0, 0, 0, 0, 0, 0], _, ⟨trivial, by decide +kernel, [9], isU_digit 9 (by omega), by decide +kernel⟩,
      ⟨[3, 9], _, ⟨trivial, by decide, [9], isS_digit 9 (by omega), rfl⟩,
      ⟨[13, 1], _, ⟨by decide, [1], isU_digit 1 (by omega), rfl⟩,
      ⟨[1], _, ⟨trivial, by decide, rfl⟩,
      ⟨[14, 0, 2], _, ⟨by decide, [0], [2], isS_digit 0 (by omega), isU_digit 2 (by omega), rfl⟩,
      ⟨[3, 2], _, ⟨trivial, by decide, [2], isS_digit 2 (by omega), rfl⟩,
      ⟨[1], _, ⟨trivial, by decide, rfl⟩,
      ⟨[15], _, ⟨by decide, rfl⟩,
      ⟨[1], _, ⟨trivial, by decide, rfl⟩,
      ⟨[0, 1, 1], [], ⟨[1], isU_digit 1 (by omega), rfl⟩, rfl, rfl⟩, rfl⟩, rfl⟩, rfl⟩, rfl⟩, rfl⟩, rfl⟩, rfl⟩, rfl⟩, rfl⟩
  · exact ⟨exA, [], ⟨[13, 0], _, ⟨by decide, [0], isS_digit 0 (by omega), rfl⟩,
      ⟨[1], _, ⟨trivial, by decide, rfl⟩,
      ⟨[2, 4], _, ⟨trivial, by decide, [4], isU_digit 4 (by omega), rfl⟩,
      ⟨[3, 1], _, ⟨trivial, by decide, [1], isS_digit 1 (by omega), rfl⟩,
      ⟨[1], _, ⟨trivial, by decide, rfl⟩,
      ⟨[2, 4], _, ⟨trivial, by decide, [4], isU_digit 4 (by omega), rfl⟩,
      ⟨[3, 1], _, ⟨trivial, by decide, [1], isS_digit 1 (by omega), rfl⟩,
      ⟨[1], _, ⟨trivial, by decide, rfl⟩,
      ⟨[2, 8], [0, 1, 1], ⟨trivial, by decide, [8], isU_digit 8 (by omega), rfl⟩, ⟨[1], isU_digit 1 (by omega), rfl⟩,
        rfl⟩, rfl⟩, rfl⟩, rfl⟩, rfl⟩, rfl⟩, rfl⟩, rfl⟩, rfl⟩, rfl, rfl⟩

/-- Two such units, one after the other: in the inlined function, and after its end. -/
theorem ex_section : (readSection2 .little 8 ⟨none, none⟩ 0x1000 none 300 (exBytes2 exL exA ++ exBytes2 exL exA) AMap.new).bind
      (fun m => m.lookup 0x1006) =
    some (some [⟨[47, 97], [98], 12, 0, some ⟨[103], [47, 97], [98], 9⟩⟩, ⟨[47, 97], [98], 10, 0, some ⟨[102], [47, 97], [98], 3⟩⟩]) ∧
    (readSection2 .little 8 ⟨none, none⟩ 0x1000 none 300 (exBytes2 exL exA ++ exBytes2 exL exA) AMap.new).bind (fun m => m.lookup 0x1011) =
      some none := by
  decide +kernel

/-- **C98, violated**: a call inlined into the row that follows it.  The row is its own context, and the reader recurses without end. -/
theorem forward_context_violated :
    start2 .little 8 ⟨none, none⟩ (exBytes2 [13, 1, 14, 1, 2, 1, 0, 1, 1] [13, 0, 1, 2, 8, 0, 1, 1]) =
      .ok (([⟨1, 1, 0, 1, 2⟩, ⟨1, 1, 0, 1, 2⟩], [.dir [47, 97] 1, .file [98] 1 1, .subprog [102] 1 1 3, .subprog [103] 2 1 9, .start,
        .actual 0 1 false, .actual 8 1 true]), 95) ∧
    readSection2 .little 8 ⟨none, none⟩ 0 none 300 (exBytes2 [13, 1, 14, 1, 2, 1, 0, 1, 1] [13, 0, 1, 2, 8, 0, 1, 1]) AMap.new = none := by
  decide +kernel

/-- **C98, violated**: the end of a sequence is lost when the row number it carries does not exist, so addresses behind the end of the code keep
the last stack. -/
theorem end_lost_violated : (readSection2 .little 8 ⟨none, none⟩ 0x1000 none 300
      (exBytes2 exL [13, 0, 1, 2, 4, 3, 10, 0, 1, 1]) AMap.new).bind (fun m => m.lookup 0x5000) =
    some (some [⟨[47, 97], [98], 10, 0, some ⟨[102], [47, 97], [98], 3⟩⟩]) := by
  decide +kernel

end Verif.TwoLevelUnit

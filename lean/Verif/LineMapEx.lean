import Verif.LineMapUnit
import Verif.DwarfLineEx

/-! # C59: concrete cases, and where the lookup departs from the line table -/
namespace Verif.LineMap
open Verif Verif.DwarfLine Verif.ByteReader

/-- The first sequence of the example unit: `/a/b.c:10` at 0x1000, `c.h:8` (discriminator 3) at 0x1006. -/
def exSeq1 : LSeq :=
  { rows := [(0x1000, ⟨[47, 97], [98, 46, 99], 10, 0⟩), (0x1006, ⟨[], [99, 46, 104], 8, 3⟩)], stop := 0x100a }

/-- The second one: `/a/b.c:3` at 0x2000. -/
def exSeq2 : LSeq := { rows := [(0x2000, ⟨[47, 97], [98, 46, 99], 3, 0⟩)], stop := 0x2011 }

theorem exSeq1_ok : exSeq1.Ok := { sorted := by simp [exSeq1], stop := by simp [exSeq1], pos := by decide }
theorem exSeq2_ok : exSeq2.Ok := { sorted := by simp [exSeq2], stop := by simp [exSeq2], pos := by decide }

theorem exUnit_closed : Closed exUnit := by
  refine ⟨by decide, ?_⟩
  intro is his i hi name dir mtime length he
  subst he
  simp [exUnit] at his
  rcases his with rfl | rfl <;> simp at hi

theorem exRows1 : rowsOf (exUnit.hdr .little 8) exUnit.prog[0] Regs.init =
    ([⟨0x1000, 1, 10, 0, 0⟩, ⟨0x1006, 2, 8, 0, 3⟩], ⟨0x100a, 2, 8, 0, 0⟩) := by decide +kernel

theorem exRows2 : rowsOf (exUnit.hdr .little 8) exUnit.prog[1] Regs.init =
    ([⟨0x2000, 1, 3, 0, 0⟩], ⟨0x2011, 1, 3, 0, 0⟩) := by decide +kernel

theorem exIsSeq1 : IsSeq .little 8 exUnit exUnit.prog[0] exSeq1 := by
  unfold IsSeq IsRow
  rw [exRows1]
  exact ⟨.cons (by decide +kernel) (.cons (by decide +kernel) .nil), rfl, by decide⟩

theorem exIsSeq2 : IsSeq .little 8 exUnit exUnit.prog[1] exSeq2 := by
  unfold IsSeq IsRow
  rw [exRows2]
  exact ⟨.cons (by decide +kernel) .nil, rfl, by decide⟩

/-- Both sequences live. -/
theorem ex_described : Described .little 8 0x1000 (2 ^ 64 - 1) exUnit [some exSeq1, some exSeq2] :=
  { ok := exUnit_ok
    closed := exUnit_closed
    seqs := .cons ⟨fun s hs => by cases hs; exact ⟨exIsSeq1, exSeq1_ok, by decide, by decide⟩, fun h => by cases h⟩
      (.cons ⟨fun s hs => by cases hs; exact ⟨exIsSeq2, exSeq2_ok, by decide, by decide⟩, fun h => by cases h⟩ .nil) }

theorem exDead1 : Dead .little 8 0x1800 (2 ^ 64 - 1) exUnit exUnit.prog[0] := by
  unfold Dead
  rw [exRows1]
  decide +kernel

/-- The first sequence deleted: the program starts at 0x1800. -/
theorem ex_described_dead : Described .little 8 0x1800 (2 ^ 64 - 1) exUnit [none, some exSeq2] :=
  { ok := exUnit_ok
    closed := exUnit_closed
    seqs := .cons ⟨(fun s hs => by cases hs), fun _ => exDead1⟩
      (.cons ⟨fun s hs => by cases hs; exact ⟨exIsSeq2, exSeq2_ok, by decide, by decide⟩, fun h => by cases h⟩ .nil) }

theorem ex_disj : ([some exSeq1, some exSeq2].flatMap Option.toList).Pairwise Disj := by
  have : Disj exSeq1 exSeq2 := Or.inl (by decide)
  simpa using this

/-- The hypotheses of `address_to_line` hold for a section with one unit of two live sequences; and the lookup
gives what one expects between, inside and after the sequences. -/
theorem address_to_line_ex :
    ∃ evs m, readSection .little 8 (exBytes.length + 1) exBytes = some evs ∧ handleAll 0x1000 none evs = some m ∧
      lookup m 0xfff = some none ∧
      lookup m 0x1005 = some (some ⟨[47, 97], [98, 46, 99], 10, 0⟩) ∧
      lookup m 0x1009 = some (some ⟨[], [99, 46, 104], 8, 3⟩) ∧
      lookup m 0x100a = some none ∧
      lookup m 0x2010 = some (some ⟨[47, 97], [98, 46, 99], 3, 0⟩) ∧
      lookup m 0x2011 = some none := by
  have h := address_to_line .little 8 0x1000 (2 ^ 64 - 1) [(exUnit, exBytes, [some exSeq1, some exSeq2])]
    (by
      intro u hu
      simp only [List.mem_singleton] at hu
      subst hu
      exact ⟨ex_described, exUnit_enc⟩)
    (by simpa using ex_disj)
  obtain ⟨evs, m, h1, h2, _⟩ := h
  simp only [List.flatMap_cons, List.flatMap_nil, List.append_nil] at h1
  refine ⟨evs, m, h1, h2, ?_⟩
  have he : readSection .little 8 (exBytes.length + 1) exBytes = some [[.dir [47, 97] 1, .file [98, 46, 99] 1 1 0 0,
      .file [99, 46, 104] 2 0 0 0, .line 0x1000 1 10 0 0 false, .line 0x1006 2 8 0 3 false,
      .line 0x100a 2 8 0 0 true, .line 0x2000 1 3 0 0 false, .line 0x2011 1 3 0 0 true]] := by decide +kernel
  rw [he, Option.some.injEq] at h1
  subst h1
  have hm : handleAll 0x1000 none [[.dir [47, 97] 1, .file [98, 46, 99] 1 1 0 0,
      .file [99, 46, 104] 2 0 0 0, .line 0x1000 1 10 0 0 false, .line 0x1006 2 8 0 3 false,
      .line 0x100a 2 8 0 0 true, .line 0x2000 1 3 0 0 false, .line 0x2011 1 3 0 0 true]] =
    some { logical := [⟨[47, 97], [98, 46, 99], 10, 0⟩, ⟨[], [99, 46, 104], 8, 3⟩, ⟨[47, 97], [98, 46, 99], 3, 0⟩],
           map := [(0x1000, 1), (0x1006, 2), (0x100a, 0), (0x2000, 3), (0x2011, 0)] } := by decide +kernel
  rw [hm, Option.some.injEq] at h2
  subst h2
  decide +kernel

/-- Adjacent functions whose sequences are reported in the opposite order (different units): the end of the
second sequence, [0x1000, 0x2000), replaces the first row of the first one, [0x2000, 0x2010), so the addresses
up to its second row, 0x2004, have no line. -/
theorem adjacent_sequence_violated :
    (handleAll 0x1000 none
      [[.file [97] 1 0 0 0, .line 0x2000 1 7 0 0 false, .line 0x2004 1 8 0 0 false, .line 0x2010 1 8 0 0 true],
       [.file [98] 1 0 0 0, .line 0x1000 1 5 0 0 false, .line 0x2000 1 5 0 0 true]]).map
      (fun m => (lookup m 0x1fff, lookup m 0x2000, lookup m 0x2003, lookup m 0x2004)) =
    some (some (some ⟨[], [98], 5, 0⟩), some none, some none, some (some ⟨[], [97], 8, 0⟩)) := by
  decide +kernel

/-- A version 5 unit with directories `/a`, `/b`, files `m` in directory 0 and `n` in directory 1, and one row at
address 0x10 of file 1, `/b/n`: the lookup says file `m` in the compilation directory. -/
theorem unit5_file_violated :
    ∀ evs n, start .little 8 ⟨none, none⟩
      [56, 0, 0, 0, 5, 0, 8, 0, 0, 0, 0, 0, 1, 1, 1, 251, 14, 13, 0, 1, 1, 1, 1, 0, 0, 0, 1, 0, 0, 1,
       1, 1, 8, 2, 47, 97, 0, 47, 98, 0, 2, 1, 8, 2, 11, 2, 109, 0, 0, 110, 0, 1,
       2, 16, 1, 2, 16, 0, 1, 1] = .ok (evs, n) →
      (handleAll 0 none [evs]).map (fun m => lookup m 0x10) = some (some (some ⟨[], [109], 1, 0⟩)) := by
  intro evs n h
  have : start .little 8 ⟨none, none⟩
      [56, 0, 0, 0, 5, 0, 8, 0, 0, 0, 0, 0, 1, 1, 1, 251, 14, 13, 0, 1, 1, 1, 1, 0, 0, 0, 1, 0, 0, 1,
       1, 1, 8, 2, 47, 97, 0, 47, 98, 0, 2, 1, 8, 2, 11, 2, 109, 0, 0, 110, 0, 1,
       2, 16, 1, 2, 16, 0, 1, 1] = .ok ([.dir [47, 97] 1, .dir [47, 98] 2, .file [109] 1 0 0 0,
         .file [110] 2 1 0 0, .line 16 1 1 0 0 false, .line 32 1 1 0 0 true], 60) := by decide +kernel
  rw [this] at h
  cases h
  decide +kernel

end Verif.LineMap

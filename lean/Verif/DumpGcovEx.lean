import Verif.DumpGcovFile
import Verif.CreateGcov

/-! # C99: a listing, and where listings are ambiguous -/
namespace Verif.Dump
open Verif Verif.SymbolMap

/-- `main` with a location with a discriminator and two call targets, and with two inlined calls at one place; and a function with
fewer samples. -/
def exMap : OMap Name Sym :=
  [(asc "help", .mk ⟨5, 1, [(8589934592, ⟨5, 1, []⟩)]⟩ []),
   (asc "main", .mk ⟨60, 2, [(4294967296, ⟨10, 1, []⟩), (8589934595, ⟨20, 1, [(asc "f", 4), (asc "g", 9), (asc "h", 4)]⟩)]⟩
    [((21474836480, asc "g"), .mk ⟨20, 0, [(4294967299, ⟨20, 2, []⟩)]⟩ []),
     ((21474836480, asc "f"), .mk ⟨10, 0, []⟩ [((0, asc "k"), .mk ⟨10, 0, [(0, ⟨10, 1, []⟩)]⟩ [])])]),
   (asc "none", .mk ⟨0, 3, []⟩ [])]

/-- The files. -/
def exFile (n : Name) : Name := if n = asc "g" then asc "b.c" else asc "a.c"

/-- The listing. -/
theorem ex_text : dump exFile [(asc "main", 77)] exMap = asc "main:a.c total:60 head:2 timestamp: 77
  1: 10
  2.3: 20  g:a.c:9  h:a.c:4  f:a.c:4
  5: f:a.c total:10
    0: k:a.c total:10
      0: 10
  5: g:b.c total:20
    1.3: 20
help:a.c total:5 head:1 timestamp: 0
  2: 5
" := by decide +kernel

instance (n : Name) : Decidable (Clean n) := by unfold Clean; infer_instance

/-- The hypotheses of `listing` and `listing_eq_iff` hold. -/
theorem ex_fits : Fits exFile exMap := by
  have c : ∀ n ∈ [asc "help", asc "main", asc "none", asc "f", asc "g", asc "h", asc "k"], Clean n ∧ Clean (exFile n) := by decide
  refine ⟨by simp [exMap, OMap.Sorted]; decide, ?_, ?_, ?_, ?_⟩
  · intro p hp
    simp only [exMap, List.mem_cons, List.not_mem_nil, or_false] at hp
    rcases hp with rfl | rfl | rfl <;> simp [Sym.WF, WFCalls, OMap.Sorted] <;> decide
  · intro p hp
    apply c
    simp only [exMap, List.mem_cons, List.not_mem_nil, or_false] at hp
    rcases hp with rfl | rfl | rfl <;> simp
  · intro p hp
    simp only [exMap, List.mem_cons, List.not_mem_nil, or_false] at hp
    rcases hp with rfl | rfl | rfl <;> simp [Printable, PrintableCalls, (c (asc "f") (by simp)).1, (c (asc "g") (by simp)).1,
      (c (asc "h") (by simp)).1, (c (asc "k") (by simp)).1, (c (asc "f") (by simp)).2, (c (asc "g") (by simp)).2, (c (asc "k") (by simp)).2]
    rintro a b (⟨rfl, _⟩ | ⟨rfl, _⟩ | ⟨rfl, _⟩)
    · exact (c _ (by simp)).1
    · exact (c _ (by simp)).1
    · exact (c _ (by simp)).1
  · intro p hp
    simp only [exMap, List.mem_cons, List.not_mem_nil, or_false] at hp
    rcases hp with rfl | rfl | rfl <;> simp [Sym.data]

/-- Those of `dump_written` hold for the profile of the example of C94. -/
theorem ex_written : ∃ bytes text fs, Afdo.writeFile 3 (CreateGcov.exResult.profile fun _ => ([], fun _ => none)) = some bytes ∧
    dumpGcov .none bytes = some text ∧ readDump text = some fs ∧
    FileLists 3 (CreateGcov.exResult.profile fun _ => ([], fun _ => none)) fs := by
  have hs : (CreateGcov.exResult.profile fun _ => ([], fun _ => none)).syms =
    [([109, 97, 105, 110], ⟨CreateGcov.exSym, 7⟩), ([109, 97, 105, 111], ⟨CreateGcov.exSym, 7⟩)] := rfl
  have hwf : ∀ q ∈ (CreateGcov.exResult.profile fun _ => ([], fun _ => none)).syms, q.2.sym.WF := by
    intro q hq
    rw [hs] at hq
    simp only [List.mem_cons, List.not_mem_nil, or_false] at hq
    rcases hq with rfl | rfl <;> simp [CreateGcov.exSym, Sym.WF, WFCalls, OMap.Sorted]
  obtain ⟨bytes, hb⟩ := Afdo.writer_total 3 _ hwf CreateGcov.ex_fits.named
  obtain ⟨text, fs, h⟩ := dump_written 3 (by decide) _ CreateGcov.ex_fits.fits hwf .none CreateGcov.ex_fits.fixed CreateGcov.ex_fits.targets
    (by rw [hs]; decide +kernel) (by intro f hf; cases hf) (by rw [hs]; decide +kernel) bytes hb
  exact ⟨bytes, text, fs, hb, h⟩

/-- C99 fails for names with colons (C++ names printed demangled, files on other systems): different profiles, one listing. -/
theorem colon_violated : dump (fun _ => asc "b:c") [] [(asc "a", .mk ⟨1, 0, []⟩ [])] =
    dump (fun _ => asc "c") [] [(asc "a:b", .mk ⟨1, 0, []⟩ [])] := by decide +kernel

/-- C99 fails for lines of more than 16 bits, which no AFDO file holds: line 65536 is printed as line 0. -/
theorem line_violated : dump (fun _ => []) [] [(asc "a", .mk ⟨1, 0, [(281474976710656, ⟨1, 1, []⟩)]⟩ [])] =
    dump (fun _ => []) [] [(asc "a", .mk ⟨1, 0, [(0, ⟨1, 1, []⟩)]⟩ [])] := by decide +kernel

/-- A function without samples is not listed, whatever its entry count. -/
theorem empty_unlisted : dump (fun _ => []) [] [(asc "a", .mk ⟨0, 9, []⟩ [])] = [] := by decide +kernel

end Verif.Dump

import Verif.FileNamesMain
import Verif.DumpGcovEx

/-! # C100: an example, and where it fails -/
namespace Verif.FileNames
open Verif Verif.SymbolMap Verif.Afdo
open Verif.Dump (asc)

/-- Sources by name. -/
def exF (n : Name) : Src := if n = asc "f" then ⟨asc "/src", asc "lib/f.h"⟩ else ⟨asc "/src", asc "main.c"⟩

/-- A frame of a function with its source. -/
def fr (n : Name) (line : Nat) : FFrame := (⟨n, 10, BitVec.ofNat 32 line, 0⟩, exF n)

/-- Two samples in `main`, one of them in a call of `f` inlined on its 5th line. -/
def exStacks : List (List FFrame) := [[fr (asc "main") 11], [fr (asc "f") 12, fr (asc "main") 15]]

/-- The hypotheses of `run_by_name` hold. -/
theorem ex_stacks : (∀ st ∈ exStacks, StackBy exF (asc "main") st) ∧ (exF (asc "main")).file ≠ [] ∧ ∃ st ∈ exStacks, st ≠ [] := by
  refine ⟨?_, by decide, _, List.mem_cons_self, by simp [exStacks]⟩
  intro st hst f t h
  simp only [exStacks, List.mem_cons, List.not_mem_nil, or_false] at hst
  rcases hst with rfl | rfl
  · cases h
    exact ⟨rfl, by simp⟩
  · cases h
    exact ⟨rfl, by intro g hg; rw [List.mem_singleton] at hg; subst hg; rfl⟩

/-- The sources of the samples of `ex_stacks`. -/
theorem ex_run : exStacks.foldl (FSym.traverse true) FSym.new = .mk (exF (asc "main")) [((21474836480, asc "f"), .mk (exF (asc "f")) [])] := by
  have h : (fr (asc "main") 15).1.off = 21474836480 := by decide +kernel
  simp only [exStacks, List.foldl, FSym.traverse, List.getLast?, List.getLast, List.reverse_cons, List.reverse_nil, List.nil_append,
    List.singleton_append, FSym.along, FSym.new, FSym.calls, FSym.src]
  rw [if_neg (by decide +kernel), h]
  rfl

/-- The sources of the symbols of the example of C94. -/
def exFsyms : List (Name × FSym) :=
  [(asc "main", .mk (exF (asc "main")) [((21474836480, asc "f"), .mk (exF (asc "f")) [])]),
   (asc "maio", .mk (exF (asc "maio")) [((21474836480, asc "f"), .mk (exF (asc "f")) [])])]

/-- The table of `exFsyms`. -/
theorem ex_table : (fileMap exFsyms).files = [asc "/src/main.c", asc "/src/lib/f.h"] ∧
    (fileMap exFsyms).names = [(asc "f", 1), (asc "main", 0), (asc "maio", 0)] := by decide +kernel

/-- The profile of the example of C94 with this table. -/
def exProfile : Profile := CreateGcov.exResult.profile fun _ => ((fileMap exFsyms).files, (fileMap exFsyms).get)

/-- All hypotheses of `listed_files` hold for it. -/
theorem ex_listed : ∃ bytes text fs, writeFile 3 exProfile = some bytes ∧ Dump.dumpGcov .none bytes = some text ∧ Dump.readDump text = some fs ∧
    Dump.FileLists 3 exProfile fs ∧ (∀ n f t h s, Dump.Fact.fn n f t h s ∈ fs → f = (exF n).path) ∧
    (∀ n path f t, Dump.Fact.inst n path f t ∈ fs → f = (exF (nameAt n path)).path) := by
  have hs : exProfile.syms = [(asc "main", ⟨CreateGcov.exSym, 7⟩), (asc "maio", ⟨CreateGcov.exSym, 7⟩)] := rfl
  have hwf : ∀ q ∈ exProfile.syms, q.2.sym.WF := by
    intro q hq
    rw [hs] at hq
    simp only [List.mem_cons, List.not_mem_nil, or_false] at hq
    rcases hq with rfl | rfl <;> simp [CreateGcov.exSym, Sym.WF, WFCalls, OMap.Sorted]
  have hff : exProfile.files = [asc "/src/main.c", asc "/src/lib/f.h"] := ex_table.1
  have hbase := CreateGcov.ex_fits
  have hfits : ProfileFits exProfile := by
    refine ⟨hbase.fits.nodup, hbase.fits.tops, hbase.fits.count, hbase.fits.names, hbase.fits.table, ?_, ?_, ?_, hbase.fits.summary,
      hbase.fits.wsLen, hbase.fits.ws⟩
    · rw [hff]
      have : ∀ n ∈ [asc "/src/main.c", asc "/src/lib/f.h"], (0 : UInt8) ∉ n ∧ n.length + 4 < 16384 := by decide +kernel
      exact this
    · rw [hff]; decide
    · intro n i h
      have h1 := get_lt exFsyms n i h
      rw [ex_table.1] at h1
      simp at h1
      omega
  obtain ⟨bytes, hb⟩ := writer_total 3 exProfile hwf hbase.named
  obtain ⟨text, fs, h⟩ := listed_files exF 3 (by decide) (by decide) exProfile hfits hwf .none hbase.fixed hbase.targets
    (by rw [hs]; decide +kernel) (by rw [hff]; decide +kernel) (by rw [hs]; decide +kernel) bytes hb exFsyms
    (by rw [hs]; exact List.Forall₂.cons ⟨rfl, by simp [CreateGcov.exSym, Matches, MatchesCalls]; rfl⟩
          (List.Forall₂.cons ⟨rfl, by simp [CreateGcov.exSym, Matches, MatchesCalls]; rfl⟩ List.Forall₂.nil))
    (by
      intro r hr path s hp
      simp only [exFsyms, List.mem_cons, List.not_mem_nil, or_false] at hr
      have hsub : ∀ m k p, (FSym.mk (exF m) [((21474836480, asc "f"), .mk (exF (asc "f")) [])]).srcAt (k :: p) = some s →
          k.2 = asc "f" ∧ p = [] ∧ s = exF (asc "f") := by
        intro m k p h
        rw [srcAt_cons] at h
        simp only [FSym.calls, lookup] at h
        split_ifs at h with hk
        · rw [Option.bind_some] at h
          cases p with
          | nil => cases h; exact ⟨by rw [hk], rfl, rfl⟩
          | cons k2 p => rw [srcAt_cons] at h; simp [FSym.calls, lookup] at h
        · simp at h
      rcases hr with rfl | rfl <;> cases path with
      | nil => cases hp; rfl
      | cons k p =>
        obtain ⟨h1, rfl, h3⟩ := hsub _ k p hp
        rw [h3, ← h1]
        rfl)
    rfl rfl
  exact ⟨bytes, text, fs, hb, h⟩

/-- C100 fails for functions of the same name (static functions): `init` of `a.c` and `init` of `b.c`, both inlined in `main`, have one file, that
of the one that comes last in the hash table. -/
theorem static_violated (la lb : Nat) (hab : la ≠ lb) :
    let a : Callsite × FSym := ((la, asc "init"), .mk ⟨[], asc "a.c"⟩ [])
    let b : Callsite × FSym := ((lb, asc "init"), .mk ⟨[], asc "b.c"⟩ [])
    let file := fun cs => let m := fileMap [(asc "main", .mk ⟨[], asc "m.c"⟩ cs)]; (m.get (asc "init")).bind fun i => m.files[i]?
    Keys (.mk ⟨[], asc "m.c"⟩ [a, b]) ∧ file [a, b] = some (asc "b.c") ∧ file [b, a] = some (asc "a.c") := by
  refine ⟨?_, ?_, ?_⟩
  · intro path u hu
    cases path with
    | nil => cases hu; simp [FSym.calls, hab]
    | cons k p =>
      have hleaf : ∀ s p u, (FSym.mk s []).at? p = some u → (u.calls.map Prod.fst).Nodup := by
        intro s p u h
        cases p with
        | nil => cases h; simp [FSym.calls]
        | cons k p => simp [FSym.at?, FSym.calls, lookup] at h
      simp only [FSym.at?, FSym.calls, lookup] at hu
      split_ifs at hu
      · exact hleaf _ _ _ hu
      · exact hleaf _ _ _ hu
  · show Option.bind _ _ = _
    simp only [fileMap, visits, visitsCalls, List.flatMap_cons, List.flatMap_nil, List.append_nil, List.singleton_append]
    decide +kernel
  · show Option.bind _ _ = _
    simp only [fileMap, visits, visitsCalls, List.flatMap_cons, List.flatMap_nil, List.append_nil, List.singleton_append]
    decide +kernel

/-- C100 fails for aliases: a symbol that is emitted under two names has its file stored with the name it was created with only. -/
theorem alias_violated (i : FSym) (hi : i.calls = []) : (fileMap [(asc "foo", i), (asc "foo", i)]).get (asc "foo_alias") = none := by
  cases i with
  | mk s cs =>
    simp only [FSym.calls] at hi
    subst hi
    have h := table_get [(asc "foo", .mk s []), (asc "foo", .mk s [])] (by
      intro p hp path u hu
      simp only [List.mem_cons, List.not_mem_nil, or_false, or_self] at hp
      subst hp
      cases path with
      | nil => cases hu; simp [FSym.calls]
      | cons k p => simp [FSym.at?, FSym.calls, lookup] at hu) (asc "foo_alias")
    cases hg : (fileMap [(asc "foo", FSym.mk s []), (asc "foo", .mk s [])]).get (asc "foo_alias") with
    | none => rfl
    | some j =>
      rw [hg] at h
      obtain ⟨s', ⟨p, hp, path, h1, h2⟩, _⟩ := h
      simp only [List.mem_cons, List.not_mem_nil, or_false, or_self] at hp
      subst hp
      cases path with
      | nil => exact absurd (show asc "foo" = asc "foo_alias" from h2) (by decide)
      | cons k p => simp [srcAt_cons, FSym.calls, lookup] at h1

/-- C100 fails if the first sample of an inlined call has no file name: those of the later samples are not taken (for a function itself
they are). -/
theorem first_empty_violated (f g : Frame) (hf : f.invalid = false) (s : Src) :
    ([[(g, ⟨[], []⟩), (f, s)], [(g, s), (f, s)]].foldl (FSym.traverse true) FSym.new).srcAt [(f.off, g.func)] = some ⟨[], []⟩ := by
  rw [run_inlined _ _ _ _ (by simp)]
  have h1 : reach true [(f.off, g.func)] [(g, (⟨[], []⟩ : Src)), (f, s)] = some ⟨[], []⟩ := by
    simp [reach, walk, hf]
  rw [List.findSome?_cons, h1]
  rfl

/-- C100 fails when profiles are merged: a function keeps no file name if the last profile read has none for it (say, of version 2),
whatever the profiles before have. -/
theorem reread_violated (i : FSym) (sts : List (List FFrame)) (h : ∀ st ∈ sts, ∀ f, st.getLast? = some f → f.2.file = []) :
    (sts.foldl (FSym.traverse false) (i.setFile [])).src.file = [] := by
  have h0 : (i.setFile []).src.file = [] := by cases i; rfl
  rw [run_function, if_pos h0]
  have hn : (((sts.filterMap List.getLast?).map Prod.snd).find? fun s => s.file ≠ []) = none := by
    rw [List.find?_eq_none]
    intro s hs
    obtain ⟨f, hf, rfl⟩ := List.mem_map.1 hs
    obtain ⟨st, hst, hl⟩ := List.mem_filterMap.1 hf
    simp [h st hst f hl]
  rw [hn]
  exact h0

/-- The file names of `read_by_name`. -/
def exRead : List (List FFrame) := [[(⟨asc "f", 0, 2, 0⟩, ⟨[], asc "f.h"⟩), (⟨asc "main", 0, 5, 0⟩, ⟨[], asc "m.c"⟩)]]

/-- The hypotheses of `read_by_name` hold, and it gives the file of the inlined call. -/
theorem ex_read : (exRead.foldl (FSym.traverse false) (FSym.new.setFile (asc "m.c"))).srcAt [(21474836480, asc "f")] = some ⟨[], asc "f.h"⟩ ∧
    ByName (fun m => ⟨[], if m = asc "f" then asc "f.h" else asc "m.c"⟩) (asc "main")
      (exRead.foldl (FSym.traverse false) (FSym.new.setFile (asc "m.c"))) := by
  constructor
  · rw [run_inlined _ _ _ _ (by simp)]
    decide +kernel
  · refine read_by_name (fun m => if m = asc "f" then asc "f.h" else asc "m.c") (asc "main") exRead FSym.new rfl ?_ ?_
    · intro path s hp h
      cases path with
      | nil => exact absurd rfl hp
      | cons k p => cases h
    · intro st hst f t h
      simp only [exRead, List.mem_singleton] at hst
      subst hst
      cases h
      exact ⟨by decide +kernel, by intro g hg; rw [List.mem_singleton] at hg; subst hg; decide +kernel⟩

end Verif.FileNames

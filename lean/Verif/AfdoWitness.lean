import Verif.AfdoTable
import Mathlib.Tactic.FinCases

/-! # C07: concrete cases, and how reading accumulates into an existing map (C46) -/
namespace Verif.Afdo
open Verif Verif.Gcov Verif.SymbolMap

theorem sampleSyms_wf : ∀ q ∈ sampleSyms, q.2.sym.WF := by
  intro q hq
  simp only [sampleSyms, List.mem_cons, List.not_mem_nil, or_false] at hq
  rcases hq with rfl | rfl <;>
    simp [Sym.WF, WFCalls, OMap.Sorted]

theorem sampleProfile_fits : ProfileFits sampleProfile where
  nodup := by decide +kernel
  tops := by
    intro q hq
    change q ∈ sampleSyms at hq
    simp only [sampleSyms, List.mem_cons, List.not_mem_nil, or_false] at hq
    rcases hq with rfl | rfl <;>
      exact ⟨by simp [SymFits, CallsFit, PosFits, LocFits], by decide, by decide⟩
  count := by decide
  names := by
    have : ∀ n ∈ profileNames sampleSyms, (0 : UInt8) ∉ n ∧ n.length + 4 < 16384 := by
      decide +kernel
    exact this
  table := by decide +kernel
  files := by intro n hn; cases hn
  numFiles := by decide
  fileIdx := by intro n i h; cases h
  summary := ⟨by decide, by decide, by decide, by decide, by decide, by decide, by decide +kernel⟩
  wsLen := by decide +kernel
  ws := by
    intro w hw
    have := List.eq_of_mem_replicate hw
    subst this
    decide

/-- Case for `afdo_roundtrip_partial`: the sample profile meets every hypothesis. -/
example : ∃ b R, writeFile 3 sampleProfile = some b ∧ readFile false .all [] [] b = some R ∧
    ∀ q ∈ sampleProfile.syms, ∃ s', OMap.find? R.map q.1 = some s' ∧ SameFunction q.2 s' := by
  obtain ⟨b, hb⟩ := writer_total 3 sampleProfile sampleSyms_wf (by
    intro q hq
    change q ∈ sampleSyms at hq
    have hn : ∀ n ∈ symNames q.2.sym, n ≠ [] := by
      have : ∀ q ∈ sampleSyms.map (fun q => symNames q.2.sym), ∀ n ∈ q, n ≠ [] := by decide +kernel
      exact this _ (List.mem_map.2 ⟨q, hq, rfl⟩)
    refine ⟨?_, ?_⟩
    · have : ∀ n ∈ sampleSyms.map Prod.fst, n ≠ [] := by decide +kernel
      exact this _ (List.mem_map.2 ⟨q, hq, rfl⟩)
    · intro path u loc c hu hl
      exact hn [] ((mem_symNames q.2.sym (sampleSyms_wf q hq) []).2
        ⟨path, u, hu, Or.inl ⟨loc, c, hl⟩⟩) rfl)
  obtain ⟨R, h1, _, h3, _⟩ := afdo_roundtrip_partial 3 (by decide) sampleProfile sampleProfile_fits
    sampleSyms_wf false .all
    (by have : ∀ n ∈ profileNames sampleSyms, fixName n = n := by decide +kernel
        exact this)
    (by
      intro q hq n hn
      have : ∀ l ∈ sampleSyms.map (fun q => symTargets q.2.sym), ∀ n ∈ l,
          originalName .all n = n := by decide +kernel
      exact this _ (List.mem_map.2 ⟨q, hq, rfl⟩) n hn) b hb
  exact ⟨b, R, hb, h1, fun q hq => by
    obtain ⟨s', h4, h5, _⟩ := h3 q hq
    exact ⟨s', h4, h5⟩⟩

/-- "aaD2Ev" and "aaD4Ev". -/
def nameD2 : Name := [97, 97, 68, 50, 69, 118]
def nameD4 : Name := [97, 97, 68, 52, 69, 118]

/-- Two destructors of the same class. -/
def collidingProfile : Profile :=
  ⟨[(nameD2, ⟨.mk ⟨5, 1, [(4294967296, ⟨5, 1, []⟩)]⟩ [], 0⟩),
    (nameD4, ⟨.mk ⟨9, 2, [(4294967296, ⟨9, 1, []⟩)]⟩ [], 0⟩)],
   ⟨14, 9, 2, 2, 2, []⟩, [], fun _ => none, List.replicate 128 (0, 0)⟩

/-- C07 fails for the rewritten suffixes: the function `…D4Ev` is written under the name `…D2Ev`, and
the 9 samples of the second function are lost when the file is read. -/
theorem afdo_roundtrip_violated :
    ((writeFile 2 collidingProfile).bind (fun b => readFile false .all [] [] b)).map (fun R =>
      (R.map.map Prod.fst, (OMap.find? R.map nameD2).map (fun s => (s.data.total, s.data.head)),
        (OMap.find? R.map nameD4).isNone)) =
      some ([nameD2], some (5, 1), true) := by decide +kernel

end Verif.Afdo

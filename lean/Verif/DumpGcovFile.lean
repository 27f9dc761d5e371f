import Verif.DumpGcovMain
import Verif.Merger
import Verif.AfdoTable

/-! # C99: the dump_gcov command -/
namespace Verif.Dump
open Verif Verif.SymbolMap Verif.Afdo

/-! ## Model -/

/-- The file name of a symbol (profile_reader.cc:51-55): from the entry of its name in the name table.  Simplified: if a table had
a name twice, the entry that a function refers to would count, not the first one; the writer lists a name once. -/
def fileOf (R : ReadResult) (n : Name) : Name :=
  match R.names.find? fun x => decide (x.1 = n) with
  | none => []
  | some x => (R.files[x.2]?).getD []

/-- `dump_gcov` (dump_gcov.cc:24-38); `none`: a `CHECK` fails. -/
def dumpGcov (pol : Policy) (bytes : List UInt8) : Option (List UInt8) :=
  (readFile false pol [] [] bytes).map fun R => dump (fileOf R) R.ts R.map

/-! ## Specification -/

/-- The file name stored with a name. -/
def sourceFile (v : Nat) (p : Profile) (n : Name) : Name := if v ≥ 3 then ((p.fileIdx n).bind fun i => p.files[i]?).getD [] else []

/-- The lines say what is in the profile that was written. -/
structure FileLists (v : Nat) (p : Profile) (fs : List Fact) : Prop where
  fns : ∀ n f t h s, .fn n f t h s ∈ fs ↔ ∃ q, (n, q) ∈ p.syms ∧ 0 < samples q.sym ∧ f = sourceFile v p n ∧ t = samples q.sym ∧
    h = q.sym.data.head ∧ s = if v ≥ 3 then q.ts else 0
  insts : ∀ n path f t, .inst n path f t ∈ fs ↔ ∃ q k u, (n, q) ∈ p.syms ∧ 0 < samples q.sym ∧ path.getLast? = some k ∧
    q.sym.at? path = some u ∧ hasLoc u = true ∧ f = sourceFile v p k.2 ∧ t = samples u
  counts : ∀ n path off c tg, .count n path off c tg ∈ fs ↔ ∃ q u i, (n, q) ∈ p.syms ∧ 0 < samples q.sym ∧
    q.sym.at? path = some u ∧ OMap.find? u.data.pos off = some i ∧ c = i.count ∧ IsTargets tg i.targets
  order : fs.Pairwise Before

/-! ## Proof -/

theorem at_append (s : Sym) (p q : List Callsite) : s.at? (p ++ q) = (s.at? p).bind fun u => u.at? q := by
  induction p generalizing s with
  | nil => rfl
  | cons k p ih =>
    simp only [List.cons_append, Sym.at?]
    cases lookup s.calls k with
    | none => rfl
    | some c => exact ih c

theorem callsFit_lookup : ∀ {cs : List (Callsite × Sym)}, CallsFit cs → ∀ {k : Callsite} {c : Sym}, lookup cs k = some c → LocFits k.1 ∧ SymFits c
  | [], _, k, c, h => by cases h
  | (k', s) :: t, hf, k, c, h => by
    rw [CallsFit] at hf
    rw [lookup] at h
    split_ifs at h with hk
    · cases h
      rw [hk]
      exact ⟨hf.1, hf.2.1⟩
    · exact callsFit_lookup hf.2.2 h

theorem fits_at {s : Sym} (h : SymFits s) {path : List Callsite} {u : Sym} (hu : s.at? path = some u) : SymFits u := by
  induction path generalizing s with
  | nil => simp only [Sym.at?, Option.some.injEq] at hu; exact hu ▸ h
  | cons k p ih =>
    simp only [Sym.at?] at hu
    cases hk : lookup s.calls k with
    | none => simp [hk] at hu
    | some c =>
      simp only [hk] at hu
      cases s with
      | mk d cs =>
        rw [SymFits] at h
        exact ih (callsFit_lookup h.2.2.2 hk).2 hu

theorem loc_lt {off : Nat} (h : LocFits off) : off < 281474976710656 := by
  have := h.1
  omega

/-- Printable, by paths. -/
theorem printable_of {file : Name → Name} : ∀ (s : Sym), s.WF →
    (∀ path d, s.node? path = some d → ∀ p ∈ d.pos, p.1 < 281474976710656 ∧ ∀ t ∈ p.2.targets, Clean t.1) →
    (∀ path k d, s.node? (path ++ [k]) = some d → k.1 < 281474976710656 ∧ Clean k.2 ∧ Clean (file k.2)) → Printable file s := by
  have hd : ∀ s : Sym, s.node? [] = some s.data := fun s => by cases s; rfl
  refine sym_ind ?_
  intro d cs ih hwf h1 h2
  rw [Sym.WF] at hwf
  rw [Printable]
  refine ⟨h1 [] d rfl, ?_⟩
  have all : ∀ p ∈ cs, p.1.1 < 281474976710656 ∧ Clean p.1.2 ∧ Clean (file p.1.2) ∧ Printable file p.2 := by
    intro p hp
    obtain ⟨a, b, c⟩ := h2 [] p.1 p.2.data ((node_cons hwf.2.2.1 _ _ _).2 ⟨p.2, hp, hd _⟩)
    refine ⟨a, b, c, ih p hp ((WFCalls_iff cs).1 hwf.2.2.2 p hp) ?_ ?_⟩
    · intro path d' hn
      exact h1 (p.1 :: path) d' ((node_cons hwf.2.2.1 _ _ _).2 ⟨p.2, hp, hn⟩)
    · intro path k d' hn
      exact h2 (p.1 :: path) k d' ((node_cons hwf.2.2.1 _ _ _).2 ⟨p.2, hp, hn⟩)
  clear ih hwf h1 h2
  induction cs with
  | nil => trivial
  | cons a t ih =>
    obtain ⟨k, s⟩ := a
    rw [PrintableCalls]
    exact ⟨all (k, s) List.mem_cons_self, ih fun p hp => all p (List.mem_cons_of_mem _ hp)⟩

theorem same_node {t : Top} {s' : Sym} (h : SameFunction t s') {path : List Callsite} {d' : Data} (hn : s'.node? path = some d') :
    ∃ u, t.sym.at? path = some u ∧ (path = [] ∨ hasLoc u = true) ∧ d'.pos = stored u.data.pos ∧ d'.total = samples u := by
  cases hu : t.sym.at? path with
  | none =>
    rw [h.none path (fun u hu' => by rw [hu] at hu'; cases hu')] at hn
    cases hn
  | some u =>
    by_cases hl : path = [] ∨ hasLoc u = true
    · obtain ⟨d2, g1, g2, g3⟩ := h.node path u hu hl
      rw [hn] at g1
      cases g1
      exact ⟨u, rfl, hl, g2, g3⟩
    · push Not at hl
      rw [h.none path (fun u' hu' => by
        rw [hu] at hu'
        cases hu'
        exact ⟨hl.1, by simpa using hl.2⟩)] at hn
      cases hn

theorem find_stored (m : PosMap) (off : Nat) : OMap.find? (stored m) off = (OMap.find? m off).map fun p => { p with numInst := 1 } := by
  unfold stored
  induction m with
  | nil => rfl
  | cons a t ih =>
    obtain ⟨k, v⟩ := a
    simp only [List.map_cons, OMap.find?]
    split_ifs
    · rfl
    · exact ih

theorem hasLoc_pos {u : Sym} {off : Nat} {i : PInfo} (h : OMap.find? u.data.pos off = some i) : hasLoc u = true := by
  cases u with
  | mk d cs =>
    have := OMap.mem_of_find?_some h
    rw [hasLoc]
    cases hp : d.pos with
    | nil => simp only [Sym.data] at this; rw [hp] at this; cases this
    | cons => rfl

/-- **C99**: for a file written from a profile (C07, with its conditions), `dump_gcov` prints a listing that can be read line by
line and says exactly what is in the profile. -/
theorem dump_written (v : Nat) (hv : v < 2 ^ 32) (p : Profile) (hp : ProfileFits p) (hwf : ∀ q ∈ p.syms, q.2.sym.WF) (pol : Policy)
    (hfix : ∀ n ∈ profileNames p.syms, fixName n = n) (hst : ∀ q ∈ p.syms, ∀ n ∈ symTargets q.2.sym, originalName pol n = n)
    (hclean : ∀ n ∈ profileNames p.syms, Clean n) (hfiles : ∀ f ∈ p.files, Clean f)
    (hsum : ∀ q ∈ p.syms, samples q.2.sym < 18446744073709551616) (b : List UInt8) (hw : writeFile v p = some b) :
    ∃ text fs, dumpGcov pol b = some text ∧ readDump text = some fs ∧ FileLists v p fs := by
  have hread := readFile_enc v (by simpa using hv) p hp false pol hfix hst b hw [] [] OMap.sorted_nil (Or.inr (fun q _ => rfl))
  obtain ⟨R, hR, hnone, hsome, _⟩ := afdo_roundtrip_partial v hv p hp hwf false pol hfix hst b hw
  have hRm : R.map = loadAll p.syms [] := by rw [hread] at hR; cases hR; rfl
  have hnames : R.names = (stringTable p.syms).map fun n => (n, if v ≥ 3 then (p.fileIdx n).getD 4294967295 else 4294967295) := by
    rw [hread] at hR; cases hR; rfl
  have hRf : R.files = if v ≥ 3 then p.files else [] := by rw [hread] at hR; cases hR; rfl
  have hall := loadAll_find? p.syms hp.nodup [] OMap.sorted_nil
  have hsorted : OMap.Sorted R.map := hRm ▸ hall.1
  have hfile : ∀ n ∈ profileNames p.syms, fileOf R n = sourceFile v p n := by
    intro n hn
    have hmem := (mem_stringTable p.syms n).2 hn
    have hfind : ∀ l : List Name, n ∈ l → (l.map fun n => (n, if v ≥ 3 then (p.fileIdx n).getD 4294967295 else 4294967295)).find?
        (fun x => decide (x.1 = n)) = some (n, if v ≥ 3 then (p.fileIdx n).getD 4294967295 else 4294967295) := by
      intro l
      induction l with
      | nil => intro h; cases h
      | cons a t ih =>
        intro h
        rw [List.map_cons, List.find?_cons]
        by_cases ha : a = n
        · subst ha; simp
        · simp only [ha, decide_false]
          exact ih ((List.mem_cons.1 h).resolve_left fun e => ha e.symm)
    unfold fileOf sourceFile
    rw [hnames, hfind _ hmem, hRf]
    simp only
    by_cases h3 : v ≥ 3
    · simp only [h3, if_true]
      cases hi : p.fileIdx n with
      | none =>
        have := hp.numFiles
        simp only [Option.getD_none, Option.bind_none]
        rw [List.getElem?_eq_none (by omega)]
        rfl
      | some i => rfl
    · simp [h3]
  have hsf : ∀ n, Clean (sourceFile v p n) := by
    intro n
    unfold sourceFile
    have hnil : Clean [] := by simp [Clean]
    split_ifs
    · cases hi : p.fileIdx n with
      | none => exact hnil
      | some i =>
        simp only [Option.bind_some]
        cases hg : p.files[i]? with
        | none => exact hnil
        | some f => exact hfiles f (List.mem_of_getElem? hg)
    · exact hnil
  have hmk : ∀ n s, OMap.find? R.map n = some s → ∃ q, (n, q) ∈ p.syms ∧ SameFunction q s ∧
      OMap.find? R.ts n = some (if v ≥ 3 then q.ts else 0) := by
    intro n s hs
    by_cases hn : n ∈ p.syms.map Prod.fst
    · obtain ⟨q, hq, rfl⟩ := List.mem_map.1 hn
      obtain ⟨s', h1, h2, h3⟩ := hsome q hq
      rw [hs] at h1
      cases h1
      exact ⟨q.2, hq, h2, h3⟩
    · rw [hnone n hn] at hs
      cases hs
  have hwfR : ∀ n s, OMap.find? R.map n = some s → s.WF := by
    intro n s hs
    rw [hRm, hall.2 n] at hs
    cases hq : OMap.find? p.syms n with
    | none => rw [hq] at hs; cases hs
    | some q =>
      rw [hq] at hs
      simp only [OMap.find?, Option.getD_none, Option.some.injEq] at hs
      subst hs
      exact Merger.loadTop_WF _ _ Sym.WF.new
  have hnode0 : ∀ s : Sym, s.node? [] = some s.data := fun s => by cases s; rfl
  have htotal : ∀ q s, SameFunction q s → s.data.total = samples q.sym := by
    intro q s h
    obtain ⟨u, e1, _, _, e4⟩ := same_node h (hnode0 s)
    simp only [Sym.at?, Option.some.injEq] at e1
    rw [e4, e1]
  have hname : ∀ n q, (n, q) ∈ p.syms → n ∈ profileNames p.syms := fun n q h => (mem_profileNames p.syms hwf n).2 (Or.inr (.func q h))
  have hcallee : ∀ n q, (n, q) ∈ p.syms → ∀ path k u, q.sym.at? (path ++ [k]) = some u → k.2 ∈ profileNames p.syms ∧ LocFits k.1 := by
    intro n q hq path k u hu
    rw [at_append] at hu
    obtain ⟨w, hw1, hw2⟩ := Option.bind_eq_some_iff.1 hu
    simp only [Sym.at?] at hw2
    cases hl : lookup w.calls k with
    | none => simp [hl] at hw2
    | some c =>
      refine ⟨(mem_profileNames p.syms hwf k.2).2 (Or.inr (.callee n q hq path w hw1 k.1 c hl)), ?_⟩
      have := fits_at (hp.tops _ hq).sym hw1
      cases w with
      | mk d cs =>
        rw [SymFits] at this
        exact (callsFit_lookup this.2.2.2 hl).1
  have hF : Fits (fileOf R) R.map := by
    constructor
    · exact hsorted
    · intro x hx
      exact hwfR x.1 x.2 ((OMap.find?_eq_some_iff hsorted).2 hx)
    · intro x hx
      obtain ⟨q, hq, _⟩ := hmk x.1 x.2 ((OMap.find?_eq_some_iff hsorted).2 hx)
      have := hname _ _ hq
      exact ⟨hclean _ this, by rw [hfile _ this]; exact hsf _⟩
    · intro x hx
      have hfx := (OMap.find?_eq_some_iff hsorted).2 hx
      obtain ⟨q, hq, hsame, _⟩ := hmk x.1 x.2 hfx
      apply printable_of _ (hwfR _ _ hfx)
      · intro path d hn y hy
        obtain ⟨u, e1, _, e3, _⟩ := same_node hsame hn
        rw [e3] at hy
        obtain ⟨z, hz, rfl⟩ := List.mem_map.1 hy
        have hfit := fits_at (hp.tops _ hq).sym e1
        cases u with
        | mk du cu =>
          rw [SymFits] at hfit
          refine ⟨loc_lt (hfit.1 z hz).1, ?_⟩
          intro t ht
          exact hclean _ ((mem_profileNames p.syms hwf t.1).2 (Or.inr (.target x.1 q hq path _ e1 z.1 z.2 hz t.2 ht)))
      · intro path k d hn
        obtain ⟨u, e1, _, _, _⟩ := same_node hsame hn
        obtain ⟨g1, g2⟩ := hcallee _ _ hq path k u e1
        exact ⟨loc_lt g2, hclean _ g1, by rw [hfile _ g1]; exact hsf _⟩
    · intro x hx
      obtain ⟨q, hq, hsame, _⟩ := hmk x.1 x.2 ((OMap.find?_eq_some_iff hsorted).2 hx)
      rw [htotal q _ hsame]
      exact hsum _ hq
  obtain ⟨fs, hfs, L⟩ := listing hF R.ts
  refine ⟨_, fs, by unfold dumpGcov; rw [hR]; rfl, hfs, ?_⟩
  have hget : ∀ n q, (n, q) ∈ p.syms → ∃ s, OMap.find? R.map n = some s ∧ SameFunction q s ∧
      OMap.find? R.ts n = some (if v ≥ 3 then q.ts else 0) := fun n q hq => hsome (n, q) hq
  constructor
  · intro n f t h s
    rw [L.fns]
    constructor
    · rintro ⟨y, h1, h2, rfl, rfl, rfl, rfl⟩
      obtain ⟨q, hq, hs, ht⟩ := hmk n y h1
      rw [htotal q y hs] at h2 ⊢
      refine ⟨q, hq, h2, hfile n (hname n q hq), rfl, hs.head, ?_⟩
      rw [ht]
      rfl
    · rintro ⟨q, hq, h2, rfl, rfl, rfl, rfl⟩
      obtain ⟨y, g1, g2, g3⟩ := hget n q hq
      refine ⟨y, g1, by rw [htotal q y g2]; exact h2, (hfile n (hname n q hq)).symm, (htotal q y g2).symm, g2.head.symm, ?_⟩
      rw [g3]
      rfl
  · intro n path f t
    rw [L.insts]
    constructor
    · rintro ⟨y, k, d, h1, h2, h3, h4, rfl, rfl⟩
      obtain ⟨q, hq, hs, _⟩ := hmk n y h1
      rw [htotal q y hs] at h2
      obtain ⟨u, e1, e2, _, e4⟩ := same_node hs h4
      have hne : path ≠ [] := by rintro rfl; cases h3
      have hk : path = path.dropLast ++ [k] := by
        rw [List.getLast?_eq_some_getLast hne, Option.some.injEq] at h3
        rw [← h3]
        exact (List.dropLast_append_getLast hne).symm
      exact ⟨q, k, u, hq, h2, h3, e1, e2.resolve_left hne, hfile _ (hcallee n q hq path.dropLast k u (by rw [← hk]; exact e1)).1, e4⟩
    · rintro ⟨q, k, u, hq, h2, h3, h4, h5, rfl, rfl⟩
      obtain ⟨y, g1, g2, _⟩ := hget n q hq
      obtain ⟨d, e1, _, e3⟩ := g2.node path u h4 (Or.inr h5)
      have hne : path ≠ [] := by rintro rfl; cases h3
      have hk : path = path.dropLast ++ [k] := by
        rw [List.getLast?_eq_some_getLast hne, Option.some.injEq] at h3
        rw [← h3]
        exact (List.dropLast_append_getLast hne).symm
      exact ⟨y, k, d, g1, by rw [htotal q y g2]; exact h2, h3, e1,
        (hfile _ (hcallee n q hq path.dropLast k u (by rw [← hk]; exact h4)).1).symm, e3.symm⟩
  · intro n path off c tg
    rw [L.counts]
    constructor
    · rintro ⟨y, d, i, h1, h2, h3, h4, rfl, h6⟩
      obtain ⟨q, hq, hs, _⟩ := hmk n y h1
      rw [htotal q y hs] at h2
      obtain ⟨u, e1, _, e3, _⟩ := same_node hs h3
      rw [e3, find_stored] at h4
      obtain ⟨j, hj, rfl⟩ := Option.map_eq_some_iff.1 h4
      exact ⟨q, u, j, hq, h2, e1, hj, rfl, h6⟩
    · rintro ⟨q, u, j, hq, h2, h3, h4, rfl, h6⟩
      obtain ⟨y, g1, g2, _⟩ := hget n q hq
      obtain ⟨d, e1, e2, _⟩ := g2.node path u h3 (Or.inr (hasLoc_pos h4))
      exact ⟨y, d, { j with numInst := 1 }, g1, by rw [htotal q y g2]; exact h2, e1, by rw [e2, find_stored, h4]; rfl, rfl, h6⟩
  · exact L.order

end Verif.Dump

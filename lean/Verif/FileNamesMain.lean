import Verif.FileNamesProps

/-! # C100: where the source of a symbol comes from, and the whole way to the listing -/
namespace Verif.FileNames
open Verif Verif.SymbolMap Verif.Afdo

/-! ## The samples -/

theorem along_src (conv : Bool) : ∀ (fr : List FFrame) (i : FSym), (FSym.along conv fr i).src = i.src
  | [], i => rfl
  | [_], i => rfl
  | f :: g :: t, .mk s cs => by
    rw [FSym.along]
    split_ifs <;> rfl

theorem srcAt_nil (i : FSym) : i.srcAt [] = some i.src := rfl

theorem srcAt_cons (i : FSym) (k : Callsite) (p : List Callsite) : i.srcAt (k :: p) = (lookup i.calls k).bind fun c => c.srcAt p := by
  simp only [FSym.srcAt, FSym.at?]
  cases lookup i.calls k <;> rfl

theorem along_srcAt (conv : Bool) : ∀ (fr : List FFrame) (i : FSym) (k : Callsite) (p : List Callsite),
    (FSym.along conv fr i).srcAt (k :: p) = (i.srcAt (k :: p)).or
      (if k :: p <+: walk conv (fr.map Prod.fst) then (fr[p.length + 1]?).map Prod.snd else none)
  | [], i, k, p => by simp [FSym.along, walk]
  | [_], i, k, p => by simp [FSym.along, walk]
  | f :: g :: t, .mk s cs, k, p => by
    rw [FSym.along]
    simp only [List.map_cons, walk]
    by_cases hc : (conv && f.1.invalid) = true
    · simp [hc]
    · rw [if_neg hc, if_neg hc, srcAt_cons, srcAt_cons]
      simp only [FSym.calls, List.cons_prefix_cons]
      rw [lookup_modifyAt]
      by_cases hk : k = (f.1.off, g.1.func)
      · rw [if_pos hk]
        simp only [hk, true_and, Option.bind_some]
        cases p with
        | nil =>
          rw [srcAt_nil, along_src]
          cases lookup cs (f.1.off, g.1.func) with
          | none => simp [FSym.src]
          | some c => simp [srcAt_nil]
        | cons k2 p =>
          rw [along_srcAt conv (g :: t)]
          simp only [List.map_cons, List.length_cons, List.getElem?_cons_succ]
          cases lookup cs (f.1.off, g.1.func) with
          | none => simp [srcAt_cons, FSym.calls, lookup]
          | some c => simp
      · simp [hk]

theorem traverse_srcAt (conv : Bool) (i : FSym) (stack : List FFrame) (k : Callsite) (p : List Callsite) :
    (i.traverse conv stack).srcAt (k :: p) = (i.srcAt (k :: p)).or (reach conv (k :: p) stack) := by
  unfold FSym.traverse
  cases hl : stack.getLast? with
  | none =>
    rw [List.getLast?_eq_none_iff] at hl
    subst hl
    simp [reach, walk]
  | some f =>
    simp only
    rw [along_srcAt]
    congr 1

theorem traverse_src (conv : Bool) (i : FSym) (stack : List FFrame) :
    (i.traverse conv stack).src = match stack.getLast? with | none => i.src | some f => fillSrc i.src f.2 := by
  unfold FSym.traverse
  cases stack.getLast? with
  | none => rfl
  | some f => simp only; rw [along_src]; rfl

/-- **C100, inlined calls**: the source of an inlined call is that of the first sample that was seen in it. -/
theorem run_inlined (conv : Bool) (sts : List (List FFrame)) (i : FSym) (path : List Callsite) (hp : path ≠ []) :
    (sts.foldl (FSym.traverse conv) i).srcAt path = (i.srcAt path).or (sts.findSome? (reach conv path)) := by
  cases path with
  | nil => exact absurd rfl hp
  | cons k p =>
    induction sts generalizing i with
    | nil => simp
    | cons st t ih =>
      rw [List.foldl_cons, ih, traverse_srcAt, List.findSome?_cons, Option.or_assoc]
      congr 1
      cases reach conv (k :: p) st <;> rfl

/-- **C100, functions**: the source of a function is the first one with a file name in the outermost frames of its samples. -/
theorem run_function (conv : Bool) (sts : List (List FFrame)) (i : FSym) :
    (sts.foldl (FSym.traverse conv) i).src =
      if i.src.file = [] then (((sts.filterMap List.getLast?).map Prod.snd).find? fun s => s.file ≠ []).getD i.src else i.src := by
  induction sts generalizing i with
  | nil => simp
  | cons st t ih =>
    rw [List.foldl_cons, ih, traverse_src]
    cases hl : st.getLast? with
    | none => simp [List.filterMap_cons, hl]
    | some f =>
      simp only [List.filterMap_cons, hl, List.map_cons, List.find?_cons, fillSrc]
      by_cases h1 : i.src.file = []
      · by_cases h2 : f.2.file = []
        · simp [h1, h2]
        · simp [h1, h2]
      · simp [h1]

/-! ## The same callsites as the counts -/

theorem matches_keys : ∀ {cs : List (Callsite × Sym)} {is : List (Callsite × FSym)}, MatchesCalls cs is → is.map Prod.fst = cs.map Prod.fst
  | [], [], _ => rfl
  | (k, s) :: t, (k', i) :: t', h => by
    rw [MatchesCalls] at h
    rw [List.map_cons, List.map_cons, matches_keys h.2.2, h.1]
  | [], _ :: _, h => absurd h (by simp [MatchesCalls])
  | _ :: _, [], h => absurd h (by simp [MatchesCalls])

/-- Both absent, or present and matching. -/
def MatchesOpt : Option Sym → Option FSym → Prop
  | none, none => True
  | some s, some i => Matches s i
  | _, _ => False

theorem matches_lookup : ∀ {cs : List (Callsite × Sym)} {is : List (Callsite × FSym)}, MatchesCalls cs is → ∀ k,
    MatchesOpt (lookup cs k) (lookup is k)
  | [], [], _, k => trivial
  | (k1, s) :: t, (k2, i) :: t', h, k => by
    rw [MatchesCalls] at h
    rw [lookup, lookup, ← h.1]
    split_ifs
    · exact h.2.1
    · exact matches_lookup h.2.2 k
  | [], _ :: _, h, _ => absurd h (by simp [MatchesCalls])
  | _ :: _, [], h, _ => absurd h (by simp [MatchesCalls])

theorem matches_modifyAt {f : Option Sym → Sym} {g : Option FSym → FSym} (hfg : ∀ o o', MatchesOpt o o' → Matches (f o) (g o')) (k : Callsite) :
    ∀ {cs : List (Callsite × Sym)} {is : List (Callsite × FSym)}, MatchesCalls cs is → MatchesCalls (modifyAt cs k f) (modifyAt is k g)
  | [], [], _ => by
    simp only [modifyAt, MatchesCalls, true_and, and_true]
    exact hfg none none trivial
  | (k1, s) :: t, (k2, i) :: t', h => by
    rw [MatchesCalls] at h
    rw [modifyAt, modifyAt, ← h.1]
    split_ifs
    · rw [MatchesCalls]
      exact ⟨rfl, hfg (some s) (some i) h.2.1, h.2.2⟩
    · rw [MatchesCalls]
      exact ⟨rfl, h.2.1, matches_modifyAt hfg k h.2.2⟩
  | [], _ :: _, h => absurd h (by simp [MatchesCalls])
  | _ :: _, [], h => absurd h (by simp [MatchesCalls])

theorem matches_new (s : Src) : Matches Sym.new (.mk s []) := by simp [Sym.new, Matches, MatchesCalls]

theorem matches_getD {o : Option Sym} {o' : Option FSym} (h : MatchesOpt o o') (s : Src) : Matches (o.getD Sym.new) (o'.getD (.mk s [])) := by
  cases o <;> cases o'
  · exact matches_new s
  · exact absurd h (by simp [MatchesOpt])
  · exact absurd h (by simp [MatchesOpt])
  · exact h

theorem matches_along (conv : Bool) (count : Nat) (leaf : Data → Data) : ∀ (fr : List FFrame) {s : Sym} {i : FSym}, Matches s i →
    Matches (Sym.addAlong count leaf (walk conv (fr.map Prod.fst)) s) (FSym.along conv fr i)
  | [], .mk d cs, .mk s is, h => by simpa [walk, Sym.addAlong, FSym.along, Matches] using h
  | [_], .mk d cs, .mk s is, h => by simpa [walk, Sym.addAlong, FSym.along, Matches] using h
  | f :: g :: t, .mk d cs, .mk s is, h => by
    rw [Matches] at h
    simp only [List.map_cons, walk]
    rw [FSym.along]
    by_cases hc : (conv && f.1.invalid) = true
    · rw [if_pos hc, if_pos hc, Sym.addAlong, Matches]
      exact h
    · rw [if_neg hc, if_neg hc, Sym.addAlong, Matches]
      exact matches_modifyAt (fun o o' ho => matches_along conv count leaf (g :: t) (matches_getD ho g.2)) _ h

/-- The counts and the sources of a symbol keep the same callsites when a sample is added (`addSourceCount`, `addIndirectCallTarget`
of C01). -/
theorem matches_traverse (conv : Bool) (count : Nat) (leaf : Data → Data) (stack : List FFrame) (hne : stack ≠ []) {s : Sym} {i : FSym}
    (h : Matches s i) : Matches (Sym.addAlong count leaf (walk conv (stack.map Prod.fst).reverse) s) (i.traverse conv stack) := by
  unfold FSym.traverse
  cases hl : stack.getLast? with
  | none => exact absurd (List.getLast?_eq_none_iff.1 hl) hne
  | some f =>
    simp only
    rw [← List.map_reverse]
    apply matches_along
    cases s; cases i
    exact h

theorem matches_at : ∀ (path : List Callsite) {s : Sym} {i : FSym}, Matches s i → MatchesOpt (s.at? path) (i.at? path)
  | [], s, i, h => h
  | k :: p, .mk d cs, .mk t is, h => by
    rw [Matches] at h
    have := matches_lookup h k
    simp only [Sym.at?, FSym.at?, Sym.calls, FSym.calls]
    cases h1 : lookup cs k with
    | none =>
      cases h2 : lookup is k with
      | none => trivial
      | some i => rw [h1, h2] at this; exact absurd this (by simp [MatchesOpt])
    | some c =>
      cases h2 : lookup is k with
      | none => rw [h1, h2] at this; exact absurd this (by simp [MatchesOpt])
      | some i =>
        rw [h1, h2] at this
        exact matches_at p this

theorem keys_of_matches {s : Sym} {i : FSym} (h : Matches s i) (hw : s.WF) : Keys i := by
  intro path u hu
  have := matches_at path h
  rw [hu] at this
  cases hs : s.at? path with
  | none => rw [hs] at this; exact absurd this (by simp [MatchesOpt])
  | some v =>
    rw [hs] at this
    have hv := at?_WF hw hs
    cases u with
    | mk s2 is =>
      cases v with
      | mk d cs =>
        simp only [MatchesOpt, Matches] at this
        simp only [FSym.calls]
        rw [matches_keys this]
        exact ((Sym.WF_iff _).1 hv).2.2.1

/-! ## Merging -/

theorem lookup_mergeF (acc cs : List (Callsite × FSym)) (hn : (cs.map Prod.fst).Nodup) (k : Callsite) :
    lookup (mergeF acc cs) k = match lookup cs k with
      | none => lookup acc k
      | some s => some (FSym.merge ((lookup acc k).getD FSym.new) s) := by
  induction cs generalizing acc with
  | nil => simp [mergeF, lookup]
  | cons a t ih =>
    obtain ⟨k', s⟩ := a
    rw [List.map_cons, List.nodup_cons] at hn
    rw [mergeF, ih _ hn.2]
    simp only [lookup, lookup_modifyAt]
    by_cases h : k = k'
    · subst h
      rw [lookup_eq_none_iff.2 hn.1]
      simp
    · simp [h]

/-- **C100, merging**: a merged function or inlined call keeps its source if it has a file name, otherwise it gets that of the other
symbol. -/
theorem merge_source (path : List Callsite) : ∀ (a b : FSym), Keys b → (a.merge b).srcAt path =
    match a.srcAt path, b.srcAt path with
    | some x, some y => some (if x.file = [] then y else x)
    | some x, none => some x
    | none, y => y := by
  induction path with
  | nil =>
    rintro ⟨x, cs⟩ ⟨y, ds⟩ _
    rfl
  | cons k p ih =>
    intro a b hb
    have hc : (a.merge b).calls = mergeF a.calls b.calls := by cases b; rfl
    rw [srcAt_cons, srcAt_cons, srcAt_cons, hc, lookup_mergeF _ _ (keys_self hb)]
    cases hl : lookup b.calls k with
    | none => cases lookup a.calls k with
      | none => rfl
      | some c => simp only [Option.bind_some, Option.bind_none]; cases c.srcAt p <;> rfl
    | some c =>
      simp only [Option.bind_some]
      rw [ih _ _ (keys_child hb hl)]
      cases lookup a.calls k with
      | some d => rfl
      | none =>
        simp only [Option.getD_none, Option.bind_none]
        cases p with
        | nil => simp [srcAt_nil, FSym.new, FSym.src]
        | cons k2 p => simp [srcAt_cons, FSym.new, FSym.calls, lookup]

mutual
theorem matches_merge : ∀ (b : Sym) (j : FSym) {a : Sym} {i : FSym}, Matches a i → Matches b j → Matches (a.merge b) (i.merge j)
  | .mk d cs, .mk s is, .mk d2 cs2, .mk s2 is2, h1, h2 => by
    rw [Sym.merge, FSym.merge, Matches]
    rw [Matches] at h1 h2
    exact matches_mergeF cs is h1 h2
theorem matches_mergeF : ∀ (cs : List (Callsite × Sym)) (is : List (Callsite × FSym)) {acc : List (Callsite × Sym)} {acc' : List (Callsite × FSym)},
    MatchesCalls acc acc' → MatchesCalls cs is → MatchesCalls (mergeCalls acc cs) (mergeF acc' is)
  | [], [], _, _, h, _ => by rw [mergeCalls, mergeF]; exact h
  | (k, s) :: t, (k', i) :: t', _, _, h, h2 => by
    rw [MatchesCalls] at h2
    rw [mergeCalls, mergeF, ← h2.1]
    exact matches_mergeF t t' (matches_modifyAt (fun o o' ho => matches_merge s i (matches_getD ho _) h2.2.1) _ h) h2.2.2
  | [], _ :: _, _, _, _, h => absurd h (by simp [MatchesCalls])
  | _ :: _, [], _, _, _, h => absurd h (by simp [MatchesCalls])
end

/-! ## Functions of one file -/

/-- The sources in function `n` are those of the names, by `F`. -/
def ByName (F : Name → Src) (n : Name) (i : FSym) : Prop := ∀ path s, i.srcAt path = some s → s = F (nameAt n path)

/-- The sources in a stack of function `n` are those of the names, by `F`. -/
def StackBy (F : Name → Src) (n : Name) (stack : List FFrame) : Prop :=
  ∀ f t, stack.reverse = f :: t → f.2 = F n ∧ ∀ g ∈ t, g.2 = F g.1.func

theorem walk_prefix (conv : Bool) : ∀ (fr : List Frame) (k : Callsite) (p : List Callsite), k :: p <+: walk conv fr →
    ∃ g, fr[p.length + 1]? = some g ∧ ((k :: p).getLast?.map Prod.snd) = some g.func
  | [], k, p, h => by simp [walk] at h
  | [_], k, p, h => by simp [walk] at h
  | f :: g :: t, k, p, h => by
    rw [walk] at h
    split_ifs at h with hc
    · simp at h
    · rw [List.cons_prefix_cons] at h
      cases p with
      | nil => exact ⟨g, rfl, by rw [h.1]; rfl⟩
      | cons k2 p =>
        obtain ⟨g', h1, h2⟩ := walk_prefix conv (g :: t) k2 p h.2
        refine ⟨g', by simpa using h1, ?_⟩
        rw [List.getLast?_cons_cons]
        exact h2

theorem reach_by {F : Name → Src} {n : Name} {conv : Bool} {stack : List FFrame} (h : StackBy F n stack) {path : List Callsite} (hp : path ≠ [])
    {s : Src} (hr : reach conv path stack = some s) : s = F (nameAt n path) := by
  cases path with
  | nil => exact absurd rfl hp
  | cons k p =>
    unfold reach at hr
    split_ifs at hr with hpre
    obtain ⟨g, h1, h2⟩ := walk_prefix conv _ k p hpre
    rw [List.getElem?_map] at h1
    obtain ⟨g', hg', rfl⟩ := Option.map_eq_some_iff.1 h1
    rw [List.length_cons, hg'] at hr
    cases hr
    cases hs : stack.reverse with
    | nil => rw [hs] at hg'; simp at hg'
    | cons f t =>
      rw [hs, List.getElem?_cons_succ] at hg'
      rw [(h f t hs).2 g' (List.mem_of_getElem? hg'), nameAt, h2]
      rfl

/-- **C100, samples of functions that have one file each**: every function and inlined call has the source of its name. -/
theorem run_by_name (F : Name → Src) (n : Name) (conv : Bool) (sts : List (List FFrame)) (hst : ∀ st ∈ sts, StackBy F n st)
    (hfile : (F n).file ≠ []) (hne : ∃ st ∈ sts, st ≠ []) : ByName F n (sts.foldl (FSym.traverse conv) FSym.new) := by
  have hlast : ∀ s ∈ (sts.filterMap List.getLast?).map Prod.snd, s = F n := by
    intro s hs
    obtain ⟨f, hf, rfl⟩ := List.mem_map.1 hs
    obtain ⟨st, hst', hl⟩ := List.mem_filterMap.1 hf
    cases hr : st.reverse with
    | nil => simp at hr; subst hr; cases hl
    | cons a t =>
      rw [List.getLast?_eq_head?_reverse, hr] at hl
      cases hl
      exact (hst st hst' _ t hr).1
  intro path s hs
  cases path with
  | nil =>
    rw [srcAt_nil, run_function] at hs
    simp only [FSym.new, FSym.src, if_true, Option.some.injEq] at hs
    cases hf : ((sts.filterMap List.getLast?).map Prod.snd).find? fun s => s.file ≠ [] with
    | some x =>
      rw [hf] at hs
      simp only [Option.getD_some] at hs
      subst hs
      rw [hlast _ (List.mem_of_find?_eq_some hf)]
      rfl
    | none =>
      rw [List.find?_eq_none] at hf
      obtain ⟨st, h1, h2⟩ := hne
      cases hl : st.getLast? with
      | none => exact absurd (List.getLast?_eq_none_iff.1 hl) h2
      | some f =>
        have hm : f.2 ∈ (sts.filterMap List.getLast?).map Prod.snd := List.mem_map.2 ⟨f, List.mem_filterMap.2 ⟨st, h1, hl⟩, rfl⟩
        have := hf _ hm
        rw [hlast _ hm] at this
        simp [hfile] at this
  | cons k p =>
    rw [run_inlined _ _ _ _ (by simp)] at hs
    have h0 : FSym.new.srcAt (k :: p) = none := rfl
    rw [h0, Option.none_or] at hs
    obtain ⟨st, hm, hr⟩ := List.exists_of_findSome?_eq_some hs
    exact reach_by (hst st hm) (by simp) hr

/-- **C100, the reader**: in a profile that is read, every function and inlined call has the file that the file gives for its name
(`file`), also where a function was read before. -/
theorem read_by_name (file : Name → Name) (n : Name) (sts : List (List FFrame)) (i : FSym) (hi : i.src.dir = [])
    (hin : ∀ path s, path ≠ [] → i.srcAt path = some s → s = ⟨[], file (nameAt n path)⟩)
    (hst : ∀ st ∈ sts, StackBy (fun m => ⟨[], file m⟩) n st) :
    ByName (fun m => ⟨[], file m⟩) n (sts.foldl (FSym.traverse false) (i.setFile (file n))) := by
  have h0 : (i.setFile (file n)).src = ⟨[], file n⟩ := by
    cases i with
    | mk s cs => simp only [FSym.src] at hi; simp [FSym.setFile, FSym.src, hi]
  intro path s hs
  cases path with
  | nil =>
    rw [srcAt_nil, run_function, h0] at hs
    simp only [Option.some.injEq] at hs
    subst hs
    split_ifs with hf
    · cases hx : ((sts.filterMap List.getLast?).map Prod.snd).find? fun s => s.file ≠ [] with
      | none => rfl
      | some x =>
        have h1 := List.mem_of_find?_eq_some hx
        have h2 := List.find?_some hx
        obtain ⟨f, hfm, rfl⟩ := List.mem_map.1 h1
        obtain ⟨st, hst', hl⟩ := List.mem_filterMap.1 hfm
        cases hr : st.reverse with
        | nil => simp at hr; subst hr; cases hl
        | cons a t =>
          rw [List.getLast?_eq_head?_reverse, hr] at hl
          cases hl
          exact (hst st hst' _ t hr).1
    · rfl
  | cons k p =>
    rw [run_inlined _ _ _ _ (by simp)] at hs
    have h1 : (i.setFile (file n)).srcAt (k :: p) = i.srcAt (k :: p) := by cases i; rfl
    rw [h1] at hs
    cases hx : i.srcAt (k :: p) with
    | some x =>
      rw [hx] at hs
      cases hs
      exact hin _ _ (by simp) hx
    | none =>
      rw [hx, Option.none_or] at hs
      obtain ⟨st, hm, hr⟩ := List.exists_of_findSome?_eq_some hs
      exact reach_by (hst st hm) (by simp) hr

/-- **C100**: if functions of the same name are in the same file, the file stored with the name of each function and inlined call
is its file. -/
theorem table_by_name (F : Name → Src) (syms : List (Name × FSym)) (hk : ∀ p ∈ syms, Keys p.2) (hF : ∀ p ∈ syms, ByName F p.1 p.2)
    (n : Name) (s : Src) (ho : Occurs syms n s) :
    s = F n ∧ ((fileMap syms).get n).bind (fun i => (fileMap syms).files[i]?) = some (F n).path := by
  have hby : ∀ s, Occurs syms n s → s = F n := by
    rintro s ⟨p, hp, path, h1, rfl⟩
    exact hF p hp path s h1
  refine ⟨hby s ho, ?_⟩
  have h := table_get syms hk n
  cases hg : (fileMap syms).get n with
  | none => rw [hg] at h; exact absurd ho (h s)
  | some i =>
    rw [hg] at h
    obtain ⟨s', h1, h2⟩ := h
    rw [Option.bind_some, h2, hby s' h1]

theorem get_lt (syms : List (Name × FSym)) (n : Name) (i : Nat) (h : (fileMap syms).get n = some i) : i < (fileMap syms).files.length := by
  have h2 := table_last syms n
  rw [h, Option.map_some] at h2
  obtain ⟨v, _, hv⟩ := Option.map_eq_some_iff.1 h2.symm
  exact (List.getElem?_eq_some_iff.1 hv.symm).1

/-! ## To the listing -/

/-- **C100, the whole way**: a profile with its file table is written, and dump_gcov lists each function and inlined call with
its source file. -/
theorem listed_files (F : Name → Src) (v : Nat) (hv : v < 2 ^ 32) (h3 : 3 ≤ v) (p : Profile) (hp : ProfileFits p) (hwf : ∀ q ∈ p.syms, q.2.sym.WF)
    (pol : Policy) (hfix : ∀ n ∈ profileNames p.syms, fixName n = n) (hst : ∀ q ∈ p.syms, ∀ n ∈ symTargets q.2.sym, originalName pol n = n)
    (hclean : ∀ n ∈ profileNames p.syms, Dump.Clean n) (hfiles : ∀ f ∈ p.files, Dump.Clean f)
    (hsum : ∀ q ∈ p.syms, samples q.2.sym < 18446744073709551616) (b : List UInt8) (hw : writeFile v p = some b)
    (fsyms : List (Name × FSym)) (hm : List.Forall₂ (fun q r => q.1 = r.1 ∧ Matches q.2.sym r.2) p.syms fsyms)
    (hF : ∀ r ∈ fsyms, ByName F r.1 r.2) (ht : p.files = (fileMap fsyms).files) (hi : p.fileIdx = (fileMap fsyms).get) :
    ∃ text fs, Dump.dumpGcov pol b = some text ∧ Dump.readDump text = some fs ∧ Dump.FileLists v p fs ∧
      (∀ n f t h s, Dump.Fact.fn n f t h s ∈ fs → f = (F n).path) ∧
      (∀ n path f t, Dump.Fact.inst n path f t ∈ fs → f = (F (nameAt n path)).path) := by
  obtain ⟨text, fs, h1, h2, h4⟩ := Dump.dump_written v hv p hp hwf pol hfix hst hclean hfiles hsum b hw
  have hfind : ∀ q ∈ p.syms, ∃ r ∈ fsyms, q.1 = r.1 ∧ Matches q.2.sym r.2 := by
    intro q hq
    obtain ⟨i, hi', hq'⟩ := List.getElem_of_mem hq
    have hlen := hm.length_eq
    have := (List.forall₂_iff_get.1 hm).2 i hi' (hlen ▸ hi')
    refine ⟨_, List.get_mem fsyms ⟨i, hlen ▸ hi'⟩, ?_⟩
    simp only [List.get_eq_getElem] at this ⊢
    rw [hq'] at this
    exact this
  have hk : ∀ r ∈ fsyms, Keys r.2 := by
    intro r hr
    obtain ⟨i, hi', hr'⟩ := List.getElem_of_mem hr
    have hlen := hm.length_eq
    have := (List.forall₂_iff_get.1 hm).2 i (hlen ▸ hi') hi'
    simp only [List.get_eq_getElem] at this
    rw [hr'] at this
    exact keys_of_matches this.2 (hwf _ (List.getElem_mem _))
  have hsrc : ∀ q ∈ p.syms, ∀ path u, q.2.sym.at? path = some u → Dump.sourceFile v p (nameAt q.1 path) = (F (nameAt q.1 path)).path := by
    intro q hq path u hu
    obtain ⟨r, hr, hn, hmr⟩ := hfind q hq
    have hat := matches_at path hmr
    rw [hu] at hat
    cases hra : r.2.at? path with
    | none => rw [hra] at hat; exact absurd hat (by simp [MatchesOpt])
    | some c =>
      have := (table_by_name F fsyms hk hF (nameAt q.1 path) c.src ⟨r, hr, path, by rw [FSym.srcAt, hra]; rfl, by rw [hn]⟩).2
      rw [Dump.sourceFile, if_pos h3, hi, ht, this]
      rfl
  refine ⟨text, fs, h1, h2, h4, ?_, ?_⟩
  · intro n f t h s hmem
    obtain ⟨q, hq, _, rfl, _⟩ := (h4.fns n f t h s).1 hmem
    exact hsrc (n, q) hq [] q.sym rfl
  · intro n path f t hmem
    obtain ⟨q, k, u, hq, _, hlast, hu, _, rfl, _⟩ := (h4.insts n path f t).1 hmem
    have := hsrc (n, q) hq path u hu
    simp only [nameAt, hlast, Option.map_some, Option.getD_some] at this ⊢
    exact this

end Verif.FileNames

import Verif.LlvmProps

/-! Special symbols when LLVM profiles are read (C57), and what reading and writing does not preserve. -/
namespace Verif.SymbolMap

/-! ### Specification -/

/-- How a function is treated. -/
inductive SymKind where
  /-- never read -/
  | strip
  /-- read if it is in one profile only -/
  | sole
  /-- recorded as cold -/
  | cold
  /-- read always -/
  | plain
deriving DecidableEq

/-- The kind of a function, from the configured name prefixes. -/
def kindOf (sp : Option Special) (f : Name) : SymKind :=
  match sp with
  | none => .plain
  | some sp =>
    if ∃ p ∈ sp.stripAll, p <+: f then .strip
    else if ∃ p ∈ sp.keepSole, p <+: f then .sole
    else if ∃ p ∈ sp.keepCold, p <+: f then .cold
    else .plain

/-- What is known of `f` after reading the profiles `xs` into an empty map. -/
def SpecialOk (sp : Option Special) (f : Name) (xs : List (Name × FSamples)) (m' : SymMap) : Prop :=
  match kindOf sp f with
  | .plain => ReadAll f xs [] m'
  | .strip => OMap.find? m' f = none
  | .sole =>
    match entries f xs with
    | [] => OMap.find? m' f = none
    | [s] => ReadAll f [(f, s)] [] m'
    | s :: _ => ∃ m1, ReadAll f [(f, s)] [] m1 ∧ OMap.find? m' f = some (.mk ⟨0, 0, (m1.get f).data.pos⟩ (m1.get f).calls)
  | .cold => OMap.find? m' f = if entries f xs = [] then none else some (.mk ⟨11, 0, []⟩ [])

/-! ### Proof -/

/-- Functions never read again. -/
def skipped (sp : Option Special) (f : Name) (xs : List (Name × FSamples)) : Prop :=
  (kindOf sp f = .sole ∧ 2 ≤ (entries f xs).length) ∨ (kindOf sp f = .cold ∧ entries f xs ≠ [])

theorem entries_snoc (f : Name) (xs : List (Name × FSamples)) (x : Name × FSamples) :
    entries f (xs ++ [x]) = entries f xs ++ if x.1 = f then [x.2] else [] := by
  unfold entries
  rw [List.filter_append, List.map_append]
  congr 1
  by_cases h : x.1 = f
  · rw [List.filter_cons_of_pos (by simpa using h), if_pos h]; rfl
  · rw [List.filter_cons_of_neg (by simpa using h), if_neg h]; rfl

theorem entries_cons (f : Name) (xs : List (Name × FSamples)) (x : Name × FSamples) :
    entries f (x :: xs) = if x.1 = f then x.2 :: entries f xs else entries f xs := by
  unfold entries
  by_cases h : x.1 = f
  · rw [List.filter_cons_of_pos (by simpa using h), if_pos h]; rfl
  · rw [List.filter_cons_of_neg (by simpa using h), if_neg h]

theorem ReadAll.congr {f : Name} {xs xs' : List (Name × FSamples)} {m m' m1 m1' : SymMap} (h : ReadAll f xs m m') (he : entries f xs' = entries f xs)
    (h1 : OMap.find? m1 f = OMap.find? m f) (h2 : OMap.find? m1' f = OMap.find? m' f) : ReadAll f xs' m1 m1' := by
  have g1 : m1.get f = m.get f := by unfold SymMap.get; rw [h1]
  have g2 : m1'.get f = m'.get f := by unfold SymMap.get; rw [h2]
  refine ⟨?_, ?_, ?_, ?_, ?_, ?_, ?_, ?_, ?_⟩
  · rw [he, h1, h2]; exact h.exists_
  · rw [he, h1, h2]; exact h.other
  · rw [he, g1, g2]; exact h.node
  · rw [he, g1, g2]; exact h.total
  · rw [he, g1, g2]; exact h.total0
  · rw [he, g1, g2]; exact h.head
  · rw [he, g1, g2]; exact h.count
  · rw [he, g1, g2]; exact h.inst
  · rw [he, g1, g2]; exact h.target

theorem ReadAll.snoc {f : Name} {s : FSamples} {xs : List (Name × FSamples)} {m m1 m' : SymMap} (h : ReadAll f xs m m1)
    (h' : ReadEffect f s m1 m') : ReadAll f (xs ++ [(f, s)]) m m' := by
  have he : entries f (xs ++ [(f, s)]) = entries f xs ++ [s] := by rw [entries_snoc, if_pos rfl]
  refine ⟨?_, ?_, ?_, ?_, ?_, ?_, ?_, ?_, ?_⟩
  · rw [he]; simp [h'.exists_]
  · rw [he]; intro e; simp at e
  · intro p
    rw [h'.node, h.node, he]
    simp only [List.mem_append, List.mem_singleton, or_and_right, exists_or, exists_eq_left, or_assoc]
  · intro p hp
    rw [h'.total p hp, h.total p hp, he, List.map_append, List.sum_append]; simp; omega
  · rw [h'.total0, h.total0, he, List.foldl_append]; rfl
  · intro p
    rw [h'.head, h.head, he, List.map_append, List.sum_append]
    split <;> simp <;> omega
  · intro p loc
    rw [h'.count, h.count, he, List.map_append, List.sum_append]; simp; omega
  · intro p loc
    rw [h'.inst, h.inst, he, List.filter_append, List.length_append]
    by_cases hl : s.hasLoc p loc = true
    · rw [List.filter_cons_of_pos (p := fun s : FSamples => s.hasLoc p loc) hl, if_pos hl]; simp; omega
    · rw [List.filter_cons_of_neg (p := fun s : FSamples => s.hasLoc p loc) hl, if_neg hl]; simp
  · intro p loc t
    rw [h'.target, h.target, he, List.foldl_append]; rfl

theorem any_prefix (ps : List Name) (f : Name) : (ps.any fun p => p.isPrefixOf f) = true ↔ ∃ p ∈ ps, p <+: f := by
  simp [List.any_eq_true]

/-- The state of `f` depends on what is in the map for `f` only. -/
theorem SpecialOk.congr {sp : Option Special} {f : Name} {xs xs' : List (Name × FSamples)} {m m' : SymMap} (h : SpecialOk sp f xs m)
    (he : entries f xs' = entries f xs) (h2 : OMap.find? m' f = OMap.find? m f) : SpecialOk sp f xs' m' := by
  unfold SpecialOk at h ⊢
  cases hk : kindOf sp f <;> simp only [hk] at h ⊢
  · rw [h2]; exact h
  · rw [he]
    rcases hl : entries f xs with _ | ⟨s, _ | ⟨s', t⟩⟩ <;> simp only [hl] at h ⊢
    · rw [h2]; exact h
    · exact h.congr rfl rfl h2
    · obtain ⟨m1, a, b⟩ := h
      exact ⟨m1, a, by rw [h2]; exact b⟩
  · rw [he, h2]; exact h
  · exact h.congr he rfl h2

theorem skipped_congr {sp : Option Special} {f : Name} {xs xs' : List (Name × FSamples)} (he : entries f xs' = entries f xs) :
    skipped sp f xs' ↔ skipped sp f xs := by
  unfold skipped; rw [he]

theorem contains_false {l : List Name} {f : Name} : l.contains f = false ↔ f ∉ l := by simp

/-- C57: reading any number of profiles with any special symbols never fails, and how a function is treated depends on its name and on how
often it occurs only: functions to be stripped are absent; functions to be kept if they occur once are read if they do, and otherwise have
neither total nor entry count; functions to be kept as cold have the total 11 and nothing else; all others are read. -/
theorem read_special (pol : Policy) (sp : Option Special) (xs : List (Name × FSamples)) (hx : ∀ x ∈ xs, FSOk pol x.2) :
    ∃ m' skip, readProfiles pol sp [] xs = some (m', skip) ∧ m'.WF ∧ (∀ f, f ∈ skip ↔ skipped sp f xs) ∧ ∀ f, SpecialOk sp f xs m' := by
  induction xs using List.reverseRecOn with
  | nil =>
    refine ⟨[], [], rfl, ⟨List.Pairwise.nil, fun x hx => by cases hx⟩, fun f => ?_, fun f => ?_⟩
    · unfold skipped; simp [entries]
    · unfold SpecialOk
      cases kindOf sp f
      · rfl
      · rfl
      · simp [entries, OMap.find?]
      · exact ReadAll.nil f []
  | append_singleton xs x ih =>
    obtain ⟨m, skip, e, w, hskip, hok⟩ := ih fun y hy => hx y (by simp [hy])
    obtain ⟨g, s⟩ := x
    have hs := hx (g, s) (by simp)
    have hrun : readProfiles pol sp [] (xs ++ [(g, s)]) = readOne pol sp (m, skip) (g, s) := by
      unfold readProfiles at e ⊢
      rw [List.foldlM_append, e]
      show Option.bind (some _) _ = _
      rw [Option.bind_some, List.foldlM_cons]
      show Option.bind _ _ = _
      cases readOne pol sp (m, skip) (g, s) <;> rfl
    rw [hrun]
    have he : ∀ f, f ≠ g → entries f (xs ++ [(g, s)]) = entries f xs := fun f hf => by
      rw [entries_snoc, if_neg (Ne.symm hf), List.append_nil]
    have heg : entries g (xs ++ [(g, s)]) = entries g xs ++ [s] := by rw [entries_snoc, if_pos rfl]
    have hg := hok g
    have hsk := hskip g
    -- what remains to be shown once the state of `g` is known
    have fin : ∀ (m' : SymMap) (skip' : List Name), m'.WF → (∀ f, f ≠ g → OMap.find? m' f = OMap.find? m f) → (∀ f, f ≠ g → (f ∈ skip' ↔ f ∈ skip)) →
        (g ∈ skip' ↔ skipped sp g (xs ++ [(g, s)])) → SpecialOk sp g (xs ++ [(g, s)]) m' →
        readOne pol sp (m, skip) (g, s) = some (m', skip') →
        ∃ m' skip', readOne pol sp (m, skip) (g, s) = some (m', skip') ∧ m'.WF ∧ (∀ f, f ∈ skip' ↔ skipped sp f (xs ++ [(g, s)])) ∧
          ∀ f, SpecialOk sp f (xs ++ [(g, s)]) m' := by
      intro m' skip' a b c d e f
      refine ⟨m', skip', f, a, fun h => ?_, fun h => ?_⟩
      · by_cases hh : h = g
        · rw [hh]; exact d
        · rw [c h hh, hskip h, skipped_congr (he h hh)]
      · by_cases hh : h = g
        · rw [hh]; exact e
        · exact (hok h).congr (he h hh) (b h hh)
    obtain ⟨m1, e1, h1⟩ := readTop_effect pol w g hs.wf hs.locs hs.elided
    -- reading it
    have read : shouldMerge sp m skip g = some (m, skip, true) → readOne pol sp (m, skip) (g, s) = some (m1, skip) := by
      intro h
      simp [readOne, h, e1]
    have noread : ∀ m' sk, shouldMerge sp m skip g = some (m', sk, false) → readOne pol sp (m, skip) (g, s) = some (m', sk) := by
      intro m' sk h
      simp [readOne, h]
    cases sp with
    | none =>
      have hk : kindOf none g = .plain := rfl
      refine fin m1 skip h1.wf h1.others (fun _ _ => Iff.rfl) ?_ ?_ (read rfl)
      · rw [hsk]; unfold skipped; simp [hk]
      · unfold SpecialOk at hg ⊢
        simp only [hk] at hg ⊢
        exact hg.snoc h1
    | some sp =>
      by_cases k1 : ∃ p ∈ sp.stripAll, p <+: g
      · have hk : kindOf (some sp) g = .strip := by simp only [kindOf, if_pos k1]
        have hns : skip.contains g = false := by
          rw [contains_false, hsk]; unfold skipped; simp [hk]
        refine fin m skip w (fun _ _ => rfl) (fun _ _ => Iff.rfl) ?_ ?_ (noread m skip ?_)
        · rw [hsk]; unfold skipped; simp [hk]
        · unfold SpecialOk at hg ⊢
          simp only [hk] at hg ⊢
          exact hg
        · simp only [shouldMerge, hns, Bool.false_eq_true, if_false]
          rw [if_pos ((any_prefix _ _).2 k1)]
      · have b1 : ¬ (sp.stripAll.any fun p => p.isPrefixOf g) = true := fun h => k1 ((any_prefix _ _).1 h)
        by_cases k2 : ∃ p ∈ sp.keepSole, p <+: g
        · have b2 := (any_prefix _ _).2 k2
          have hk : kindOf (some sp) g = .sole := by simp only [kindOf, if_neg k1, if_pos k2]
          unfold SpecialOk at hg
          simp only [hk] at hg
          rcases hl : entries g xs with _ | ⟨s1, _ | ⟨s2, t⟩⟩ <;> simp only [hl] at hg
          · have hns : skip.contains g = false := by
              rw [contains_false, hsk]; unfold skipped; simp [hk, hl]
            refine fin m1 skip h1.wf h1.others (fun _ _ => Iff.rfl) ?_ ?_ (read ?_)
            · rw [hsk]; unfold skipped; simp [hk, heg, hl]
            · unfold SpecialOk
              simp only [hk, heg, hl, List.nil_append]
              have h2 : ReadAll g [] [] m := (ReadAll.nil g []).congr rfl rfl hg
              exact (h2.snoc h1).congr (by simp) rfl rfl
            · simp only [shouldMerge, hns, Bool.false_eq_true, if_false]
              rw [if_neg b1, if_pos b2, hg]
          · have hns : skip.contains g = false := by
              rw [contains_false, hsk]; unfold skipped; simp [hk, hl]
            have hex : (OMap.find? m g).isSome = true := hg.exists_.2 (Or.inr (by rw [entries_cons, if_pos rfl]; simp))
            obtain ⟨y, hy⟩ := Option.isSome_iff_exists.1 hex
            have hgy : m.get g = y := by unfold SymMap.get; rw [hy]; rfl
            have hyw := (Sym.WF_iff _).1 (hgy ▸ w.get g)
            have hw' : (Sym.mk ⟨0, 0, y.data.pos⟩ y.calls).WF := by
              obtain ⟨d, cs⟩ := y
              exact (Sym.WF_iff _).2 hyw
            refine fin (OMap.set g (.mk ⟨0, 0, y.data.pos⟩ y.calls) m) (g :: skip) (w.set _ _ hw') (fun f hf => find_set_ne w.1 hf _)
              (fun f hf => by simp [hf]) ?_ ?_ (noread _ _ ?_)
            · unfold skipped; simp [hk, heg, hl]
            · unfold SpecialOk
              simp only [hk, heg, hl, List.cons_append, List.nil_append]
              refine ⟨m, hg, ?_⟩
              unfold OMap.set
              rw [OMap.find?_upsert w.1, hgy]
              simp
            · simp only [shouldMerge, hns, Bool.false_eq_true, if_false]
              rw [if_neg b1, if_pos b2, hy]
          · have hns : skip.contains g = true := by
              rw [List.contains_iff_mem, hsk]; unfold skipped; simp [hk, hl]
            refine fin m skip w (fun _ _ => rfl) (fun _ _ => Iff.rfl) ?_ ?_ (noread m skip ?_)
            · rw [hsk]; unfold skipped; simp [hk, heg, hl]
            · unfold SpecialOk
              simp only [hk, heg, hl, List.cons_append]
              exact hg
            · simp only [shouldMerge, hns, if_true]
        · have b2 : ¬ (sp.keepSole.any fun p => p.isPrefixOf g) = true := fun h => k2 ((any_prefix _ _).1 h)
          by_cases k3 : ∃ p ∈ sp.keepCold, p <+: g
          · have b3 := (any_prefix _ _).2 k3
            have hk : kindOf (some sp) g = .cold := by simp only [kindOf, if_neg k1, if_neg k2, if_pos k3]
            unfold SpecialOk at hg
            simp only [hk] at hg
            by_cases hl : entries g xs = []
            · rw [if_pos hl] at hg
              have hns : skip.contains g = false := by
                rw [contains_false, hsk]; unfold skipped; simp [hk, hl]
              have hfa : OMap.find? (addSymbol m g) g = some Sym.new := by
                rw [find_addSymbol w, if_pos rfl]; unfold SymMap.get; rw [hg]; rfl
              have hwn : (Sym.mk ⟨11, 0, []⟩ []).WF := by
                refine (Sym.WF_iff _).2 ⟨List.Pairwise.nil, ?_, List.nodup_nil, ?_⟩ <;> intro x hx <;> cases hx
              have haw := addSymbol_WF w g
              refine fin (OMap.set g (.mk ⟨11, 0, []⟩ []) (addSymbol m g)) (g :: skip) (haw.set _ _ hwn)
                (fun f hf => by rw [find_set_ne haw.1 hf, find_addSymbol w, if_neg hf]) (fun f hf => by simp [hf]) ?_ ?_ (noread _ _ ?_)
              · unfold skipped; simp [hk, heg]
              · unfold SpecialOk
                simp only [hk, heg]
                unfold OMap.set
                rw [OMap.find?_upsert haw.1]
                simp
              · simp only [shouldMerge, hns, Bool.false_eq_true, if_false]
                rw [if_neg b1, if_neg b2, if_pos b3, hg]
                simp only [addSymbolEntryCount, hfa]
                rfl
            · have hns : skip.contains g = true := by
                rw [List.contains_iff_mem, hsk]; unfold skipped; simp [hk, hl]
              rw [if_neg hl] at hg
              refine fin m skip w (fun _ _ => rfl) (fun _ _ => Iff.rfl) ?_ ?_ (noread m skip ?_)
              · rw [hsk]; unfold skipped; simp [hk, heg, hl]
              · unfold SpecialOk
                simp only [hk, heg]
                rw [hg]; simp
              · simp only [shouldMerge, hns, if_true]
          · have b3 : ¬ (sp.keepCold.any fun p => p.isPrefixOf g) = true := fun h => k3 ((any_prefix _ _).1 h)
            have hk : kindOf (some sp) g = .plain := by simp only [kindOf, if_neg k1, if_neg k2, if_neg k3]
            have hns : skip.contains g = false := by
              rw [contains_false, hsk]; unfold skipped; simp [hk]
            refine fin m1 skip h1.wf h1.others (fun _ _ => Iff.rfl) ?_ ?_ (read ?_)
            · rw [hsk]; unfold skipped; simp [hk]
            · unfold SpecialOk at hg ⊢
              simp only [hk] at hg ⊢
              exact hg.snoc h1
            · simp only [shouldMerge, hns, Bool.false_eq_true, if_false]
              rw [if_neg b1, if_neg b2, if_neg b3]

/-! ### Examples -/

/-- Two functions; the first with a call target at line 3 and an inlined call at line 2, the second below the threshold used. -/
def llvmEx : SymMap := [([102], .mk ⟨12, 7, [(1 * 2 ^ 32, ⟨5, 2, []⟩), (3 * 2 ^ 32 + 1, ⟨4, 1, [([103], 4)]⟩)]⟩
    [((2 * 2 ^ 32, [104]), .mk ⟨3, 1, [(1 * 2 ^ 32, ⟨3, 1, []⟩)]⟩ [])]),
  ([103], .mk ⟨2, 1, [(1 * 2 ^ 32, ⟨2, 1, []⟩)]⟩ [])]

/-- The hypotheses of `llvm_round_trip` and `llvm_round_trip_exact` are met, and the result is as stated. -/
theorem llvmEx_ok : llvmEx.WF ∧ (∀ x ∈ llvmEx, x.2.Writable) ∧ (∀ x ∈ llvmEx, x.2.TargetsElided .all) ∧
    (∀ x ∈ llvmEx, ∀ y ∈ x.2.nodes, y.2.total = x.2.bodyBelow y.1 ∧ y.2.pos ≠ []) ∧
    (∃ out m', writeProfiles 10 llvmEx = some out ∧ readProfiles .all none [] out = some (m', []) ∧ (m'.map Prod.fst) = [[102]] ∧
      (m'.get [102]).totalAt [] = 12 ∧ (m'.get [102]).totalAt [(2 * 2 ^ 32, [104])] = 3 ∧ (m'.get [102]).headAt [] = 7 ∧
      (m'.get [102]).countAt [] (1 * 2 ^ 32) = 5 ∧ (m'.get [102]).targetAt [] (3 * 2 ^ 32 + 1) [103] = 4 ∧
      (m'.get [102]).instAt [] (1 * 2 ^ 32) = 1) := by
  refine ⟨⟨by simp [llvmEx, OMap.Sorted]; decide, ?_⟩, ?_, ?_, ?_, ?_⟩
  · intro p hp
    simp only [llvmEx, List.mem_cons, List.not_mem_nil, or_false] at hp
    rcases hp with rfl | rfl <;> simp [Sym.WF, WFCalls, OMap.Sorted, PosMap.TargetsOk]
  · intro p hp
    simp only [llvmEx, List.mem_cons, List.not_mem_nil, or_false] at hp
    rcases hp with rfl | rfl <;> refine ⟨by simp [Sym.data], fun x hx => ?_⟩ <;> simp [Sym.nodes, nodesCalls] at hx
    · rcases hx with rfl | rfl <;> exact ⟨⟨by simp, by simp, by simp, by simp⟩, by simp⟩
    · subst hx; exact ⟨⟨by simp, by simp, by simp, by simp⟩, by simp⟩
  · intro p hp
    simp only [llvmEx, List.mem_cons, List.not_mem_nil, or_false] at hp
    rcases hp with rfl | rfl <;> intro x hx <;> simp [Sym.nodes, nodesCalls] at hx
    · rcases hx with rfl | rfl <;> intro y hy t ht
      · simp at hy
        rcases hy with rfl | rfl
        · cases ht
        · simp at ht; subst ht; decide
      · simp at hy; subst hy; cases ht
    · subst hx; intro y hy t ht
      simp at hy; subst hy; cases ht
  · intro p hp
    simp only [llvmEx, List.mem_cons, List.not_mem_nil, or_false] at hp
    rcases hp with rfl | rfl <;> intro x hx <;> simp [Sym.nodes, nodesCalls] at hx
    · rcases hx with rfl | rfl <;> exact ⟨by decide +kernel, by simp⟩
    · subst hx; exact ⟨by decide +kernel, by simp⟩
  · refine ⟨_, _, rfl, rfl, ?_, ?_, ?_, ?_, ?_, ?_, ?_⟩ <;> decide +kernel

/-- Merging does not add up the counts of call targets: that of the last profile read is kept (`AddIndirectCallTarget` assigns,
llvm_profile_reader.cc:98-102), while the count of the location is the sum. -/
theorem llvm_merge_targets_violated : ∃ (s1 s2 : FSamples) (m' : SymMap), FSOk .all s1 ∧ FSOk .all s2 ∧
    readProfiles .all none [] [([102], s1), ([102], s2)] = some (m', []) ∧
    s1.targetAt [] 1 [103] = 5 ∧ s2.targetAt [] 1 [103] = 2 ∧ (m'.get [102]).countAt [] 1 = 7 ∧ (m'.get [102]).targetAt [] 1 [103] = 2 := by
  have hok : ∀ n, FSOk .all (.mk ⟨n, 0, [(1, ⟨n, 0, [([103], n)]⟩)]⟩ []) := by
    intro n
    refine ⟨by simp [Sym.WF, WFCalls, OMap.Sorted, PosMap.TargetsOk], ?_, ?_⟩
    · intro x hx; simp [Sym.nodes, nodesCalls] at hx; subst hx; simp
    · intro x hx; simp [Sym.nodes, nodesCalls] at hx; subst hx; intro y hy t ht
      simp at hy; subst hy; simp at ht; subst ht; simp [originalName, dot]
  exact ⟨_, _, _, hok 5, hok 2, rfl, by decide +kernel, by decide +kernel, by decide +kernel, by decide +kernel⟩

/-- The total of a merged function depends on the order of the profiles: a recorded total without counts is used if it is read first
and ignored otherwise (llvm_profile_reader.cc:115-125). -/
theorem llvm_merge_order_violated : ∃ (s1 s2 : FSamples) (m1 m2 : SymMap), FSOk .all s1 ∧ FSOk .all s2 ∧
    readProfiles .all none [] [([102], s1), ([102], s2)] = some (m1, []) ∧ readProfiles .all none [] [([102], s2), ([102], s1)] = some (m2, []) ∧
    (m1.get [102]).totalAt [] = 105 ∧ (m2.get [102]).totalAt [] = 5 := by
  have h1 : FSOk .all (.mk ⟨100, 0, []⟩ []) := by
    refine ⟨by simp [Sym.WF, WFCalls, OMap.Sorted, PosMap.TargetsOk], ?_, ?_⟩ <;> intro x hx <;> simp [Sym.nodes, nodesCalls] at hx <;> subst hx <;> simp
  have h2 : FSOk .all (.mk ⟨5, 0, [(1, ⟨5, 0, []⟩)]⟩ []) := by
    refine ⟨by simp [Sym.WF, WFCalls, OMap.Sorted, PosMap.TargetsOk], ?_, ?_⟩ <;> intro x hx <;> simp [Sym.nodes, nodesCalls] at hx <;> subst hx <;> simp
  exact ⟨_, _, _, _, h1, h2, rfl, rfl, by decide +kernel, by decide +kernel⟩

/-- Lines from 2^16 on are written modulo 2^16: the counts of lines 1 and 65537 are added up (llvm_profile_writer.cc:133-134; source
offsets hold 32-bit lines). -/
theorem llvm_long_lines_violated : ∃ (m : SymMap) (out : OMap Name FSamples), m.WF ∧ writeProfiles 10 m = some out ∧
    (m.get [102]).countAt [] (1 * 2 ^ 32) = 5 ∧ (m.get [102]).countAt [] (65537 * 2 ^ 32) = 7 ∧
    (SymMap.get out [102]).countAt [] (1 * 2 ^ 32) = 12 ∧ (SymMap.get out [102]).countAt [] (65537 * 2 ^ 32) = 0 := by
  refine ⟨[([102], .mk ⟨12, 0, [(1 * 2 ^ 32, ⟨5, 1, []⟩), (65537 * 2 ^ 32, ⟨7, 1, []⟩)]⟩ [])], _, ⟨by simp [OMap.Sorted], ?_⟩, rfl, by decide +kernel, by decide +kernel, by decide +kernel, by decide +kernel⟩
  intro p hp
  simp only [List.mem_singleton] at hp
  subst hp
  simp [Sym.WF, WFCalls, OMap.Sorted, PosMap.TargetsOk]

/-- A case of each kind for `read_special`. -/
theorem read_special_ex : ∃ m' skip, readProfiles .all (some ⟨[[115]], [[111]], [[99]]⟩) []
      [([115, 1], .mk ⟨50, 0, [(1, ⟨50, 0, []⟩)]⟩ []), ([111, 1], .mk ⟨30, 2, [(1, ⟨30, 0, []⟩)]⟩ []), ([111, 2], .mk ⟨40, 0, [(1, ⟨40, 0, []⟩)]⟩ []),
       ([99, 1], .mk ⟨60, 0, [(1, ⟨60, 0, []⟩)]⟩ []), ([112], .mk ⟨70, 0, [(1, ⟨70, 0, []⟩)]⟩ []), ([111, 1], .mk ⟨31, 0, [(1, ⟨31, 0, []⟩)]⟩ []),
       ([111, 1], .mk ⟨32, 0, [(1, ⟨32, 0, []⟩)]⟩ []), ([99, 1], .mk ⟨61, 0, [(1, ⟨61, 0, []⟩)]⟩ []), ([112], .mk ⟨1, 0, [(1, ⟨1, 0, []⟩)]⟩ [])] = some (m', skip) ∧
    (m'.map fun x => (x.1, x.2.data.total, x.2.data.head)) = [([99, 1], 11, 0), ([111, 1], 0, 0), ([111, 2], 40, 0), ([112], 71, 0)] :=
  ⟨_, _, rfl, by decide +kernel⟩

end Verif.SymbolMap

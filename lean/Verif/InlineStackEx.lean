import Verif.InlineStack

/-! # C61: concrete cases -/
namespace Verif.Inline
open Verif Verif.RangeMap Verif.LineMap

/-- Function `m` (line 20) with the inlined call (line 25) of `f` (declared at line 3), in which `g` (line 10) is
inlined at line 5.  Abstract instances at offsets 11 (`f`) and 12 (`g`), a declaration at 13. -/
def exAbsF : Sub := { inlined := false, parent := none, ranges := [], offset := 11, name := [102], callLine := 3 }
def exAbsG : Sub := { inlined := false, parent := none, ranges := [], offset := 12, spec := 13, callLine := 10 }
def exDeclG : Sub := { inlined := false, parent := none, ranges := [], offset := 13, name := [103], callLine := 2 }

def exG : Sub :=
  { inlined := true, parent := some 1, ranges := [(112, 115)], offset := 33, origin := 12, callLine := 5,
    callDiscr := 7, callDir := some [47, 105], callFile := some [97, 46, 104] }
def exF : Sub :=
  { inlined := true, parent := some 2, ranges := [(110, 120), (1000, 1010)], offset := 32, origin := 11,
    callLine := 25, callDir := some [115], callFile := some [109, 46, 99], compDir := some [47, 119] }
def exM : Sub :=
  { inlined := false, parent := none, ranges := [(100, 200), (1000, 1010)], offset := 31, name := [109],
    callLine := 20, compDir := some [47, 119] }
def exH : Sub := { inlined := false, parent := none, ranges := [(200, 250)], offset := 34, name := [104], callLine := 40 }

def exInfo : Info :=
  { order := [exG, exF, exM, exH]
    byOffset := [[(11, exAbsF), (12, exAbsG), (13, exDeclG), (31, exM), (32, exF), (33, exG), (34, exH)]] }

theorem exInfo_bad : findBad 50 exInfo.order = [] := by decide +kernel

theorem exInfo_key (i : Nat) (s : Sub) (h : exInfo.order[i]? = some s) :
    ∃ h : i < 4, exInfo.order[(⟨i, h⟩ : Fin 4)] = s := by
  obtain ⟨h1, h2⟩ := List.getElem?_eq_some_iff.1 h
  exact ⟨h1, h2⟩

theorem exInfo_tidy : Tidy 50 exInfo.order := by
  refine { parents := ?_, nested := ?_, ordered := ?_, own := ?_, siblings := ?_ }
  · intro i s p hs hp
    obtain ⟨h, rfl⟩ := exInfo_key i s hs
    have : ∀ i : Fin 4, ∀ p, (exInfo.order[i]).parent = some p → i.1 < p ∧ p < 4 := by decide
    exact this ⟨i, h⟩ p hp
  · intro i s hs
    obtain ⟨h, rfl⟩ := exInfo_key i s hs
    have : ∀ i : Fin 4, (exInfo.order[i]).inlined = true → (exInfo.order[i]).parent ≠ none := by decide
    exact this ⟨i, h⟩
  · intro i s hs
    obtain ⟨h, rfl⟩ := exInfo_key i s hs.1
    have : ∀ i : Fin 4, ∀ r ∈ (exInfo.order[i]).ranges, r.1 ≤ r.2 := by decide
    exact this ⟨i, h⟩
  · intro i s hs r hr q hq a ha hb
    obtain ⟨h, rfl⟩ := exInfo_key i s hs.1
    have : ∀ i : Fin 4, ∀ r ∈ (exInfo.order[i]).ranges, ∀ q ∈ (exInfo.order[i]).ranges, r = q ∨ r.2 ≤ q.1 ∨ q.2 ≤ r.1 := by decide
    rcases this ⟨i, h⟩ r hr q hq with h | h | h
    · exact h
    · omega
    · omega
  · intro i j s t p hs ht hp hp'
    obtain ⟨h, rfl⟩ := exInfo_key i s hs.1
    obtain ⟨h', rfl⟩ := exInfo_key j t ht.1
    have : ∀ i j : Fin 4, (exInfo.order[i]).parent ≠ none → (exInfo.order[i]).parent = (exInfo.order[j]).parent → i = j := by decide
    have h3 := this ⟨i, h⟩ ⟨j, h'⟩ (fun hn => by cases hp.symm.trans hn) (hp.trans hp'.symm)
    intro a _ _
    exact congrArg Fin.val h3

theorem exInfo_refs : RefsOk exInfo.byOffset[0] exInfo.order := by
  have hall : ∀ s ∈ exInfo.order ++ exInfo.byOffset[0].map Prod.snd, ∀ k ∈ [s.spec, s.origin], k ≠ 0 →
      ∃ t, OMap.find? exInfo.byOffset[0] k = some t ∧
        (if t.offset = 13 then 0 else if t.offset = 12 ∨ t.offset = 11 then 1 else 2) <
        (if s.offset = 13 then 0 else if s.offset = 12 ∨ s.offset = 11 then 1 else 2) := by
    intro s hs k hk h0
    have : ∀ s ∈ exInfo.order ++ exInfo.byOffset[0].map Prod.snd, ∀ k ∈ [s.spec, s.origin], k ≠ 0 →
      (match OMap.find? exInfo.byOffset[0] k with
      | none => false
      | some t => decide
        ((if t.offset = 13 then 0 else if t.offset = 12 ∨ t.offset = 11 then 1 else 2) <
        (if s.offset = 13 then 0 else if s.offset = 12 ∨ s.offset = 11 then 1 else 2))) = true := by decide +kernel
    have := this s hs k hk h0
    split at this
    · cases this
    · rename_i t ht
      exact ⟨t, ht, by simpa using this⟩
  refine ⟨fun s => if s.offset = 13 then 0 else if s.offset = 12 ∨ s.offset = 11 then 1 else 2, ?_⟩
  intro s hs k h0 hk
  refine hall s ?_ k ?_ h0
  · rw [List.mem_append]
    rcases hs with h | ⟨k', h⟩
    · exact Or.inl h
    · refine Or.inr (List.mem_map.2 ⟨(k', s), ?_, rfl⟩)
      exact OMap.mem_of_find?_some h
  · rcases hk with rfl | rfl <;> simp

theorem exInfo_ok : StackOk 50 exInfo := by
  refine { tidy := exInfo_tidy, refs := ?_, calls := ?_ }
  · intro i s hs
    obtain ⟨h, rfl⟩ := exInfo_key i s hs.1
    have : ∀ i : Fin 4, (exInfo.order[i]).fileIndex = 0 := by decide
    refine ⟨exInfo.byOffset[0], (congrArg (fun k => exInfo.byOffset[k]?) (this ⟨i, h⟩)), ?_⟩
    obtain ⟨rank, hr⟩ := exInfo_refs
    refine ⟨rank, fun t ht => hr t ?_⟩
    rcases ht with ht | ht
    · simp at ht
      subst ht
      exact Or.inl (List.mem_of_getElem? hs.1)
    · exact Or.inr ht
  · intro i s hs
    obtain ⟨h, rfl⟩ := exInfo_key i s hs.1
    have : ∀ i : Fin 4, (exInfo.order[i]).inlined = true → (exInfo.order[i]).callDir ≠ none ∧ (exInfo.order[i]).callFile ≠ none := by decide
    exact this ⟨i, h⟩

/-- The line table: `/i/g.h:11` at 112. -/
def exLines : LMap :=
  { logical := [⟨[47, 105], [103, 46, 104], 11, 3⟩, ⟨[], [109, 46, 99], 22, 0⟩], map := [(112, 1), (150, 2), (400, 0)] }

theorem exDeclM : declLoop exInfo.byOffset[0] exM = some exM :=
  (declLoop_iff _ _ _).2 (.complete (by decide) (by decide))

theorem exDeclF : declLoop exInfo.byOffset[0] exF = some exAbsF :=
  (declLoop_iff _ _ _).2 (.origin (by decide) (by decide) (by decide) (t := exAbsF) (by decide +kernel)
    (.complete (by decide) (by decide)))

theorem exDeclG' : declLoop exInfo.byOffset[0] exG = some exDeclG :=
  (declLoop_iff _ _ _).2 (.origin (by decide) (by decide) (by decide) (t := exAbsG) (by decide +kernel)
    (.spec (by decide) (by decide) (t := exDeclG) (by decide +kernel) (.complete (by decide) (by decide))))

/-- The stack of 113: `g` at `/i/g.h:11`, inlined in `f` at `/i/a.h:5`, inlined in `m` at `/w/s/m.c:25`. -/
theorem exStack : (populate 50 exInfo.order).bind (fun m => inlineStack exInfo exLines m 113) = some
    [ ⟨some [103], [47, 105], [103, 46, 104], 10, 11, 3⟩,
      ⟨some [102], [47, 105], [97, 46, 104], 3, 5, 7⟩,
      ⟨some [109], [47, 119, 47, 115], [109, 46, 99], 20, 25, 0⟩ ] := by
  obtain ⟨m, hm, hs⟩ : ∃ m, populate 50 exInfo.order = some m ∧ subprogFor m 113 = some 0 := by
    have : ((populate 50 exInfo.order).map fun m => subprogFor m 113) = some (some 0) := by decide +kernel
    obtain ⟨m, h1, h2⟩ := Option.map_eq_some_iff.1 this
    exact ⟨m, h1, h2⟩
  have hl : LineMap.lookup exLines 113 = some (some ⟨[47, 105], [103, 46, 104], 11, 3⟩) := by decide +kernel
  rw [hm]
  have d1 : getDecl exInfo exM = some exM := exDeclM
  have d2 : getDecl exInfo exF = some exAbsF := exDeclF
  have d3 : getDecl exInfo exG = some exDeclG := exDeclG'
  have o1 : getOrigin exInfo exM = some exM := by decide +kernel
  have o2 : getOrigin exInfo exF = some exAbsF := by decide +kernel
  have o3 : getOrigin exInfo exG = some exAbsG := by decide +kernel
  have e0 : exInfo.order[0]? = some exG := rfl
  have e1 : exInfo.order[1]? = some exF := rfl
  have e2 : exInfo.order[2]? = some exM := rfl
  have c1 : callerDir exInfo exG [47, 105] = some [47, 105] := by decide +kernel
  have c2 : callerDir exInfo exF [115] = some [47, 119, 47, 115] := by decide +kernel
  have k2 : callers exInfo 3 2 = some [] := by
    rw [callers, e2]
    rfl
  have k1 : callers exInfo 4 1 = some [⟨some [109], [47, 119, 47, 115], [109, 46, 99], 20, 25, 0⟩] := by
    rw [callers, e1]
    simp only [Option.bind_eq_bind, Option.bind_some, show exF.inlined = true from rfl, if_true,
      show exF.parent = some 2 from rfl, e2, d1, o1, show exF.callDir = some [115] from rfl, c2,
      show exF.callFile = some [109, 46, 99] from rfl, k2]
    rfl
  have k0 : callers exInfo 5 0 = some [⟨some [102], [47, 105], [97, 46, 104], 3, 5, 7⟩,
      ⟨some [109], [47, 119, 47, 115], [109, 46, 99], 20, 25, 0⟩] := by
    rw [callers, e0]
    simp only [Option.bind_eq_bind, Option.bind_some, show exG.inlined = true from rfl, if_true,
      show exG.parent = some 1 from rfl, e1, d2, o2, show exG.callDir = some [47, 105] from rfl, c1,
      show exG.callFile = some [97, 46, 104] from rfl, k1]
    rfl
  show inlineStack exInfo exLines m 113 = _
  unfold inlineStack
  simp only [hl, hs, Option.bind_eq_bind, Option.bind_some, e0, d3, o3, show exInfo.order.length + 1 = 5 from rfl, k0]
  rfl

/-- Overlapping inlined calls with the same caller make the program stop (a `CHECK` of the range map). -/
theorem overlapping_siblings_violated :
    populate 50 [{ inlined := true, parent := some 2, ranges := [(110, 130)] },
      { inlined := true, parent := some 2, ranges := [(120, 140)] },
      { inlined := false, parent := none, ranges := [(100, 200)] }] = none := by
  decide +kernel

/-- An inlined call with a low address only (a reversed range, see `low_without_high_violated`) makes the program
stop. -/
theorem reversed_range_violated :
    populate 50 [{ inlined := true, parent := some 2, ranges := [(70, 85)] },
      { inlined := true, parent := some 2, ranges := [(88, 0)] },
      { inlined := false, parent := none, ranges := [(60, 90)] }] = none := by
  decide +kernel

/-- Whatever the other debug information is, an inlined call without a call file makes the stack undefined: the null
pointer is used as directory. -/
theorem no_call_file_violated (inf : Info) (fuel i : Nat) (s : Sub) (h : inf.order[i]? = some s)
    (hi : s.inlined = true) (hc : s.callDir = none) : callers inf fuel i = none := by
  cases fuel with
  | zero => rfl
  | succ n =>
    rw [callers, h]
    cases hp : s.parent with
    | none => simp [hi, hp]
    | some p =>
      cases ho : inf.order[p]? with
      | none => simp [hi, hp, ho]
      | some par =>
        cases hd : getDecl inf par with
        | none => simp [hi, hp, ho, hd]
        | some d =>
          cases hg : getOrigin inf par with
          | none => simp [hi, hp, ho, hd, hg]
          | some og => simp [hi, hp, hc]

/-- References that go in circles: the search never ends. -/
theorem circular_references_violated :
    declLoop [(11, { inlined := false, parent := none, ranges := [], origin := 12 }),
      (12, { inlined := false, parent := none, ranges := [], origin := 11 })]
      { inlined := true, parent := some 1, ranges := [(112, 115)], origin := 12 } = none := by
  have key : ∀ m : OMap Nat Sub,
      (∀ (k : Nat) (t : Sub), OMap.find? m k = some t → t.name = [] ∧ t.spec = 0 ∧ t.origin ≠ 0) →
      ∀ s d, DeclIn m s d → s.name = [] ∧ s.spec = 0 ∧ s.origin ≠ 0 → False := by
    intro m hm s d h
    induction h with
    | complete hn hl => intro h; exact hn h.1
    | last hs ho => intro h; exact h.2.2 ho
    | spec hc hs hf _ _ => intro h; exact hs h.2.1
    | origin hc hs ho hf _ ih => intro _; exact ih (hm _ _ hf)
  rw [Option.eq_none_iff_forall_not_mem]
  intro d hd
  refine key _ ?_ _ _ ((declLoop_iff _ _ _).1 hd) (by decide)
  intro k t ht
  have := OMap.mem_of_find?_some ht
  simp at this
  rcases this with ⟨_, rfl⟩ | ⟨_, rfl⟩ <;> decide

/-- A function with a name but no line whose abstract origin has neither loses its name. -/
theorem name_lost_violated :
    declLoop [(11, { inlined := false, parent := none, ranges := [], offset := 11 })]
      { inlined := false, parent := none, ranges := [(112, 115)], name := [102], origin := 11 } =
      some { inlined := false, parent := none, ranges := [], offset := 11 } :=
  (declLoop_iff _ _ _).2 (.origin (by decide) (by decide) (by decide) (by decide +kernel) (.last rfl rfl))

end Verif.Inline

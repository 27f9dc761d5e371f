import Verif.InlineHandlerMain
import Verif.LineMapEx
import Verif.DwarfInfoEx

/-! # C63: a concrete section, and where the handler departs from DWARF -/
namespace Verif.InlineHandler
open Verif Verif.DwarfInfo Verif.Inline Verif.ByteReader
open Verif.LineMap (LMap Tab LSeq Rep Reports Described fileOf inside Disj Found LineId)
open Verif.DwarfLine (Ev IsU isU_digit)

/-! ## A concrete section -/

/-- A compile unit with directory `/w` and a line table; an abstract function `f` (line 3); a function `m` (line 20) at
0x1000-0x100a with a block in which `f` is inlined, at 0x1004-0x1008, called from file 1, line 25. -/
def hxAbbrevs : List Abbrev :=
  [⟨0x11, true, [⟨0x1b, 0x08, 0⟩, ⟨0x10, 0x17, 0⟩, ⟨0x11, 0x01, 0⟩]⟩,
   ⟨0x2e, false, [⟨0x03, 0x08, 0⟩, ⟨0x3b, 0x0b, 0⟩]⟩,
   ⟨0x2e, true, [⟨0x03, 0x08, 0⟩, ⟨0x3b, 0x0b, 0⟩, ⟨0x11, 0x01, 0⟩, ⟨0x12, 0x06, 0⟩]⟩,
   ⟨0x0b, true, []⟩,
   ⟨0x1d, false, [⟨0x31, 0x13, 0⟩, ⟨0x11, 0x01, 0⟩, ⟨0x12, 0x06, 0⟩, ⟨0x58, 0x0b, 0⟩, ⟨0x59, 0x0b, 0⟩]⟩]

def hxAbbrevBytes : List Nat :=
  [1, 0x11, 1, 0x1b, 0x08, 0x10, 0x17, 0x11, 0x01, 0, 0] ++ ([2, 0x2e, 0, 0x03, 0x08, 0x3b, 0x0b, 0, 0] ++
   ([3, 0x2e, 1, 0x03, 0x08, 0x3b, 0x0b, 0x11, 0x01, 0x12, 0x06, 0, 0] ++ ([4, 0x0b, 1, 0, 0] ++
   ([5, 0x1d, 0, 0x31, 0x13, 0x11, 0x01, 0x12, 0x06, 0x58, 0x0b, 0x59, 0x0b, 0, 0] ++ [0]))))

def hxCall : Forest :=
  .cons 48 5 [(0x13, .u 27), (0x01, .u 0x1004), (0x06, .u 4), (0x0b, .u 1), (0x0b, .u 25)] .nil .nil

def hxM : Forest :=
  .cons 31 3 [(0x08, .str [109]), (0x0b, .u 20), (0x01, .u 0x1000), (0x06, .u 10)] (.cons 47 4 [] hxCall .nil) .nil

def hxKids : Forest := .cons 27 2 [(0x08, .str [102]), (0x0b, .u 3)] .nil hxM

def hxForest : Forest := .cons 11 1 [(0x08, .str [47, 119]), (0x17, .u 0), (0x01, .u 0x1000)] hxKids .nil

def hxUnit : IUnit := ⟨false, 4, 1, 0, 8, 0, hxAbbrevs, hxForest, []⟩

def hxCallBytes : List Nat := [5, 27, 0, 0, 0, 4, 0x10, 0, 0, 0, 0, 0, 0, 4, 0, 0, 0, 1, 25]
def hxMBytes : List Nat := [3, 109, 0, 20, 0, 0x10, 0, 0, 0, 0, 0, 0, 10, 0, 0, 0] ++ ([4] ++ (hxCallBytes ++ [0])) ++ [0]
def hxKidsBytes : List Nat := [2, 102, 0, 3] ++ hxMBytes
def hxTree : List Nat := [1, 47, 119, 0, 0, 0, 0, 0, 0, 0x10, 0, 0, 0, 0, 0, 0] ++ (hxKidsBytes ++ [0])

def hxInfoBytes : List Nat := [66, 0, 0, 0] ++ ([4, 0, 0, 0, 0, 0, 8] ++ hxTree)

def hxSecs : Secs := ⟨hxInfoBytes, some hxAbbrevBytes, none, none, none, none⟩

/-- The program starts at 0x1000; the line table of `DwarfLine.exUnit` at offset 0. -/
def hxEnv : Env :=
  { vaddr := 0x1000
    sampled := none
    ranges := fun _ _ _ => none
    rangesAt := fun _ _ _ _ => none
    line := fun v => if v = 0 then some (DwarfLine.exUnit.events .little 8) else none }

theorem specs_nil : SpecsEnc [] [0, 0] := ⟨[0], [0], isU_digit 0 (by omega), isU_digit 0 (by omega), rfl⟩

theorem specs_cons (n f : Nat) (as : List Spec) (bs : List Nat) (h1 : n < 128) (h2 : f < 128) (h3 : n ≠ 0) (h4 : f ≠ 0x21)
    (h : SpecsEnc as bs) : SpecsEnc (⟨n, f, 0⟩ :: as) (n :: f :: bs) :=
  ⟨[n], [f], [], bs, isU_digit n h1, isU_digit f h2, by simp only; omega, by simp only; omega, by simp only; omega,
    by simp only; omega, by rw [if_neg h4]; exact ⟨rfl, rfl⟩, h, rfl⟩

theorem abbrevs_cons (n t : Nat) (b : Bool) (ss : List Spec) (as : List Abbrev) (x r : List Nat) (h1 : n < 128)
    (h2 : t < 128) (h3 : SpecsEnc ss x) (h4 : AbbrevsEnc as (n + 1) r) :
    AbbrevsEnc (⟨t, b, ss⟩ :: as) n (n :: t :: (if b then 1 else 0) :: x ++ r) :=
  ⟨[n], [t], x, r, isU_digit n h1, isU_digit t h2, by omega, by simp only; omega, h3, h4, rfl⟩

theorem hxAbbrevs_enc : AbbrevsEnc hxAbbrevs 1 hxAbbrevBytes := by
  refine abbrevs_cons 1 0x11 true _ _ _ _ (by omega) (by omega) ?_
    (abbrevs_cons 2 0x2e false _ _ _ _ (by omega) (by omega) ?_
    (abbrevs_cons 3 0x2e true _ _ _ _ (by omega) (by omega) ?_
    (abbrevs_cons 4 0x0b true _ _ _ _ (by omega) (by omega) specs_nil
    (abbrevs_cons 5 0x1d false _ _ _ _ (by omega) (by omega) ?_ (isU_digit 0 (by omega))))))
  all_goals
    repeat
      first
      | exact specs_nil
      | refine specs_cons _ _ _ _ (by omega) (by omega) (by omega) (by omega) ?_

theorem attrs_cons {cx : Ctx} {w : Bool} {a : Spec} {as : List Spec} {f : Nat} {r : Raw} {vs : List (Nat × Raw)}
    {b bs : List Nat} (h : AttrEnc cx w a.form a.value f r b) (hs : AttrsEnc cx w as vs bs) :
    AttrsEnc cx w (a :: as) ((f, r) :: vs) (b ++ bs) := ⟨f, r, vs, b, bs, h, hs, rfl, rfl⟩

abbrev hxCx : Ctx := hxUnit.ctx .little hxSecs

theorem hxCall_enc : hxCall.Enc hxCx hxAbbrevs wanted 48 hxCallBytes := by
  refine ⟨hxAbbrevs[4], [5], [27, 0, 0, 0, 4, 0x10, 0, 0, 0, 0, 0, 0, 4, 0, 0, 0, 1, 25], [], [], [], rfl, by decide, rfl,
    isU_digit _ (by decide), ?_, ⟨rfl, rfl, rfl⟩, rfl, rfl⟩
  refine attrs_cons (b := [27, 0, 0, 0]) (by exact .fixed 0x13 4 27 0 (by decide) (by decide)) ?_
  refine attrs_cons (b := [4, 0x10, 0, 0, 0, 0, 0, 0]) (by exact .addr 0 0x1004 (by decide)) ?_
  refine attrs_cons (b := [4, 0, 0, 0]) (by exact .fixed 0x06 4 4 0 (by decide) (by decide)) ?_
  refine attrs_cons (b := [1]) (by exact .fixed 0x0b 1 1 0 (by decide) (by decide)) ?_
  refine attrs_cons (b := [25]) (by exact .fixed 0x0b 1 25 0 (by decide) (by decide)) ?_
  exact ⟨rfl, rfl⟩

theorem hxM_enc : hxM.Enc hxCx hxAbbrevs wanted 31 hxMBytes := by
  refine ⟨hxAbbrevs[2], [3], [109, 0, 20, 0, 0x10, 0, 0, 0, 0, 0, 0, 10, 0, 0, 0], [4] ++ (hxCallBytes ++ [0]), [0], [], rfl,
    by decide, rfl, isU_digit _ (by decide), ?_, ⟨?_, isU_digit _ (by decide)⟩, rfl, rfl⟩
  · refine attrs_cons (b := [109, 0]) (by exact .string 0 [109] (by decide)) ?_
    refine attrs_cons (b := [20]) (by exact .fixed 0x0b 1 20 0 (by decide) (by decide)) ?_
    refine attrs_cons (b := [0, 0x10, 0, 0, 0, 0, 0, 0]) (by exact .addr 0 0x1000 (by decide)) ?_
    refine attrs_cons (b := [10, 0, 0, 0]) (by exact .fixed 0x06 4 10 0 (by decide) (by decide)) ?_
    exact ⟨rfl, rfl⟩
  · exact ⟨hxAbbrevs[3], [4], [], hxCallBytes, [0], [], rfl, by decide, rfl, isU_digit _ (by decide), ⟨rfl, rfl⟩,
      ⟨hxCall_enc, isU_digit _ (by decide)⟩, rfl, rfl⟩

theorem hxForest_enc : hxForest.Enc hxCx hxAbbrevs wanted 11 hxTree := by
  refine ⟨hxAbbrevs[0], [1], [47, 119, 0, 0, 0, 0, 0, 0, 0x10, 0, 0, 0, 0, 0, 0], hxKidsBytes, [0], [], rfl, by decide, rfl,
    isU_digit _ (by decide), ?_, ⟨?_, isU_digit _ (by decide)⟩, rfl, rfl⟩
  · refine attrs_cons (b := [47, 119, 0]) (by exact .string 0 [47, 119] (by decide)) ?_
    refine attrs_cons (b := [0, 0, 0, 0]) (by exact .secOffset 0 0 (by decide)) ?_
    refine attrs_cons (b := [0, 0x10, 0, 0, 0, 0, 0, 0]) (by exact .addr 0 0x1000 (by decide)) ?_
    exact ⟨rfl, rfl⟩
  · refine ⟨hxAbbrevs[1], [2], [102, 0, 3], [], [], hxMBytes, rfl, by decide, rfl, isU_digit _ (by decide), ?_,
      ⟨rfl, rfl, rfl⟩, hxM_enc, rfl⟩
    refine attrs_cons (b := [102, 0]) (by exact .string 0 [102] (by decide)) ?_
    refine attrs_cons (b := [3]) (by exact .fixed 0x0b 1 3 0 (by decide) (by decide)) ?_
    exact ⟨rfl, rfl⟩

theorem hxUnits_at : UnitsAt .little hxSecs wanted [(hxUnit, hxInfoBytes)] 0 := by
  refine ⟨⟨by decide, by decide, by decide, by decide, by simp [hxUnit, hxForest]⟩,
    ⟨[], hxAbbrevBytes, [], by simp [hxSecs], rfl, hxAbbrevs_enc⟩,
    ⟨by intro h; simp [hxUnit] at h, by intro h; simp [hxUnit] at h⟩, ?_, trivial⟩
  refine ⟨hxTree, _, hxForest_enc, ?_, rfl, by decide, rfl⟩
  intro z hz
  simp [hxUnit] at hz

/-- What the entries say. -/
def hxSubF : Sub :=
  { inlined := false, parent := none, ranges := [], offset := 27, name := [102], compDir := some [47, 119], callLine := 3 }
def hxSubM : Sub :=
  { inlined := false, parent := none, ranges := [(0x1000, 0x100a)], offset := 31, name := [109], compDir := some [47, 119],
    callLine := 20 }
def hxSubCall : Sub :=
  { inlined := true, parent := none, ranges := [(0x1004, 0x1008)], offset := 48, origin := 27, compDir := some [47, 119],
    callDir := some [47, 97], callFile := some [98, 46, 99], callLine := 25 }

def hxD (off : Nat) : Sub := if off = 27 then hxSubF else if off = 31 then hxSubM else hxSubCall

/-- The call is code although only a start address at the top decides. -/
def hxCode (off : Nat) : Bool := decide (off ≠ 27)

def hxU : UCtx :=
  { off := 0, base := 0x1000, version := 4, compDir := some [47, 119], files := fileOf DwarfLine.exUnit, sb := none, ab := none, rb := none }

theorem hx_desc' (env : Env) (h1 : env.vaddr = 0x1000) (h2 : env.sampled = none)
    (h3 : env.line 0 = some (DwarfLine.exUnit.events .little 8)) : SecDesc env .little 8 (2 ^ 64 - 1) hxSecs hxD hxCode [(hxUnit, hxInfoBytes)] 0
    [some LineMap.exSeq1, some LineMap.exSeq2] := by
  refine ⟨_, [], ?_, rfl, (List.append_nil _).symm⟩
  refine .program 11 1 _ hxKids hxAbbrevs[0] [(0x1b, 0x08, .str (some [47, 119])), (0x10, 0x17, .u 0), (0x11, 0x01, .u 0x1000)]
    hxU _ rfl rfl (Or.inl rfl) ?_ rfl ?_ rfl rfl ?_
  · exact ⟨⟨_, rfl, rfl⟩, trivial, ⟨_, rfl, rfl⟩, ⟨⟨_, rfl, rfl⟩, ⟨⟨_, rfl, rfl⟩, trivial, trivial⟩, trivial⟩, trivial⟩
  · exact
      { compDir := ⟨_, _, rfl, rfl⟩
        base := Or.inr ⟨_, rfl⟩
        line := Or.inr ⟨_, _, DwarfLine.exUnit, rfl, h3, h1 ▸ LineMap.ex_described, rfl⟩
        ranges := by decide
        rbase := fun b hb => by cases hb
        plain := rfl }
  · intro x hx
    have e : unitFns hxUnit = [⟨27, 0x2e, hxAbbrevs[1].attrs, [(0x08, .str [102]), (0x0b, .u 3)], none⟩,
      ⟨31, 0x2e, hxAbbrevs[2].attrs, [(0x08, .str [109]), (0x0b, .u 20), (0x01, .u 0x1000), (0x06, .u 10)], none⟩,
      ⟨48, 0x1d, hxAbbrevs[4].attrs, [(0x13, .u 27), (0x01, .u 0x1004), (0x06, .u 4), (0x0b, .u 1), (0x0b, .u 25)], some 31⟩] := rfl
    rw [e] at hx
    simp only [List.mem_cons, List.not_mem_nil, or_false] at hx
    rcases hx with rfl | rfl | rfl
    · exact ⟨_, rfl,
        { inlined := by decide
          parent := rfl
          ranges := .none
          offset := rfl
          fileIndex := rfl
          name := .plain _ _
          compDir := rfl
          file := ⟨_, .none, rfl, rfl⟩
          line := .decl _ _ (by decide)
          discr := .none
          origin := .none
          spec := .none
          plain := rfl }⟩
    · exact ⟨_, rfl,
        { inlined := by decide
          parent := rfl
          ranges := .size _ _ _ _ _ (by simp [IsStart, h2, hxCode]) (by decide) (by decide)
          offset := rfl
          fileIndex := rfl
          name := .plain _ _
          compDir := rfl
          file := ⟨_, .none, rfl, rfl⟩
          line := .decl _ _ (by decide)
          discr := .none
          origin := .none
          spec := .none
          plain := rfl }⟩
    · exact ⟨_, rfl,
        { inlined := by decide
          parent := rfl
          ranges := .size _ _ _ _ _ (by simp [IsStart, h2, hxCode]) (by decide) (by decide)
          offset := rfl
          fileIndex := rfl
          name := .none
          compDir := rfl
          file := ⟨some ([47, 97], [98, 46, 99]), .num _ _ _ _ rfl, rfl, rfl⟩
          line := .call _ _ (by decide) (by decide)
          discr := .none
          origin := .relative _ _ (by decide)
          spec := .none
          plain := rfl }⟩

theorem hx_desc : SecDesc hxEnv .little 8 (2 ^ 64 - 1) hxSecs hxD hxCode [(hxUnit, hxInfoBytes)] 0
    [some LineMap.exSeq1, some LineMap.exSeq2] := hx_desc' hxEnv rfl rfl rfl

/-- What is known after reading: `m` at position 1 with the call of `f` in it at position 0. -/
def hxInfo : Info :=
  { order := [{ hxSubCall with parent := some 1 }, hxSubM]
    byOffset := [[(27, hxSubF), (31, hxSubM), (48, { hxSubCall with parent := some 1 })]] }

theorem hxInfo_eq : infoOf (secKept hxCode [(hxUnit, hxInfoBytes)]) (secFns [(hxUnit, hxInfoBytes)]) hxD = hxInfo := by
  have h1 : (infoOf (secKept hxCode [(hxUnit, hxInfoBytes)]) (secFns [(hxUnit, hxInfoBytes)]) hxD).order = hxInfo.order := by
    decide +kernel
  have h2 : (infoOf (secKept hxCode [(hxUnit, hxInfoBytes)]) (secFns [(hxUnit, hxInfoBytes)]) hxD).byOffset = hxInfo.byOffset := by
    decide +kernel
  revert h1 h2
  generalize infoOf (secKept hxCode [(hxUnit, hxInfoBytes)]) (secFns [(hxUnit, hxInfoBytes)]) hxD = x
  intro h1 h2
  cases x
  cases h1
  cases h2
  rfl

theorem hxInfo_key (i : Nat) (s : Sub) (h : hxInfo.order[i]? = some s) :
    ∃ h : i < 2, hxInfo.order[(⟨i, h⟩ : Fin 2)] = s := by
  obtain ⟨h1, h2⟩ := List.getElem?_eq_some_iff.1 h
  exact ⟨h1, h2⟩

theorem hxInfo_ok : StackOk 0x1000 hxInfo := by
  refine { tidy := { parents := ?_, nested := ?_, ordered := ?_, own := ?_, siblings := ?_ }, refs := ?_, calls := ?_ }
  · intro i s p hs hp
    obtain ⟨h, rfl⟩ := hxInfo_key i s hs
    have : ∀ i : Fin 2, ∀ p, (hxInfo.order[i]).parent = some p → i.1 < p ∧ p < 2 := by decide
    exact this ⟨i, h⟩ p hp
  · intro i s hs
    obtain ⟨h, rfl⟩ := hxInfo_key i s hs
    have : ∀ i : Fin 2, (hxInfo.order[i]).inlined = true → (hxInfo.order[i]).parent ≠ none := by decide
    exact this ⟨i, h⟩
  · intro i s hs
    obtain ⟨h, rfl⟩ := hxInfo_key i s hs.1
    have : ∀ i : Fin 2, ∀ r ∈ (hxInfo.order[i]).ranges, r.1 ≤ r.2 := by decide
    exact this ⟨i, h⟩
  · intro i s hs r hr q hq a ha hb
    obtain ⟨h, rfl⟩ := hxInfo_key i s hs.1
    have : ∀ i : Fin 2, ∀ r ∈ (hxInfo.order[i]).ranges, ∀ q ∈ (hxInfo.order[i]).ranges, r = q := by decide
    exact this ⟨i, h⟩ r hr q hq
  · intro i j s t p hs ht hp hp'
    obtain ⟨h, rfl⟩ := hxInfo_key i s hs.1
    obtain ⟨h', rfl⟩ := hxInfo_key j t ht.1
    have : ∀ i j : Fin 2, (hxInfo.order[i]).parent ≠ none → (hxInfo.order[i]).parent = (hxInfo.order[j]).parent → i = j := by decide
    have h3 := this ⟨i, h⟩ ⟨j, h'⟩ (fun hn => by cases hp.symm.trans hn) (hp.trans hp'.symm)
    intro a _ _
    exact congrArg Fin.val h3
  · intro i s hs
    obtain ⟨h, rfl⟩ := hxInfo_key i s hs.1
    have : ∀ i : Fin 2, (hxInfo.order[i]).fileIndex = 0 := by decide
    refine ⟨hxInfo.byOffset[0], (congrArg (fun k => hxInfo.byOffset[k]?) (this ⟨i, h⟩)), ?_⟩
    refine ⟨fun s => if s.offset = 27 then 0 else 1, ?_⟩
    intro s hs k h0 hk
    have hm : s ∈ hxInfo.order ++ hxInfo.byOffset[0].map Prod.snd := by
      rw [List.mem_append]
      rcases hs with h | ⟨k', h⟩
      · rw [List.mem_singleton] at h
        subst h
        exact Or.inl (List.getElem_mem _)
      · exact Or.inr (List.mem_map.2 ⟨(k', s), OMap.mem_of_find?_some h, rfl⟩)
    have : ∀ s ∈ hxInfo.order ++ hxInfo.byOffset[0].map Prod.snd, ∀ k ∈ [s.spec, s.origin], k ≠ 0 →
      OMap.find? hxInfo.byOffset[0] k = some hxSubF ∧ s.offset ≠ 27 := by decide +kernel
    have := this s hm k (by rcases hk with rfl | rfl <;> simp) h0
    refine ⟨_, this.1, ?_⟩
    simp only [if_neg this.2]
    decide
  · intro i s hs
    obtain ⟨h, rfl⟩ := hxInfo_key i s hs.1
    have : ∀ i : Fin 2, (hxInfo.order[i]).inlined = true → (hxInfo.order[i]).callDir ≠ none ∧ (hxInfo.order[i]).callFile ≠ none := by decide
    exact this ⟨i, h⟩

/-- The hypotheses of `subprograms_decoded` and `inline_stacks_decoded` hold for this section; at 0x1006 there are `m` and
`f` inlined in it, the innermost frame at line 8 of the line table. -/
theorem hx_decoded : ∃ s m, readInfo (handler hxEnv) .little hxSecs 0 {} = some s ∧ s.info = hxInfo ∧
    populate 0x1000 s.info.order = some m ∧
    ∃ cs fs, inlineStack s.info s.lm m 0x1006 = some fs ∧ 0 ∈ cs ∧ 1 ∈ cs ∧ InsideOut 0x1000 s.info.order 0x1006 cs ∧
      IsStack s.info ⟨[], [99, 46, 104], 8, 3⟩ cs fs := by
  have hok := hxInfo_ok
  rw [← hxInfo_eq] at hok
  obtain ⟨s, m, h1, h2, h3, h4⟩ := inline_stacks_decoded hxEnv .little 8 (2 ^ 64 - 1) hxSecs [(hxUnit, hxInfoBytes)] hxUnits_at
    (by simp [hxSecs]) hxD hxCode _ hx_desc hok LineMap.ex_disj
  rw [hxInfo_eq] at h2
  refine ⟨s, m, h1, h2, h3, ?_⟩
  have h0 : Kept 0x1000 s.info.order 0 { hxSubCall with parent := some 1 } := by
    rw [h2]
    refine ⟨rfl, ?_⟩
    decide +kernel
  have h0' : Kept 0x1000 s.info.order 1 hxSubM := by
    rw [h2]
    refine ⟨rfl, ?_⟩
    decide +kernel
  have hin : ({ hxSubCall with parent := some 1 } : Sub).Has 0x1006 := ⟨(0x1004, 0x1008), by decide, by decide, by decide⟩
  have hin' : hxSubM.Has 0x1006 := ⟨(0x1000, 0x100a), by decide, by decide, by decide⟩
  have hf : Found ([some LineMap.exSeq1, some LineMap.exSeq2].flatMap Option.toList) 0x1006 ⟨[], [99, 46, 104], 8, 3⟩ := by
    refine ⟨[], LineMap.exSeq1, [LineMap.exSeq2], rfl, ⟨[_], 0x1006, [], rfl, by decide, by simp, by decide⟩, ?_⟩
    intro t ht h
    rw [List.mem_singleton] at ht
    subst ht
    revert h
    decide
  obtain ⟨cs, fs, g1, g2, g3⟩ := ((h4 0x1006 (by decide)).2 _ (by decide) hf).2 0 _ h0 hin
  exact ⟨cs, fs, g1, (g2.all 0).2 ⟨_, h0, hin⟩, (g2.all 1).2 ⟨_, h0', hin'⟩, g2, g3⟩

/-! ## Departures from the standard -/

theorem onTop_none (s : St) (i : Nat) (f : Cell → Option Cell) (h : ∀ c, f c = none) : onTop s i f = none := by
  unfold onTop
  cases s.heap[i]? with
  | none => rfl
  | some c =>
    simp only [Option.bind_eq_bind, Option.bind_some]
    rw [h]
    rfl

theorem attrU_none (env : Env) (s : St) (name form v : Nat) (i : Nat) (st : List Nat) (hst : s.stack = i :: st)
    (hn : name ∉ [0x2133, 0x73, 0x2132, 0x74]) (h : ∀ top tag c, cellU env s top tag name form v c = none) :
    attrU env s name form v = none := by
  simp only [List.mem_cons, List.not_mem_nil, or_false, not_or] at hn
  unfold attrU
  rw [hst]
  simp only
  rw [if_neg (by omega), if_neg (by omega)]
  exact onTop_none s i _ (h _ _)

/-- The form of a reference may be any of the reference class (DWARF 5, 7.5.5); the handler fails unless it is
`DW_FORM_ref4` or `DW_FORM_ref_addr`. -/
theorem ref_forms_violated (env : Env) (s : St) (off form v : Nat) (i : Nat) (st : List Nat) (hst : s.stack = i :: st)
    (hf : form = 0x11 ∨ form = 0x12 ∨ form = 0x14 ∨ form = 0x15) : (handler env).attr s off 0x31 form (.u v) = none := by
  apply attrU_none env s 0x31 form v i st hst (by decide)
  intro top tag c
  rcases hf with rfl | rfl | rfl | rfl <;> rfl

/-- The line of a call may have any form of the class constant; with `DW_FORM_udata`, `DW_FORM_data8` or `DW_FORM_sdata` the
handler fails. -/
theorem call_line_forms_violated (env : Env) (s : St) (off v : Nat) (w : Int) (i : Nat) (st : List Nat) (hst : s.stack = i :: st) :
    (handler env).attr s off 0x59 0x0f (.u v) = none ∧ (handler env).attr s off 0x59 0x07 (.u v) = none ∧
    (handler env).attr s off 0x59 0x0d (.s w) = none := by
  refine ⟨?_, ?_, ?_⟩
  · exact attrU_none env s 0x59 0x0f v i st hst (by decide) (fun _ _ _ => rfl)
  · exact attrU_none env s 0x59 0x07 v i st hst (by decide) (fun _ _ _ => rfl)
  · show attrS s 0x59 0x0d w = none
    unfold attrS
    rw [if_pos (by omega), hst]
    exact onTop_none s i _ (fun _ => rfl)

/-- The line of a declaration may be a constant in the abbreviation or signed; the handler ignores it. -/
theorem decl_line_const_violated (env : Env) (s : St) (off form : Nat) (v : Int) :
    (handler env).attr s off 0x3b form (.s v) = some s := rfl

/-- A compile unit may give its ranges by number (`DW_FORM_rnglistx`); the handler fails. -/
theorem unit_rnglistx_violated (env : Env) (s : St) (off v : Nat) (hst : s.stack = []) (ht : s.tags.head? = some 0x11) :
    (handler env).attr s off 0x55 0x23 (.u v) = none := by
  show attrU env s 0x55 0x23 v = none
  unfold attrU
  rw [hst, ht]
  rfl

/-- The directory of a compile unit without `DW_AT_comp_dir` is that of an earlier unit: the handler's state is kept, and new
subprograms get it. -/
theorem comp_dir_violated (env : Env) (s s' : St) (off a b n version fn : Nat) (wanted : Bool)
    (h : (handler env).startUnit s off a b n version = some (s', wanted)) (attrs : List Spec) :
    ∃ t, (handler env).startDie s' fn 0x2e attrs = some (t, true) ∧ ∃ c, t.heap = s'.heap ++ [c] ∧ c.sub.compDir = s.compDir := by
  have h : startUnit s off version = some (s', wanted) := h
  unfold startUnit at h
  split at h
  · cases h
    exact ⟨_, rfl, _, rfl, rfl⟩
  · cases h

/-- A function with code inside a function without code (the abstract instance of a function with a local class, say) is not
in the order of insertion, so its addresses have no function. -/
theorem nested_code_violated (abbrevs : List Abbrev) (code : Nat → Bool) (off c : Nat) (vals : List (Nat × Raw)) (kids : Forest)
    (a : Abbrev) (ha : abbrevs[c - 1]? = some a) (hfn : a.tag = 0x2e) (hno : code off = false) :
    kept abbrevs code none none (.cons off c vals kids .nil) = [] := by
  have hk : ∀ (t : Forest) encl, kept abbrevs code (some false) encl t = [] := by
    intro t
    induction t with
    | nil => intro encl; rfl
    | cons o c' vals kids next ihk ihn =>
      intro encl
      simp only [kept]
      cases abbrevs[c' - 1]? with
      | none => rfl
      | some a' =>
        simp only [Option.getD_some, Bool.false_eq_true, if_false, ihk, ihn]
        split <;> rfl
  have hf : isFn a.tag = true := by rw [hfn]; rfl
  simp only [kept, ha, hf, if_true, Option.getD_none, hno, Bool.false_eq_true, if_false, hk, List.append_nil]

end Verif.InlineHandler

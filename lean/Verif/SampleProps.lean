import Verif.SampleText
import Mathlib.Tactic.IntervalCases

/-!
# Properties C01, C02, C03
-/
namespace Verif.Sample

/-! ## Scanner lemmas -/

theorem digitVal_digitChar (b d : Nat) (hb : b = 10 ∨ b = 16) (hd : d < b) :
    digitVal b (digitChar d) = some d := by
  rcases hb with rfl | rfl
  · interval_cases d <;> rfl
  · interval_cases d <;> rfl

theorem scanDigits_printNum (b : Nat) (hb : b = 10 ∨ b = 16) (rest : List Char) (n : Nat) :
    ∀ k acc, scanDigits b k acc (printNum b n ++ rest) =
      scanDigits b (k + (printNum b n).length) (acc * b ^ (printNum b n).length + n) rest := by
  induction n using Nat.strongRecOn generalizing rest with
  | ind n ih =>
    intro k acc
    have hb2 : 2 ≤ b := by omega
    rw [printNum]
    split
    · rename_i h
      have hn : n < b := by omega
      simp [scanDigits, digitVal_digitChar b n hb hn]
    · rename_i h
      have hlt : n / b < n := Nat.div_lt_self (by omega) (by omega)
      rw [List.append_assoc, ih (n / b) hlt]
      simp only [List.singleton_append, scanDigits,
        digitVal_digitChar b (n % b) hb (Nat.mod_lt _ (by omega)), List.length_append,
        List.length_singleton]
      congr 1
      rw [Nat.add_mul, Nat.add_assoc, Nat.mul_comm (n / b) b, Nat.div_add_mod, Nat.mul_assoc, pow_succ]

theorem printNum_head (b : Nat) (hb : b = 10 ∨ b = 16) (n : Nat) :
    ∃ d t, d < b ∧ printNum b n = digitChar d :: t ∧
      (d = 0 → n = 0 ∧ t = []) := by
  induction n using Nat.strongRecOn with
  | ind n ih =>
    have hb2 : 2 ≤ b := by omega
    rw [printNum]
    split
    · exact ⟨n, [], by omega, rfl, fun h => ⟨h, rfl⟩⟩
    · rename_i h
      obtain ⟨d, t, hd, he, hz⟩ := ih (n / b) (Nat.div_lt_self (by omega) (by omega))
      refine ⟨d, t ++ [digitChar (n % b)], hd, by rw [he]; rfl, fun h0 => ?_⟩
      have := (hz h0).1
      have : b ≤ n := by omega
      have := Nat.div_pos this (by omega)
      omega

theorem digitChar_not_ws (b d : Nat) (hb : b = 10 ∨ b = 16) (hd : d < b) :
    isWs (digitChar d) = false ∧ digitChar d ≠ '-' ∧ digitChar d ≠ '+' ∧
      (digitChar d = '0' → d = 0) := by
  rcases hb with rfl | rfl
  · interval_cases d <;> decide
  · interval_cases d <;> decide

theorem skipWs_digit (b d : Nat) (hb : b = 10 ∨ b = 16) (hd : d < b) (t : List Char) :
    skipWs (digitChar d :: t) = digitChar d :: t := by
  simp [skipWs, (digitChar_not_ws b d hb hd).1]

/-- The character after a printed number stops the scan. -/
def Stops (b : Nat) : List Char → Prop
  | [] => True
  | c :: _ => digitVal b c = none ∧ c ≠ 'x' ∧ c ≠ 'X'

theorem stops_cons {b : Nat} {c : Char} {r : List Char} (h : digitVal b c = none) (h1 : c ≠ 'x')
    (h2 : c ≠ 'X') : Stops b (c :: r) := ⟨h, h1, h2⟩

theorem scanNum_printNum (b : Nat) (hb : b = 10 ∨ b = 16) (n : Nat) (hn : n < 2 ^ 64)
    (rest : List Char) (hr : Stops b rest) :
    scanNum b (printNum b n ++ rest) = some (n, rest) := by
  obtain ⟨d, t, hd, he, hz⟩ := printNum_head b hb n
  obtain ⟨h1, h2, h3, h4⟩ := digitChar_not_ws b d hb hd
  have hlen : 0 < (printNum b n).length := by rw [he]; simp
  have hscan : scanDigits b 0 0 (printNum b n ++ rest) = ((printNum b n).length, n, rest) := by
    rw [scanDigits_printNum b hb]
    cases rest with
    | nil => simp [scanDigits]
    | cons c r => simp [scanDigits, hr.1]
  have e1 : takeSign (printNum b n ++ rest) = (false, printNum b n ++ rest) := by
    rw [he]; simp [takeSign, h2, h3]
  have e2 : skipPrefix b (printNum b n ++ rest) = printNum b n ++ rest := by
    rw [he, List.cons_append]
    cases htr : t ++ rest with
    | nil => rfl
    | cons c r =>
      simp only [skipPrefix]
      rw [if_neg]
      rintro ⟨_, h0, hx⟩
      obtain ⟨-, rfl⟩ := hz (h4 h0)
      simp only [List.nil_append] at htr
      subst htr
      rcases hx with hx | hx
      · exact hr.2.1 hx
      · exact hr.2.2 hx
  have e0 : skipWs (printNum b n ++ rest) = printNum b n ++ rest := by
    rw [he, List.cons_append, skipWs_digit b d hb hd]
  simp only [scanNum, e0, e1, e2, hscan]
  rw [if_neg (by omega)]
  simp

theorem skipWs_printNum (b : Nat) (hb : b = 10 ∨ b = 16) (n : Nat) (r : List Char) :
    skipWs (printNum b n ++ r) = printNum b n ++ r := by
  obtain ⟨d, t, hd, he, _⟩ := printNum_head b hb n
  rw [he, List.cons_append, skipWs_digit b d hb hd]

theorem lit_cons (c : Char) (s : List Char) : lit c (c :: s) = some s := by simp [lit]

/-- 64-bit bounds on a record keyed by a pair. -/
def FitsPair (p : Pair × Nat) : Prop :=
  (ofLex p.1).1 < 2 ^ 64 ∧ (ofLex p.1).2 < 2 ^ 64 ∧ p.2 < 2 ^ 64

/-- 64-bit bounds on an address record. -/
def FitsAddr (p : Nat × Nat) : Prop := p.1 < 2 ^ 64 ∧ p.2 < 2 ^ 64

theorem scanRange_print (p : Pair × Nat) (h : FitsPair p) (s : List Char) :
    scanRange (printRange p ++ s) = some (p, skipWs s) := by
  obtain ⟨h1, h2, h3⟩ := h
  simp only [scanRange, printRange, List.append_assoc, List.cons_append, List.nil_append]
  rw [scanNum_printNum 16 (Or.inr rfl) _ h1 _ (stops_cons rfl (by decide) (by decide))]
  simp only [Option.bind_eq_bind, Option.bind_some, lit_cons]
  rw [scanNum_printNum 16 (Or.inr rfl) _ h2 _ (stops_cons rfl (by decide) (by decide))]
  simp only [Option.bind_some, lit_cons]
  rw [scanNum_printNum 10 (Or.inl rfl) _ h3 _ (stops_cons rfl (by decide) (by decide))]
  simp [skipWs, isWs]

theorem scanAddr_print (p : Nat × Nat) (h : FitsAddr p) (s : List Char) :
    scanAddr (printAddr p ++ s) = some (p, skipWs s) := by
  obtain ⟨h1, h3⟩ := h
  simp only [scanAddr, printAddr, List.append_assoc, List.cons_append, List.nil_append]
  rw [scanNum_printNum 16 (Or.inr rfl) _ h1 _ (stops_cons rfl (by decide) (by decide))]
  simp only [Option.bind_eq_bind, Option.bind_some, lit_cons]
  rw [scanNum_printNum 10 (Or.inl rfl) _ h3 _ (stops_cons rfl (by decide) (by decide))]
  simp [skipWs, isWs]

theorem scanBranch_print (p : Pair × Nat) (h : FitsPair p) (s : List Char) :
    scanBranch (printBranch p ++ s) = some (p, skipWs s) := by
  obtain ⟨h1, h2, h3⟩ := h
  simp only [scanBranch, printBranch, List.append_assoc, List.cons_append, List.nil_append]
  rw [scanNum_printNum 16 (Or.inr rfl) _ h1 _ (stops_cons rfl (by decide) (by decide))]
  simp only [Option.bind_eq_bind, Option.bind_some, lit_cons]
  rw [scanNum_printNum 16 (Or.inr rfl) _ h2 _ (stops_cons rfl (by decide) (by decide))]
  simp only [Option.bind_some, lit_cons]
  rw [scanNum_printNum 10 (Or.inl rfl) _ h3 _ (stops_cons rfl (by decide) (by decide))]
  simp [skipWs, isWs]

theorem skipWs_idem (s : List Char) : skipWs (skipWs s) = skipWs s := by
  induction s with
  | nil => rfl
  | cons c t ih =>
    simp only [skipWs]
    split
    · exact ih
    · rename_i h; simp [skipWs, h]

theorem scanRecords_print {K : Type} [LinearOrder K]
    (sc : List Char → Option ((K × Nat) × List Char)) (pr : K × Nat → List Char)
    (rs : List (K × Nat)) (h : ∀ r ∈ rs, ∀ s, sc (pr r ++ s) = some (r, skipWs s))
    (hw : ∀ r ∈ rs, ∀ s, skipWs (pr r ++ s) = pr r ++ s) (m : OMap K Nat) (s : List Char) :
    scanRecords sc rs.length m (skipWs (rs.flatMap pr ++ s)) =
      some (OMap.addAll m rs, skipWs s) := by
  induction rs generalizing m with
  | nil => rfl
  | cons r t ih =>
    simp only [List.flatMap_cons, List.append_assoc, List.length_cons, scanRecords]
    rw [hw r List.mem_cons_self, h r List.mem_cons_self]
    simp only [Option.bind_eq_bind, Option.bind_some]
    rw [ih (fun r hr => h r (List.mem_cons_of_mem _ hr))
      (fun r hr => hw r (List.mem_cons_of_mem _ hr))]
    rfl

theorem scanSection_print {K : Type} [LinearOrder K]
    (sc : List Char → Option ((K × Nat) × List Char)) (pr : K × Nat → List Char)
    (rs : List (K × Nat)) (hlen : rs.length < 2 ^ 31)
    (h : ∀ r ∈ rs, ∀ s, sc (pr r ++ s) = some (r, skipWs s))
    (hw : ∀ r ∈ rs, ∀ s, skipWs (pr r ++ s) = pr r ++ s) (m : OMap K Nat) (s : List Char) :
    scanSection sc m (printSection pr rs ++ s) = some (OMap.addAll m rs, skipWs s) := by
  simp only [scanSection, printSection, List.append_assoc, List.cons_append]
  rw [scanNum_printNum 10 (Or.inl rfl) _ (by omega) _ (stops_cons rfl (by decide) (by decide))]
  simp only [Option.bind_eq_bind, Option.bind_some]
  rw [if_neg (by omega)]
  have : skipWs ('\n' :: (rs.flatMap pr ++ s)) = skipWs (rs.flatMap pr ++ s) := by
    simp [skipWs, isWs]
  rw [this, scanRecords_print sc pr rs h hw]

theorem scanSection_skipWs {K : Type} [LinearOrder K]
    (sc : List Char → Option ((K × Nat) × List Char)) (m : OMap K Nat) (s : List Char) :
    scanSection sc m (skipWs s) = scanSection sc m s := by
  have : scanNum 10 (skipWs s) = scanNum 10 s := by
    unfold scanNum
    rw [skipWs_idem]
  simp only [scanSection, this]

/-! ## C01 -/

/-- All numbers of the profile fit the 64-bit fields and each section has fewer than `2^31`
records. -/
def Maps.Fits (m : Maps) : Prop :=
  (∀ p ∈ m.range, FitsPair p) ∧ (∀ p ∈ m.addr, FitsAddr p) ∧ (∀ p ∈ m.branch, FitsPair p) ∧
  m.range.length < 2 ^ 31 ∧ m.addr.length < 2 ^ 31 ∧ m.branch.length < 2 ^ 31

/-- Appending a written text profile to a reader that already holds `m₀` is the same as merging
the written profile in memory (C01/C02), whatever auxiliary text follows. -/
theorem readText_writeText (m₀ m : Maps) (aux : List Char) (hf : m.Fits) :
    readText m₀ (writeText m aux) = some (m₀.merge m) := by
  obtain ⟨h1, h2, h3, l1, l2, l3⟩ := hf
  simp only [readText, writeText]
  rw [scanSection_print scanRange printRange m.range l1
    (fun r hr s => scanRange_print r (h1 r hr) s)
    (fun r _ s => by simp only [printRange, List.append_assoc]; exact skipWs_printNum 16 (Or.inr rfl) _ _)]
  simp only [Option.bind_eq_bind, Option.bind_some, scanSection_skipWs]
  rw [scanSection_print scanAddr printAddr m.addr l2
    (fun r hr s => scanAddr_print r (h2 r hr) s)
    (fun r _ s => by simp only [printAddr, List.append_assoc]; exact skipWs_printNum 16 (Or.inr rfl) _ _)]
  simp only [Option.bind_some, scanSection_skipWs]
  rw [scanSection_print scanBranch printBranch m.branch l3
    (fun r hr s => scanBranch_print r (h3 r hr) s)
    (fun r _ s => by simp only [printBranch, List.append_assoc]; exact skipWs_printNum 16 (Or.inr rfl) _ _)]
  rfl

theorem addAll_nil_sorted {K : Type} [LinearOrder K] {m : OMap K Nat} (hm : OMap.Sorted m) :
    OMap.addAll [] m = m := by
  refine OMap.ext (OMap.Sorted.addAll OMap.sorted_nil m) hm (fun k => ?_)
  rw [OMap.find?_addAll OMap.sorted_nil, OMap.sumAt_of_sorted hm]
  by_cases hk : k ∈ m.map Prod.fst
  · rw [OMap.mem_keys_iff] at hk
    obtain ⟨v, hv⟩ := Option.isSome_iff_exists.1 hk
    rw [if_pos (Or.inl ((OMap.mem_keys_iff k).2 hk))]
    simp [OMap.find?, OMap.get0, hv]
  · have : OMap.find? m k = none := by
      rw [OMap.mem_keys_iff] at hk
      simpa using hk
    simp [OMap.find?, hk, this]

/-- C01: reading back the text written for a profile into a fresh reader yields exactly the three
count maps that were written, whatever `aux_info` text is appended to the file. -/
theorem text_profile_roundtrip (m : Maps) (hm : m.Ok) (hf : m.Fits) (aux : List Char) :
    readText Maps.empty (writeText m aux) = some m := by
  rw [readText_writeText _ _ _ hf]
  obtain ⟨h1, h2, h3⟩ := hm
  simp only [Maps.merge, Maps.empty, addAll_nil_sorted h1, addAll_nil_sorted h2,
    addAll_nil_sorted h3]

/-- Non-vacuity: a concrete profile with two ranges, one address (count 0 included) and a branch
meets the hypotheses of `text_profile_roundtrip`. -/
def exampleMaps : Maps :=
  ⟨[(toLex (0x10, 0x1f), 7), (toLex (0x10, 0x2f), 1)], [(0x10, 0), (0xabcdef, 12)],
   [(toLex (0x1f, 0x10), 6)]⟩

example : exampleMaps.Ok ∧ exampleMaps.Fits := by
  refine ⟨⟨?_, ?_, ?_⟩, ?_, ?_, ?_, ?_, ?_, ?_⟩ <;>
    simp [exampleMaps, OMap.Sorted, FitsPair, FitsAddr, Prod.Lex.lt_iff]

/-! ## C02 -/

/-- C02 (values): the accumulated output holds, for every range, address and branch, exactly the
sum of the counts in the previous output and in all the (non-skipped) inputs. -/
theorem merge_sample_sums (existing : Option Maps) (inputs : List (Option Maps))
    (he : (existing.getD Maps.empty).Ok) (hi : ∀ m, some m ∈ inputs → m.Ok) :
    (mergeSample existing inputs).Ok ∧
    (∀ r, OMap.get0 (mergeSample existing inputs).range r =
      OMap.get0 (existing.getD Maps.empty).range r +
        (inputs.map (fun i => OMap.get0 (i.getD Maps.empty).range r)).sum) ∧
    (∀ a, OMap.get0 (mergeSample existing inputs).addr a =
      OMap.get0 (existing.getD Maps.empty).addr a +
        (inputs.map (fun i => OMap.get0 (i.getD Maps.empty).addr a)).sum) ∧
    (∀ b, OMap.get0 (mergeSample existing inputs).branch b =
      OMap.get0 (existing.getD Maps.empty).branch b +
        (inputs.map (fun i => OMap.get0 (i.getD Maps.empty).branch b)).sum) := by
  unfold mergeSample
  generalize existing.getD Maps.empty = w at *
  induction inputs generalizing w with
  | nil => exact ⟨he, by simp, by simp, by simp⟩
  | cons i t ih =>
    cases i with
    | none =>
      have := ih (fun m hm => hi m (List.mem_cons_of_mem _ hm)) w he
      simpa [Maps.empty, OMap.get0, OMap.find?, mergeStep] using this
    | some m =>
      have hmo := hi m List.mem_cons_self
      have hw : (w.merge m).Ok :=
        ⟨OMap.Sorted.addAll he.1 _, OMap.Sorted.addAll he.2.1 _, OMap.Sorted.addAll he.2.2 _⟩
      obtain ⟨a, b, c, d⟩ := ih (fun m hm => hi m (List.mem_cons_of_mem _ hm)) (w.merge m) hw
      refine ⟨a, fun r => ?_, fun r => ?_, fun r => ?_⟩
      · have := b r
        simp only [Maps.merge] at this
        rw [OMap.get0_addAll he.1, OMap.sumAt_of_sorted hmo.1] at this
        simp only [List.foldl_cons, List.map_cons, List.sum_cons, Option.getD_some, Maps.merge, mergeStep]
        omega
      · have := c r
        simp only [Maps.merge] at this
        rw [OMap.get0_addAll he.2.1, OMap.sumAt_of_sorted hmo.2.1] at this
        simp only [List.foldl_cons, List.map_cons, List.sum_cons, Option.getD_some, Maps.merge, mergeStep]
        omega
      · have := d r
        simp only [Maps.merge] at this
        rw [OMap.get0_addAll he.2.2, OMap.sumAt_of_sorted hmo.2.2] at this
        simp only [List.foldl_cons, List.map_cons, List.sum_cons, Option.getD_some, Maps.merge, mergeStep]
        omega

theorem addAll_append {K : Type} [LinearOrder K] (m : OMap K Nat) (xs ys : List (K × Nat)) :
    OMap.addAll (OMap.addAll m xs) ys = OMap.addAll m (xs ++ ys) := by
  simp [OMap.addAll]

theorem addAll_comm {K : Type} [LinearOrder K] {m : OMap K Nat} (hm : OMap.Sorted m)
    (xs ys : List (K × Nat)) :
    OMap.addAll (OMap.addAll m xs) ys = OMap.addAll (OMap.addAll m ys) xs := by
  rw [addAll_append, addAll_append]
  exact OMap.addAll_perm hm List.perm_append_comm

theorem addAll_assoc {K : Type} [LinearOrder K] {a b : OMap K Nat} (ha : OMap.Sorted a)
    (hb : OMap.Sorted b) (c : OMap K Nat) (_hc : OMap.Sorted c) :
    OMap.addAll (OMap.addAll a b) c = OMap.addAll a (OMap.addAll b c) := by
  refine OMap.ext ((ha.addAll _).addAll _) (ha.addAll _) (fun k => ?_)
  rw [OMap.find?_addAll (ha.addAll b), OMap.find?_addAll ha, OMap.find?_addAll ha,
    OMap.sumAt_of_sorted (hb.addAll c), OMap.get0_addAll ha, OMap.get0_addAll hb,
    OMap.sumAt_of_sorted hb]
  have h1 : k ∈ List.map Prod.fst (OMap.addAll b c) ↔
      k ∈ List.map Prod.fst c ∨ k ∈ List.map Prod.fst b := by
    rw [OMap.mem_keys_iff, OMap.find?_addAll hb, OMap.mem_keys_iff (m := b)]
    split <;> simp_all
  rw [Nat.add_assoc]
  simp only [h1]
  by_cases hb' : k ∈ List.map Prod.fst b <;> by_cases hc' : k ∈ List.map Prod.fst c <;>
    by_cases ha' : (OMap.find? a k).isSome <;> simp [hb', hc', ha']

/-- C02 (order): the merged profile does not depend on the order of the inputs. -/
theorem merge_sample_order (existing : Option Maps) (i₁ i₂ : List (Option Maps))
    (he : (existing.getD Maps.empty).Ok) (hp : i₁.Perm i₂) :
    mergeSample existing i₁ = mergeSample existing i₂ := by
  unfold mergeSample
  generalize existing.getD Maps.empty = w at *
  have key : ∀ (l : List (Option Maps)) (w : Maps), 
      l.foldl mergeStep w =
      (⟨OMap.addAll w.range (l.flatMap (fun i => (i.getD Maps.empty).range)),
        OMap.addAll w.addr (l.flatMap (fun i => (i.getD Maps.empty).addr)),
        OMap.addAll w.branch (l.flatMap (fun i => (i.getD Maps.empty).branch))⟩ : Maps) := by
    intro l
    induction l with
    | nil => intro w; rfl
    | cons i t ih =>
      intro w
      cases i with
      | none => simp [ih, Maps.empty, mergeStep]
      | some m =>
        rw [List.foldl_cons, mergeStep, ih]
        simp [Maps.merge, OMap.addAll]
  rw [key, key]
  congr 1
  · exact OMap.addAll_perm he.1 (hp.flatMap_right _)
  · exact OMap.addAll_perm he.2.1 (hp.flatMap_right _)
  · exact OMap.addAll_perm he.2.2 (hp.flatMap_right _)

/-- C02 (grouping): merging `b` and `c` first and then into `a` gives the same as merging them one
after the other. -/
theorem merge_assoc (a b c : Maps) (ha : a.Ok) (hb : b.Ok) (hc : c.Ok) :
    (a.merge b).merge c = a.merge (b.merge c) := by
  simp only [Maps.merge, addAll_assoc ha.1 hb.1 _ hc.1, addAll_assoc ha.2.1 hb.2.1 _ hc.2.1,
    addAll_assoc ha.2.2 hb.2.2 _ hc.2.2]

/-- C02 (through files): writing an intermediate merge to a text file and appending that file is
the same as merging in memory. -/
theorem append_file_eq_merge (m₀ a b : Maps) (aux : List Char) (h₀ : m₀.Ok) (ha : a.Ok) (hb : b.Ok)
    (hf : (a.merge b).Fits) :
    readText m₀ (writeText (a.merge b) aux) = some ((m₀.merge a).merge b) := by
  rw [readText_writeText _ _ _ hf, merge_assoc _ _ _ h₀ ha hb]

example : (exampleMaps.merge exampleMaps).Ok ∧ (exampleMaps.merge exampleMaps).Fits := by
  have h : exampleMaps.merge exampleMaps =
    ⟨[(toLex (0x10, 0x1f), 14), (toLex (0x10, 0x2f), 2)], [(0x10, 0), (0xabcdef, 24)],
     [(toLex (0x1f, 0x10), 12)]⟩ := by decide
  rw [h]
  refine ⟨⟨?_, ?_, ?_⟩, ?_, ?_, ?_, ?_, ?_, ?_⟩ <;>
    simp [OMap.Sorted, FitsPair, FitsAddr, Prod.Lex.lt_iff]

/-! ## C03 -/

/-- The count-weighted number of covered bytes: each range `[begin,end]` (inclusive) contributes
`count * (end - begin + 1)`. -/
def coveredBytes (rs : OMap Pair Nat) : Nat :=
  (rs.map (fun p => p.2 * ((ofLex p.1).2 - (ofLex p.1).1 + 1))).sum

theorem foldl_mod (f : α → Nat) (l : List α) (a : Nat) (ha : a < 2 ^ 64) :
    l.foldl (fun acc p => (acc + f p) % 2 ^ 64) a = (a + (l.map f).sum) % 2 ^ 64 := by
  induction l generalizing a with
  | nil => simp only [List.foldl_nil, List.map_nil, List.sum_nil, Nat.add_zero]; omega
  | cons x t ih =>
    simp only [List.foldl_cons, List.map_cons, List.sum_cons]
    rw [ih _ (Nat.mod_lt _ (by decide))]
    omega

/-- C03: the total count reported after a successful read of a profile whose ranges are well formed
is, in 64-bit arithmetic, the count-weighted number of covered bytes; without ranges it is the sum
of the address counts. -/
theorem total_count_correct (m : Maps)
    (hr : ∀ p ∈ m.range, (ofLex p.1).1 ≤ (ofLex p.1).2 ∧ (ofLex p.1).2 < 2 ^ 64 - 1) :
    m.totalCountFrom 0 =
      (if m.range.isEmpty then (m.addr.map Prod.snd).sum else coveredBytes m.range) % 2 ^ 64 := by
  unfold Maps.totalCountFrom
  cases hm : m.range with
  | nil =>
    simp only [List.isEmpty_nil, if_true]
    rw [foldl_mod _ _ _ (by decide), Nat.zero_add]
  | cons p t =>
    rw [if_neg (by simp)]
    simp only
    rw [foldl_mod _ _ _ (by decide), Nat.zero_add, ← hm, coveredBytes]
    congr 2
    apply List.map_congr_left
    intro q hq
    have := hr q hq
    congr 1
    omega

/-- C03 (no wrap): when the true value fits in 64 bits it is reported exactly. -/
theorem total_count_exact (m : Maps)
    (hr : ∀ p ∈ m.range, (ofLex p.1).1 ≤ (ofLex p.1).2 ∧ (ofLex p.1).2 < 2 ^ 64 - 1)
    (hne : m.range ≠ []) (hfit : coveredBytes m.range < 2 ^ 64) :
    m.totalCountFrom 0 = coveredBytes m.range := by
  rw [total_count_correct m hr]
  cases hm : m.range with
  | nil => exact absurd hm hne
  | cons p t => rw [← hm, Nat.mod_eq_of_lt]; · simp [hm]
                simpa [hm] using hfit

/-- Weighted sums over a count map are additive under merging. -/
theorem weighted_sum_addAll {K : Type} [LinearOrder K] (w : K → Nat) (m : OMap K Nat)
    (xs : List (K × Nat)) :
    ((OMap.addAll m xs).map (fun p => p.2 * w p.1)).sum =
      (m.map (fun p => p.2 * w p.1)).sum + (xs.map (fun p => p.2 * w p.1)).sum := by
  have h1 : ∀ (m : OMap K Nat) (kv : K × Nat),
      ((OMap.add m kv).map (fun p => p.2 * w p.1)).sum =
        (m.map (fun p => p.2 * w p.1)).sum + kv.2 * w kv.1 := by
    intro m kv
    unfold OMap.add
    induction m with
    | nil => simp [OMap.upsert]
    | cons a t ih =>
      obtain ⟨k', v⟩ := a
      simp only [OMap.upsert]
      split
      · simp; ring
      · split
        · rename_i _ h; subst h; simp; ring
        · simp only [List.map_cons, List.sum_cons, ih]; ring
  induction xs generalizing m with
  | nil => simp [OMap.addAll]
  | cons a t ih =>
    have : OMap.addAll m (a :: t) = OMap.addAll (OMap.add m a) t := rfl
    rw [this, ih, h1]
    simp only [List.map_cons, List.sum_cons]
    ring

/-- C03 (monotone/additive): merging profiles adds their covered bytes, so adding samples never
lowers the (unwrapped) total. -/
theorem covered_bytes_merge (a b : Maps) :
    coveredBytes (a.merge b).range = coveredBytes a.range + coveredBytes b.range := by
  exact weighted_sum_addAll (fun k => (ofLex k).2 - (ofLex k).1 + 1) a.range b.range

/-- C03 (counts): `GetTotalSampleCount` is the sum of the range counts, or of the address counts
when there are no ranges. -/
theorem total_sample_count (m : Maps) :
    m.totalSampleCount =
      (if m.range.isEmpty then (m.addr.map Prod.snd).sum else (m.range.map Prod.snd).sum) := by
  have h : ∀ (K : Type) (l : List (K × Nat)) (a : Nat),
      l.foldl (fun acc p => acc + p.2) a = a + (l.map Prod.snd).sum := by
    intro K l
    induction l with
    | nil => simp
    | cons x t ih => intro a; simp only [List.foldl_cons, ih, List.map_cons, List.sum_cons]; omega
  unfold Maps.totalSampleCount
  cases hm : m.range with
  | nil => simp [h]
  | cons p t => simp only [h]; simp

example : exampleMaps.totalCountFrom 0 = 144 ∧
    (∀ p ∈ exampleMaps.range, (ofLex p.1).1 ≤ (ofLex p.1).2 ∧ (ofLex p.1).2 < 2 ^ 64 - 1) := by
  decide

/-- **C02, as seen by `GetSampleCountOrZero`**: the merged count of an address is the sum of its counts in the inputs,
where an address that is not in an input counts zero. -/
theorem merge_sample_count (existing : Option Maps) (inputs : List (Option Maps))
    (he : (existing.getD Maps.empty).Ok) (hi : ∀ m, some m ∈ inputs → m.Ok) (a : Nat) :
    (mergeSample existing inputs).sampleCountOrZero a =
      (existing.getD Maps.empty).sampleCountOrZero a +
        (inputs.map fun i => (i.getD Maps.empty).sampleCountOrZero a).sum ∧
    Maps.empty.sampleCountOrZero a = 0 := by
  have key : ∀ m : Maps, m.sampleCountOrZero a = OMap.get0 m.addr a := by
    intro m
    unfold Maps.sampleCountOrZero OMap.get0
    cases OMap.find? m.addr a <;> rfl
  simp only [key]
  exact ⟨(merge_sample_sums existing inputs he hi).2.2.1 a, rfl⟩

end Verif.Sample

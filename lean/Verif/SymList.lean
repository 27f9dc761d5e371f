import Verif.Alias
import Mathlib.Algebra.Order.BigOperators.Group.List
import Mathlib.Tactic.Ring

/-!
# C72: the list of cold symbols (symbol_map.cc:1499-1543, profile_symbol_list.cc:15-82, profile_creator.cc:135-155)

`create_llvm_prof --prof_sym_list`: the functions of the binary that are not in the profile.  The coverage ratio is the fraction
`num / den`; the product of the total size and the ratio, which the code computes with a `double`, is exact here.
-/
namespace Verif.SymList
open Verif Verif.SymbolMap

/-! ## The names in a profile -/

/-- The names of the call targets of a symbol (symbol_map.cc:1530-1535). -/
def targetNames (d : Data) : List Name := d.pos.flatMap fun p => p.2.targets.map Prod.fst

/-- What the loop pushes (symbol_map.cc:1537-1539), the top of the stack first. -/
def kids (cs : List (Callsite × Sym)) : List (Name × Sym) := (cs.map fun c => (c.1.2, c.2)).reverse

/-- The loop of `collectNamesInProfile` (symbol_map.cc:1526-1541); the top of the stack first.  A symbol comes with its name. -/
def collect : List (Name × Sym) → List Name → List Name
  | [], names => names
  | (n, .mk d cs) :: t, names =>
    collect (kids cs ++ t) (n :: targetNames d ++ names)
termination_by l => (l.map fun x => sizeOf x.2).sum
decreasing_by
  simp only [kids, List.map_append, List.map_reverse, List.sum_append, List.sum_reverse, List.map_map, List.map_cons, List.sum_cons]
  have h : ∀ cs : List (Callsite × Sym), (cs.map ((fun x : Name × Sym => sizeOf x.2) ∘ fun c => (c.1.2, c.2))).sum < sizeOf cs := by
    intro cs
    induction cs with
    | nil => simp
    | cons c t ih =>
      simp only [List.map_cons, List.sum_cons, Function.comp_apply, List.cons.sizeOf_spec]
      have : sizeOf c.2 < sizeOf c := by cases c; simp
      omega
  have := h cs
  have h2 : sizeOf (Sym.mk d cs) = 1 + sizeOf d + sizeOf cs := by simp
  omega

/-- `collectNamesInProfile` (symbol_map.cc:1511-1543).  The entries of `map_` with their keys and the names in the symbols. -/
def namesInProfile (m : List (Name × Name × Sym)) : List Name :=
  collect ((m.filter fun e => decide (e.2.2.data.total > 0)).map fun e => e.2).reverse
    ((m.filter fun e => decide (e.2.2.data.total > 0)).map fun e => e.1).reverse

/-- `collectNamesForProfSymList` (symbol_map.cc:1500-1509); `syms` is `address_symbol_map_`. -/
def namesForList (m : List (Name × Name × Sym)) (syms : List (Nat × Name × Nat)) : List (Name × Nat) :=
  (syms.filter fun e => decide (e.2.1 ∉ namesInProfile m)).map fun e => e.2

/-- `std::partial_sum`. -/
def psums : Nat → List Nat → List Nat
  | _, [] => []
  | a, x :: t => (a + x) :: psums (a + x) t

/-- `fillProfileSymbolList` (profile_symbol_list.cc:30-82); `num / den` is the ratio.  `none`: fatal, or an index out of bounds. -/
def fillList (pol : Policy) (l : List (Name × Nat)) (num den : Nat) : Option (List Name) :=
  if l = [] then some []
  else if num > den then none
  else if num = 0 then some []
  else
    match (l.map Prod.snd).mergeSort (fun a b => decide (a ≥ b)) with
    | [] => none
    | s0 :: ss =>
      if s0 > (l.map Prod.snd).sum * num / den then some []
      else ((s0 :: ss)[(psums 0 (s0 :: ss)).findIdx fun p => decide (p ≥ (l.map Prod.snd).sum * num / den)]?).map fun cutoff =>
        (l.filter fun e => decide (e.2 ≥ cutoff)).map fun e =>
          if originalName pol e.1 = e.1 then e.1 else originalName pol e.1

/-- The list that `CreateProfile` stores (profile_creator.cc:141-146). -/
def symbolList (pol : Policy) (m : List (Name × Name × Sym)) (syms : List (Nat × Name × Nat)) (num den : Nat) : Option (List Name) :=
  fillList pol (namesForList m syms) num den

/-! ## Specification -/

/-- `y` is `x` or inlined, at some depth, in `x`; a symbol with its name. -/
inductive Within : Name × Sym → Name × Sym → Prop
  | refl (x) : Within x x
  | call (n d cs c s y) : (c, s) ∈ cs → Within (c.2, s) y → Within (n, .mk d cs) y

/-- A name in the profile: of a function with samples (every name it has in the map), of a function inlined in one, or of a function
called from one of these. -/
def InProfile (m : List (Name × Name × Sym)) (n : Name) : Prop :=
  ∃ e ∈ m, e.2.2.data.total > 0 ∧ (n = e.1 ∨ ∃ y, Within e.2 y ∧ (n = y.1 ∨ ∃ p ∈ y.2.data.pos, ∃ t ∈ p.2.targets, n = t.1))

/-- `c` is the size at which the biggest functions reach `thr` bytes together: those of at least this size have as many, those above
have not. -/
def Cutoff (sizes : List Nat) (thr c : Nat) : Prop :=
  c ∈ sizes ∧ (sizes.filter fun s => decide (s ≥ c)).sum ≥ thr ∧ ((sizes.filter fun s => decide (s > c)).sum < thr ∨ thr = 0 ∧ ∀ s ∈ sizes, s = c)

/-! ## Proof -/

theorem collect_spec (l : List (Name × Sym)) (names : List Name) (n : Name) : n ∈ collect l names ↔
    n ∈ names ∨ ∃ x ∈ l, ∃ y, Within x y ∧ (n = y.1 ∨ ∃ p ∈ y.2.data.pos, ∃ t ∈ p.2.targets, n = t.1) := by
  induction l, names using collect.induct with
  | case1 names => simp [collect]
  | case2 m d cs t names ih =>
    rw [collect, ih]
    constructor
    · rintro (h | ⟨x, hx, y, hy, hn⟩)
      · simp only [targetNames, List.cons_append, List.mem_cons, List.mem_append, List.mem_flatMap, List.mem_map] at h
        rcases h with rfl | ⟨p, hp, q, hq, rfl⟩ | h
        · exact .inr ⟨_, List.mem_cons_self, _, .refl _, .inl rfl⟩
        · exact .inr ⟨_, List.mem_cons_self, _, .refl _, .inr ⟨p, hp, q, hq, rfl⟩⟩
        · exact .inl h
      · simp only [kids, List.mem_append, List.mem_reverse, List.mem_map] at hx
        rcases hx with ⟨c, hc, rfl⟩ | hx
        · exact .inr ⟨_, List.mem_cons_self, y, .call m d cs c.1 c.2 y hc hy, hn⟩
        · exact .inr ⟨x, List.mem_cons_of_mem _ hx, y, hy, hn⟩
    · rintro (h | ⟨x, hx, y, hy, hn⟩)
      · exact .inl (by simp [h])
      · rcases List.mem_cons.1 hx with rfl | hx
        · cases hy with
          | refl =>
            left
            simp only [targetNames, List.cons_append, List.mem_cons, List.mem_append, List.mem_flatMap, List.mem_map]
            rcases hn with rfl | ⟨p, hp, q, hq, rfl⟩
            · exact .inl rfl
            · exact .inr (.inl ⟨p, hp, q, hq, rfl⟩)
          | call _ _ _ c s _ hc hw =>
            exact .inr ⟨(c.2, s), by simp only [kids, List.mem_append, List.mem_reverse, List.mem_map]; exact .inl ⟨(c, s), hc, rfl⟩, y, hw, hn⟩
        · exact .inr ⟨x, by simp [hx], y, hy, hn⟩

/-- **C72, names of a profile.** For every profile: exactly the names of the functions with samples, of those inlined in them at any
depth, and of all call targets. -/
theorem names_in_profile (m : List (Name × Name × Sym)) (n : Name) : n ∈ namesInProfile m ↔ InProfile m n := by
  unfold namesInProfile
  rw [collect_spec]
  simp only [List.mem_reverse, List.mem_map, List.mem_filter, decide_eq_true_eq]
  constructor
  · rintro (⟨e, ⟨he, ht⟩, rfl⟩ | ⟨_, ⟨e, ⟨he, ht⟩, rfl⟩, y, hy, hn⟩)
    · exact ⟨e, he, ht, .inl rfl⟩
    · exact ⟨e, he, ht, .inr ⟨y, hy, hn⟩⟩
  · rintro ⟨e, he, ht, rfl | ⟨y, hy, hn⟩⟩
    · exact .inl ⟨e, ⟨he, ht⟩, rfl⟩
    · exact .inr ⟨_, ⟨e, ⟨he, ht⟩, rfl⟩, y, hy, hn⟩

theorem psums_get (a : Nat) (l : List Nat) (k : Nat) (h : k < (psums a l).length) : (psums a l)[k] = a + (l.take (k + 1)).sum := by
  induction l generalizing a k with
  | nil => simp [psums] at h
  | cons x t ih =>
    cases k with
    | zero => simp [psums]
    | succ k =>
      simp only [psums, List.getElem_cons_succ, List.take_succ_cons, List.sum_cons]
      rw [ih]
      omega

theorem psums_length (a : Nat) (l : List Nat) : (psums a l).length = l.length := by
  induction l generalizing a with
  | nil => rfl
  | cons x t ih => simp [psums, ih]

theorem filter_ge_sum (l : List Nat) (hs : l.Pairwise (· ≥ ·)) (k : Nat) (hk : k < l.length) :
    (l.take (k + 1)).sum ≤ (l.filter fun s => decide (s ≥ l[k])).sum := by
  have h : (l.take (k + 1)).filter (fun s => decide (s ≥ l[k])) = l.take (k + 1) := by
    rw [List.filter_eq_self]
    intro x hx
    obtain ⟨i, hi, rfl⟩ := List.mem_iff_getElem.1 hx
    rw [List.getElem_take]
    rw [List.length_take] at hi
    rcases Nat.lt_or_ge i k with h | h
    · exact decide_eq_true (List.pairwise_iff_getElem.1 hs i k (by omega) hk h)
    · have : i = k := by omega
      subst this
      simp
  have h2 := ((List.take_sublist (k + 1) l).filter (fun s => decide (s ≥ l[k]))).sum_le_sum (by simp)
  rw [h] at h2
  exact h2

theorem filter_gt_sum (l : List Nat) (hs : l.Pairwise (· ≥ ·)) (k : Nat) (hk : k < l.length) :
    (l.filter fun s => decide (s > l[k])).sum ≤ (l.take k).sum := by
  have h : l.filter (fun s => decide (s > l[k])) = (l.take k).filter (fun s => decide (s > l[k])) := by
    have happ : ∀ q : Nat → Bool, l.filter q = (l.take k).filter q ++ (l.drop k).filter q := fun q => by
      rw [← List.filter_append, List.take_append_drop]
    rw [happ]
    have : (l.drop k).filter (fun s => decide (s > l[k])) = [] := by
      rw [List.filter_eq_nil_iff]
      intro x hx
      obtain ⟨i, hi, rfl⟩ := List.mem_iff_getElem.1 hx
      rw [List.getElem_drop]
      rw [List.length_drop] at hi
      rcases Nat.eq_zero_or_pos i with rfl | h
      · simp
      · have := List.pairwise_iff_getElem.1 hs k (k + i) hk (by omega) (by omega)
        simpa using this
    rw [this, List.append_nil]
  rw [h]
  exact List.filter_sublist.sum_le_sum (by simp)

/-- **C72, the list.** For every list of functions with their sizes, every suffix policy and every ratio up to 1: nothing fails; the
list is empty if the ratio is 0 or the biggest function alone exceeds the ratio of the total size; otherwise it has the base names of
exactly the functions of at least the cutoff size. -/
theorem fill_list (pol : Policy) (l : List (Name × Nat)) (num den : Nat) (hr : num ≤ den) :
    ∃ r, fillList pol l num den = some r ∧
      ((l = [] ∨ num = 0 ∨ ∃ e ∈ l, e.2 > (l.map Prod.snd).sum * num / den) → r = []) ∧
      (l ≠ [] → num ≠ 0 → (∀ e ∈ l, e.2 ≤ (l.map Prod.snd).sum * num / den) →
        ∃ c, Cutoff (l.map Prod.snd) ((l.map Prod.snd).sum * num / den) c ∧
          ∀ n, n ∈ r ↔ ∃ e ∈ l, e.2 ≥ c ∧ n = originalName pol e.1) := by
  unfold fillList
  by_cases hl : l = []
  · rw [if_pos hl]
    exact ⟨[], rfl, fun _ => rfl, fun h => absurd hl h⟩
  rw [if_neg hl, if_neg (by omega)]
  by_cases h0 : num = 0
  · rw [if_pos h0]
    exact ⟨[], rfl, fun _ => rfl, fun _ h => absurd h0 h⟩
  rw [if_neg h0]
  have hperm := List.mergeSort_perm (l.map Prod.snd) (fun a b => decide (a ≥ b))
  have hsort : ((l.map Prod.snd).mergeSort (fun a b => decide (a ≥ b))).Pairwise (· ≥ ·) := by
    have := List.pairwise_mergeSort (le := fun a b : Nat => decide (a ≥ b)) (by simp; intros; omega) (by simp; intros; omega) (l.map Prod.snd)
    exact this.imp fun h => by simpa using h
  have hthr : (l.map Prod.snd).sum * num / den ≤ (l.map Prod.snd).sum := by
    apply Nat.div_le_of_le_mul
    rw [mul_comm]
    exact Nat.mul_le_mul_right _ hr
  generalize (l.map Prod.snd).sum * num / den = thr at hthr ⊢
  generalize (l.map Prod.snd).mergeSort (fun a b => decide (a ≥ b)) = ss at hperm hsort
  cases ss with
  | nil => exact absurd (List.map_eq_nil_iff.1 (List.perm_nil.1 hperm.symm)) hl
  | cons s0 ss =>
    simp only
    have hmax : ∀ s ∈ l.map Prod.snd, s ≤ s0 := by
      intro s hs
      rcases List.mem_cons.1 (hperm.symm.subset hs) with rfl | h
      · exact le_refl _
      · exact (List.pairwise_cons.1 hsort).1 s h
    have hs0 : s0 ∈ l.map Prod.snd := hperm.subset List.mem_cons_self
    by_cases hbig : s0 > thr
    · rw [if_pos hbig]
      refine ⟨[], rfl, fun _ => rfl, ?_⟩
      intro _ _ h
      obtain ⟨e, he, rfl⟩ := List.mem_map.1 hs0
      have := h e he
      omega
    · rw [if_neg hbig]
      generalize hk : (psums 0 (s0 :: ss)).findIdx (fun p => decide (p ≥ thr)) = k
      have hlast : ∃ p ∈ psums 0 (s0 :: ss), p ≥ thr := by
        refine ⟨_, List.getElem_mem (n := ss.length) (by rw [psums_length]; simp), ?_⟩
        rw [psums_get, List.take_of_length_le (by simp), hperm.sum_eq]
        omega
      have hkl : k < (psums 0 (s0 :: ss)).length := by
        rw [← hk]
        obtain ⟨p, hp, hge⟩ := hlast
        exact List.findIdx_lt_length_of_exists ⟨p, hp, by simpa using hge⟩
      have hkl' : k < (s0 :: ss).length := by rwa [psums_length] at hkl
      have hge : thr ≤ ((s0 :: ss).take (k + 1)).sum := by
        have : decide ((psums 0 (s0 :: ss))[k] ≥ thr) = true := by
          subst hk
          exact List.findIdx_getElem (w := hkl)
        rw [psums_get] at this
        simpa using this
      rw [List.getElem?_eq_getElem hkl']
      refine ⟨_, rfl, ?_, ?_⟩
      · rintro (h | h | ⟨e, he, h⟩)
        · exact absurd h hl
        · exact absurd h h0
        · have := hmax e.2 (List.mem_map.2 ⟨e, he, rfl⟩)
          omega
      · intro _ _ _
        refine ⟨(s0 :: ss)[k], ⟨hperm.subset (List.getElem_mem _), ?_, ?_⟩, ?_⟩
        · rw [← (hperm.filter _).sum_eq]
          exact le_trans hge (filter_ge_sum _ hsort k hkl')
        · rcases Nat.eq_zero_or_pos k with h | h
          · subst h
            rcases Nat.eq_zero_or_pos thr with ht | ht
            · right
              refine ⟨ht, ?_⟩
              intro s hs
              have := hmax s hs
              simp only [List.getElem_cons_zero]
              omega
            · left
              rw [← (hperm.filter _).sum_eq]
              have := filter_gt_sum _ hsort 0 hkl'
              simp at this ⊢
              omega
          · left
            rw [← (hperm.filter _).sum_eq]
            refine lt_of_le_of_lt (filter_gt_sum _ hsort k hkl') ?_
            have : decide ((psums 0 (s0 :: ss))[k - 1]'(by omega) ≥ thr) = false := by
              apply List.not_of_lt_findIdx (p := fun p => decide (p ≥ thr))
              omega
            rw [psums_get] at this
            have h1 : k - 1 + 1 = k := by omega
            rw [h1] at this
            simpa using this
        · intro n
          simp only [List.mem_map, List.mem_filter, decide_eq_true_eq]
          constructor
          · rintro ⟨e, ⟨he, hc⟩, rfl⟩
            refine ⟨e, he, hc, ?_⟩
            split
            · next h => exact h.symm
            · rfl
          · rintro ⟨e, he, hc, rfl⟩
            refine ⟨e, ⟨he, hc⟩, ?_⟩
            split
            · next h => exact h.symm
            · rfl

/-- Ratio 1: all functions with code. -/
theorem fill_list_all (pol : Policy) (l : List (Name × Nat)) (den : Nat) (hd : 0 < den) :
    ∃ r, fillList pol l den den = some r ∧ ∀ e ∈ l, 0 < e.2 → originalName pol e.1 ∈ r := by
  obtain ⟨r, h1, _, h3⟩ := fill_list pol l den den (le_refl _)
  refine ⟨r, h1, ?_⟩
  intro e he hpos
  rw [Nat.mul_div_cancel _ hd] at h3
  have hle : ∀ e ∈ l, e.2 ≤ (l.map Prod.snd).sum := fun e he => List.single_le_sum (by simp) _ (List.mem_map.2 ⟨e, he, rfl⟩)
  obtain ⟨c, ⟨hc, hge, _⟩, hmem⟩ := h3 (List.ne_nil_of_mem he) (by omega) hle
  refine (hmem _).2 ⟨e, he, ?_, rfl⟩
  by_contra hlt
  have hsplit : ((l.map Prod.snd).filter fun s => decide (s ≥ c)).sum + ((l.map Prod.snd).filter fun s => ! decide (s ≥ c)).sum =
      (l.map Prod.snd).sum := by
    rw [← List.sum_append]
    exact (List.filter_append_perm (fun s => decide (s ≥ c)) (l.map Prod.snd)).sum_eq
  have : e.2 ≤ ((l.map Prod.snd).filter fun s => ! decide (s ≥ c)).sum :=
    List.single_le_sum (by simp) _ (List.mem_filter.2 ⟨List.mem_map.2 ⟨e, he, rfl⟩, by simpa using hlt⟩)
  omega

/-- **C72.** For every profile and every symbol table of the binary: if no suffix of a function of the binary is elided, no name of the
list is in the profile; and with ratio 1 every function with code is in the profile or in the list. -/
theorem symbol_list (pol : Policy) (m : List (Name × Name × Sym)) (syms : List (Nat × Name × Nat)) (num den : Nat) (hr : num ≤ den)
    (hd : 0 < den) : ∃ r, symbolList pol m syms num den = some r ∧
      (∀ n ∈ r, ∃ e ∈ syms, ¬ InProfile m e.2.1 ∧ n = originalName pol e.2.1) ∧
      ((∀ e ∈ syms, originalName pol e.2.1 = e.2.1) → ∀ n ∈ r, ¬ InProfile m n) ∧
      (num = den → ∀ e ∈ syms, 0 < e.2.2 → InProfile m e.2.1 ∨ originalName pol e.2.1 ∈ r) := by
  obtain ⟨r, h1, h2, h3⟩ := fill_list pol (namesForList m syms) num den hr
  have hmem : ∀ e, e ∈ namesForList m syms ↔ ∃ x ∈ syms, ¬ InProfile m x.2.1 ∧ x.2 = e := by
    intro e
    simp only [namesForList, List.mem_map, List.mem_filter, decide_eq_true_eq, names_in_profile, and_assoc]
  have hin : ∀ n ∈ r, ∃ e ∈ syms, ¬ InProfile m e.2.1 ∧ n = originalName pol e.2.1 := by
    intro n hn
    by_cases hc : namesForList m syms = [] ∨ num = 0 ∨ ∃ e ∈ namesForList m syms, e.2 > ((namesForList m syms).map Prod.snd).sum * num / den
    · rw [h2 hc] at hn
      cases hn
    · simp only [not_or, not_exists, not_and, Nat.not_lt] at hc
      obtain ⟨c, _, hr'⟩ := h3 hc.1 hc.2.1 hc.2.2
      obtain ⟨e, he, _, rfl⟩ := (hr' n).1 hn
      obtain ⟨x, hx, hp, rfl⟩ := (hmem e).1 he
      exact ⟨x, hx, hp, rfl⟩
  refine ⟨r, h1, hin, ?_, ?_⟩
  · intro hno n hn
    obtain ⟨e, he, hp, rfl⟩ := hin n hn
    rw [hno e he]
    exact hp
  · rintro rfl e he hpos
    by_cases hp : InProfile m e.2.1
    · exact .inl hp
    · right
      obtain ⟨r', h4, h5⟩ := fill_list_all pol (namesForList m syms) num hd
      rw [h1] at h4
      cases h4
      exact h5 e.2 ((hmem e.2).2 ⟨e, he, hp, rfl⟩) hpos

/-! ## Concrete cases -/

/-- `a` with samples, `f` inlined in it, which calls `g`; the binary also has `h` and `k`. -/
def exMap : List (Name × Name × Sym) :=
  [([97], [97], .mk ⟨20, 1, []⟩ [((3, [102]), .mk ⟨20, 0, [(1, ⟨20, 2, [([103], 9)]⟩)]⟩ [])]), ([104], [104], .mk ⟨0, 0, []⟩ [])]

def exSymbols : List (Nat × Name × Nat) := [(16, [97], 8), (24, [102], 8), (32, [103], 8), (40, [104], 30), (80, [107], 10)]

theorem exMap_names : InProfile exMap [103] ∧ ¬ InProfile exMap [104] := by
  constructor
  · refine ⟨_, List.mem_cons_self, by decide, .inr ⟨([102], _), .call _ _ _ (3, [102]) _ _ List.mem_cons_self (.refl _), .inr ?_⟩⟩
    exact ⟨_, List.mem_cons_self, _, List.mem_cons_self, rfl⟩
  · rintro ⟨e, he, ht, h⟩
    simp only [exMap, List.mem_cons, List.not_mem_nil, or_false] at he
    rcases he with rfl | rfl
    · rcases h with h | ⟨y, hy, h⟩
      · exact absurd h (by decide)
      · cases hy with
        | refl =>
          rcases h with h | ⟨p, hp, _⟩
          · exact absurd h (by decide)
          · cases hp
        | call _ _ _ c s _ hc hw =>
          simp only [List.mem_singleton, Prod.mk.injEq] at hc
          obtain ⟨rfl, rfl⟩ := hc
          cases hw with
          | refl =>
            rcases h with h | ⟨p, hp, t, ht, h⟩
            · exact absurd h (by decide)
            · simp only [Sym.data, List.mem_singleton] at hp
              subst hp
              simp only [List.mem_singleton] at ht
              subst ht
              exact absurd h (by decide)
          | call _ _ _ c s _ hc hw => cases hc
    · exact absurd ht (by decide)

/-- With ratio 1 the list is `h`, `k`. -/
theorem exList : ∃ r, symbolList .none exMap exSymbols 1 1 = some r ∧ [104] ∈ r ∧ ¬ [103] ∈ r := by
  obtain ⟨r, h1, h2, h3, h4⟩ := symbol_list .none exMap exSymbols 1 1 (le_refl _) (by decide)
  refine ⟨r, h1, ?_, fun h => h3 (fun _ _ => rfl) _ h exMap_names.1⟩
  rcases h4 rfl (40, [104], 30) (by decide) (by decide) with h | h
  · exact absurd h exMap_names.2
  · exact h

/-- C72 violated: "prof_sym_list is expected not to contain any symbol showing up in the profile".  The function `f.x` of the binary
is `f` in the profile, and `f` is also in the list. -/
theorem symbol_list_suffix_violated : ∃ r, symbolList .all [([102], [102], .mk ⟨20, 1, []⟩ [])] [(16, [102, 46, 120], 8)] 1 1 = some r ∧
    [102] ∈ r ∧ InProfile [([102], [102], .mk ⟨20, 1, []⟩ [])] [102] := by
  obtain ⟨r, h1, _, _, h4⟩ := symbol_list .all [([102], [102], .mk ⟨20, 1, []⟩ [])] [(16, [102, 46, 120], 8)] 1 1 (le_refl _) (by decide)
  refine ⟨r, h1, ?_, _, List.mem_cons_self, by decide, .inl rfl⟩
  rcases h4 rfl _ List.mem_cons_self (by decide) with h | h
  · exfalso
    obtain ⟨e, he, _, h⟩ := h
    simp only [List.mem_singleton] at he
    subst he
    rcases h with h | ⟨y, hy, h⟩
    · exact absurd h (by decide)
    · cases hy with
      | refl =>
        rcases h with h | ⟨p, hp, _⟩
        · exact absurd h (by decide)
        · cases hp
      | call _ _ _ c s _ hc hw => cases hc
  · exact h

end Verif.SymList

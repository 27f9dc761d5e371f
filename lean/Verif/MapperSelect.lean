import Verif.Mapper
import Mathlib.Data.List.Nodup

/-! # C48: which functions are selected (llvm_propeller_binary_address_mapper.cc:302-443) -/
namespace Verif.MapperSelect
open Verif Verif.Mapper

/-- `FunctionSymbolInfo` (llvm_propeller_binary_address_mapper.h:108-115). -/
structure Info where
  aliases : List Name
  section_ : Name

/-- The builder's view of the binary: blocks, and the symbol info of the functions that have one. -/
structure Bin where
  fns : List Fn
  info : Nat → Option Info

/-- End of a function: end of its last block (llvm_propeller_binary_address_mapper.cc:317-319). -/
def fnEnd (f : Fn) : Nat := f.addr + (f.bbs.getLast?.map fun b => b.offset + b.size).getD 0

/-- `add_to_hot_functions` (llvm_propeller_binary_address_mapper.cc:307-322). -/
def hotFunction (fns : List Fn) (a : Nat) : Option Nat :=
  match (fns.takeWhile fun f => decide (f.addr ≤ a)).length with
  | 0 => none
  | i + 1 => match fns[i]? with
    | some f => if fnEnd f ≤ a then none else some i
    | none => none

/-- `CalculateHotFunctions` (llvm_propeller_binary_address_mapper.cc:304-326), as an ordered set. -/
def hotFunctions (fns : List Fn) (addrs : List Nat) : List Nat :=
  (List.range fns.length).filter fun i => (addrs.filterMap (hotFunction fns)).contains i

/-- `FilterNoNameFunctions` (llvm_propeller_binary_address_mapper.cc:336-349). -/
def filterNoName (b : Bin) (sel : List Nat) : List Nat := sel.filter fun i => (b.info i).isSome

/-- `FilterNonTextFunctions` (llvm_propeller_binary_address_mapper.cc:351-367). -/
def filterNonText (b : Bin) (sel : List Nat) (text : Name) : List Nat :=
  sel.filter fun i => (b.info i).any fun s => s.section_ == text

/-- Aliases of a function. -/
def Bin.names (b : Bin) (i : Nat) : List Name := ((b.info i).map (·.aliases)).getD []

/-- `name_to_function_index[name]` (llvm_propeller_binary_address_mapper.cc:378-382). -/
def owners (b : Bin) (sel : List Nat) (n : Name) : List Nat :=
  sel.flatMap fun i => (b.names i).filterMap fun a => if a = n then some i else none

/-- `same_structure` (llvm_propeller_binary_address_mapper.cc:395-402). -/
def sameStructure (b : Bin) (l : List Nat) : Bool :=
  let shape := fun i => ((b.fns[i]?).map fun f => f.bbs.map fun x => (x.offset, x.size)).getD []
  l.all fun i => shape i == shape (l.headD 0)

/-- The functions erased because of name `n` (llvm_propeller_binary_address_mapper.cc:384-417). -/
def erased (uniq : Name → Bool) (b : Bin) (sel : List Nat) (n : Name) : List Nat :=
  let o := owners b sel n
  if o.length ≤ 1 then []
  else if uniq n && sameStructure b o then o.tail
  else o

/-- `FilterDuplicateNameFunctions` (llvm_propeller_binary_address_mapper.cc:369-420); `uniq n`: the name contains
".__uniq.".  Which functions are erased does not depend on the order in which the names are visited. -/
def filterDup (uniq : Name → Bool) (b : Bin) (sel : List Nat) : List Nat :=
  let names := sel.flatMap b.names
  sel.filter fun i => !(names.any fun n => (erased uniq b sel n).contains i)

/-- `SelectFunctions` (llvm_propeller_binary_address_mapper.cc:422-438). -/
def select (uniq : Name → Bool) (text : Name) (filterText : Bool) (b : Bin) (hot : Option (List Nat)) : List Nat :=
  let s0 := match hot with
    | some a => hotFunctions b.fns a
    | none => List.range b.fns.length
  let s1 := filterNoName b s0
  let s2 := if filterText then filterNonText b s1 text else s1
  filterDup uniq b s2

/-! ### Proofs -/

theorem mem_owners {b : Bin} {sel : List Nat} {n : Name} {i : Nat} :
    i ∈ owners b sel n ↔ i ∈ sel ∧ n ∈ b.names i := by
  unfold owners
  rw [List.mem_flatMap]
  constructor
  · rintro ⟨j, hj, h⟩
    obtain ⟨a, ha, h2⟩ := List.mem_filterMap.mp h
    split at h2
    · rename_i hx; subst hx; cases h2; exact ⟨hj, ha⟩
    · cases h2
  · rintro ⟨h1, h2⟩
    exact ⟨i, h1, List.mem_filterMap.mpr ⟨n, h2, by simp⟩⟩

theorem owners_sorted {b : Bin} {n : Name} : ∀ {sel : List Nat}, sel.Pairwise (· < ·) → (owners b sel n).Pairwise (· ≤ ·) := by
  intro sel
  induction sel with
  | nil => intro _; exact List.Pairwise.nil
  | cons i sel ih =>
    intro h
    have h' := List.pairwise_cons.mp h
    unfold owners
    rw [List.flatMap_cons, List.pairwise_append]
    refine ⟨?_, ih h'.2, ?_⟩
    · have : ∀ x ∈ ((b.names i).filterMap fun a => if a = n then some i else none), x = i := by
        intro x hx
        obtain ⟨a, _, h2⟩ := List.mem_filterMap.mp hx
        split at h2
        · cases h2; rfl
        · cases h2
      exact List.pairwise_of_forall_mem_list (fun x hx y hy => by rw [this x hx, this y hy])
    · intro x hx y hy
      obtain ⟨a, _, h2⟩ := List.mem_filterMap.mp hx
      have hxi : x = i := by
        split at h2
        · cases h2; rfl
        · cases h2
      have := (mem_owners (b := b) (sel := sel) (n := n)).mp hy
      rw [hxi]; exact le_of_lt (h'.1 y this.1)

theorem filterDup_sub (uniq : Name → Bool) (b : Bin) (sel : List Nat) : (filterDup uniq b sel).Sublist sel :=
  List.filter_sublist

/-- **C48**: no two of the remaining functions share a name. -/
theorem filterDup_distinct (uniq : Name → Bool) (b : Bin) (sel : List Nat) (hs : sel.Pairwise (· < ·)) (i j : Nat)
    (hi : i ∈ filterDup uniq b sel) (hj : j ∈ filterDup uniq b sel) (n : Name) (hni : n ∈ b.names i) (hnj : n ∈ b.names j) :
    i = j := by
  have key : ∀ i j, i < j → i ∈ filterDup uniq b sel → j ∈ filterDup uniq b sel → n ∈ b.names i → n ∈ b.names j → False := by
    intro i j hlt hi hj hni hnj
    have hi' := List.mem_filter.mp hi
    have hj' := List.mem_filter.mp hj
    have oi := (mem_owners (b := b) (sel := sel) (n := n)).mpr ⟨hi'.1, hni⟩
    have oj := (mem_owners (b := b) (sel := sel) (n := n)).mpr ⟨hj'.1, hnj⟩
    have hmem : j ∈ erased uniq b sel n := by
      unfold erased
      simp only
      have hlen : ¬ (owners b sel n).length ≤ 1 := by
        intro hle
        match ho : owners b sel n with
        | [] => rw [ho] at oi; simp at oi
        | [x] => rw [ho] at oi oj; simp at oi oj; omega
        | _ :: _ :: _ => rw [ho] at hle; simp at hle
      rw [if_neg hlen]
      split
      · have hsort := owners_sorted (b := b) (n := n) hs
        cases ho : owners b sel n with
        | nil => rw [ho] at oi; simp at oi
        | cons x t =>
          rw [ho] at oi oj hsort
          rcases List.mem_cons.mp oj with rfl | oj
          · rcases List.mem_cons.mp oi with rfl | oi
            · omega
            · have := (List.pairwise_cons.mp hsort).1 i oi; omega
          · exact oj
      · exact oj
    have hn : n ∈ sel.flatMap b.names := List.mem_flatMap.mpr ⟨j, hj'.1, hnj⟩
    have := hj'.2
    simp only [Bool.not_eq_true', List.any_eq_false] at this
    have := this n hn
    simp [hmem] at this
  rcases Nat.lt_trichotomy i j with h | h | h
  · exact (key i j h hi hj hni hnj).elim
  · exact h
  · exact (key j i h hj hi hnj hni).elim

/-- **C48**: a function whose names are used once is kept. -/
theorem filterDup_keeps (uniq : Name → Bool) (b : Bin) (sel : List Nat) (i : Nat) (hi : i ∈ sel) 
    (h : ∀ n, n ∈ b.names i → owners b sel n = [i]) : i ∈ filterDup uniq b sel := by
  apply List.mem_filter.mpr
  refine ⟨hi, ?_⟩
  simp only [Bool.not_eq_true', List.any_eq_false]
  intro n _
  have : i ∉ erased uniq b sel n := by
    unfold erased
    simp only
    split
    · simp
    · rename_i hlen
      intro hmem
      have ho : i ∈ owners b sel n := by
        split at hmem
        · exact List.mem_of_mem_tail hmem
        · exact hmem
      have := h n (mem_owners.mp ho).2
      rw [this] at hlen; simp at hlen
  simpa using this

/-- **C48**: of several equally structured functions with one ".__uniq." name and no other names the first is kept. -/
theorem filterDup_keeps_first (uniq : Name → Bool) (b : Bin) (sel : List Nat) (n : Name) (i : Nat) (t : List Nat)
    (hu : uniq n = true) (ho : owners b sel n = i :: t) (hit : i ∉ t) (hst : sameStructure b (i :: t) = true)
    (hn : ∀ x, x ∈ b.names i → x = n) : i ∈ filterDup uniq b sel := by
  have hi : i ∈ sel := (mem_owners (b := b) (sel := sel) (n := n)).mp (by rw [ho]; simp) |>.1
  apply List.mem_filter.mpr
  refine ⟨hi, ?_⟩
  simp only [Bool.not_eq_true', List.any_eq_false]
  intro x _
  have : i ∉ erased uniq b sel x := by
    by_cases hx : x = n
    · subst hx
      unfold erased
      simp only [ho, hu, hst]
      split
      · simp
      · simpa using hit
    · intro hmem
      unfold erased at hmem
      simp only at hmem
      split at hmem
      · simp at hmem
      · have ho : i ∈ owners b sel x := by
          split at hmem
          · exact List.mem_of_mem_tail hmem
          · exact hmem
        exact hx (hn x (mem_owners.mp ho).2)
  simpa using this

/-- **C48**: the selected functions are functions of the binary with a name, distinct names, and in the text section
when this is asked for; they come in increasing order. -/
theorem select_spec (uniq : Name → Bool) (text : Name) (ft : Bool) (b : Bin) (hot : Option (List Nat)) :
    (select uniq text ft b hot).Pairwise (· < ·) ∧
    (∀ i ∈ select uniq text ft b hot, i < b.fns.length ∧ ∃ inf, b.info i = some inf ∧
      (ft = true → inf.section_ = text) ∧ ∀ a, hot = some a → i ∈ hotFunctions b.fns a) ∧
    (∀ i ∈ select uniq text ft b hot, ∀ j ∈ select uniq text ft b hot, ∀ n, n ∈ b.names i → n ∈ b.names j → i = j) := by
  have hrange : (List.range b.fns.length).Pairwise (· < ·) := List.pairwise_lt_range
  have h0 : ∃ s0, s0.Pairwise (· < ·) ∧ (∀ i ∈ s0, i < b.fns.length ∧ ∀ a, hot = some a → i ∈ hotFunctions b.fns a) ∧
      select uniq text ft b hot = filterDup uniq b
        (if ft then filterNonText b (filterNoName b s0) text else filterNoName b s0) := by
    cases hot with
    | none =>
      exact ⟨_, hrange, fun i hi => ⟨List.mem_range.mp hi, by simp⟩, rfl⟩
    | some a =>
      refine ⟨hotFunctions b.fns a, hrange.sublist List.filter_sublist, ?_, rfl⟩
      intro i hi
      exact ⟨List.mem_range.mp (List.mem_filter.mp hi).1, fun a' ha' => by cases ha'; exact hi⟩
  obtain ⟨s0, hs0, hmem0, heq⟩ := h0
  rw [heq]
  have hs1 : (filterNoName b s0).Pairwise (· < ·) := hs0.sublist List.filter_sublist
  have hs2 : (if ft then filterNonText b (filterNoName b s0) text else filterNoName b s0).Pairwise (· < ·) := by
    split
    · exact hs1.sublist List.filter_sublist
    · exact hs1
  refine ⟨hs2.sublist (filterDup_sub _ _ _), ?_, ?_⟩
  · intro i hi
    have hi2 := (filterDup_sub _ _ _).subset hi
    have h1 : i ∈ filterNoName b s0 ∧ (ft = true → (b.info i).any (fun s => s.section_ == text) = true) := by
      split at hi2
      · have := List.mem_filter.mp hi2
        exact ⟨this.1, fun _ => this.2⟩
      · rename_i hf
        exact ⟨hi2, fun h => absurd h hf⟩
    obtain ⟨h1, h2⟩ := h1
    have h3 := List.mem_filter.mp h1
    obtain ⟨inf, hinf⟩ := Option.isSome_iff_exists.mp h3.2
    refine ⟨(hmem0 i h3.1).1, inf, hinf, ?_, (hmem0 i h3.1).2⟩
    intro hft
    have := h2 hft
    rw [hinf] at this
    simpa using this
  · intro i hi j hj n hni hnj
    exact filterDup_distinct uniq b _ hs2 i j hi hj n hni hnj

/-- **C48**: for functions in address order without overlap, a function is hot exactly when a hot address lies in it. -/
theorem hotFunctions_iff (fns : List Fn) (addrs : List Nat) (hs : fns.Pairwise fun f g => f.addr < g.addr ∧ fnEnd f ≤ g.addr)
    (i : Nat) (f : Fn) (hf : fns[i]? = some f) :
    i ∈ hotFunctions fns addrs ↔ ∃ a ∈ addrs, f.addr ≤ a ∧ a < fnEnd f := by
  have hlen := (List.getElem?_eq_some_iff.mp hf).1
  have ord : ∀ {i j : Nat} {f g : Fn}, fns[i]? = some f → fns[j]? = some g → i < j → f.addr < g.addr ∧ fnEnd f ≤ g.addr := by
    intro i j f g hi hj hij
    obtain ⟨hi1, hi2⟩ := List.getElem?_eq_some_iff.mp hi
    obtain ⟨hj1, hj2⟩ := List.getElem?_eq_some_iff.mp hj
    have := List.pairwise_iff_getElem.mp hs i j hi1 hj1 hij
    rwa [hi2, hj2] at this
  have key : ∀ a, hotFunction fns a = some i ↔ f.addr ≤ a ∧ a < fnEnd f := by
    intro a
    have sp := takeWhile_spec (fun f : Fn => decide (f.addr ≤ a)) fns
    have hle := (List.takeWhile_sublist (fun f : Fn => decide (f.addr ≤ a)) (l := fns)).length_le
    unfold hotFunction
    generalize (fns.takeWhile fun f => decide (f.addr ≤ a)).length = ub at sp hle
    constructor
    · intro h
      split at h
      · cases h
      · rename_i u
        split at h
        · rename_i g hg
          split at h
          · cases h
          · rename_i hend
            cases h
            rw [hf] at hg; cases hg
            obtain ⟨x, hx, hp⟩ := sp.1 i (by omega)
            rw [hf] at hx; cases hx
            simp at hp
            exact ⟨hp, by omega⟩
        · cases h
    · rintro ⟨h1, h2⟩
      have hub : ub = i + 1 := by
        rcases Nat.lt_trichotomy ub (i + 1) with h | h | h
        · exfalso
          have hu : ub < fns.length := by omega
          have := sp.2 _ (List.getElem?_eq_getElem hu)
          simp at this
          rcases Nat.lt_or_ge ub i with hlt | hge
          · have := ord (List.getElem?_eq_getElem hu) hf hlt; omega
          · have : ub = i := by omega
            subst this
            have e := (List.getElem?_eq_some_iff.mp hf).2
            rw [e] at this; omega
        · exact h
        · exfalso
          obtain ⟨x, hx, hp⟩ := sp.1 (i + 1) h
          simp at hp
          have := ord hf hx (by omega)
          omega
      rw [hub]
      simp only [hf]
      rw [if_neg (by omega)]
  unfold hotFunctions
  rw [List.mem_filter]
  simp only [List.mem_range, hlen, true_and, List.contains_iff_mem, List.mem_filterMap]
  constructor
  · rintro ⟨a, ha, h⟩; exact ⟨a, ha, (key a).mp h⟩
  · rintro ⟨a, ha, h⟩; exact ⟨a, ha, (key a).mpr h⟩

/-- A concrete case: functions 0 and 1 share a name, 2 is only named by itself; hot addresses in 0, 1, 2. -/
theorem select_example :
    select (fun _ => false) [1] true
      ⟨[⟨0x10, [⟨0, 8, true, false⟩]⟩, ⟨0x20, [⟨0, 8, true, false⟩]⟩, ⟨0x30, [⟨0, 8, true, false⟩]⟩],
        fun i => if i < 2 then some ⟨[[7]], [1]⟩ else some ⟨[[8]], [1]⟩⟩ (some [0x11, 0x27, 0x30, 0x38]) = [2] := by
  decide +kernel

/-- Offsets and sizes of the blocks of a function. -/
def blocks (b : Bin) (i : Nat) : List (Nat × Nat) := (b.fns[i]?.map fun f => f.bbs.map fun x => (x.offset, x.size)).getD []

theorem owners_nodup {b : Bin} {n : Name} : ∀ {sel : List Nat}, sel.Nodup → (∀ i ∈ sel, (b.names i).Nodup) →
    (owners b sel n).Nodup := by
  intro sel hs ha
  unfold owners
  rw [List.nodup_flatMap]
  refine ⟨fun i hi => ?_, ?_⟩
  · have := ha i hi
    generalize b.names i = l at this
    induction l with
    | nil => simp
    | cons a t ih =>
      have h2 := List.nodup_cons.1 this
      rw [List.filterMap_cons]
      by_cases hx : a = n
      · subst hx
        simp only [if_true]
        rw [List.nodup_cons]
        refine ⟨fun hm => ?_, ih h2.2⟩
        obtain ⟨y, hy, h3⟩ := List.mem_filterMap.1 hm
        split at h3
        · rename_i he; subst he; exact h2.1 hy
        · cases h3
      · simp only [if_neg hx]; exact ih h2.2
  · refine hs.imp fun hij => ?_
    simp only [Function.onFun]
    intro x hx hy
    obtain ⟨_, _, h1⟩ := List.mem_filterMap.1 hx
    obtain ⟨_, _, h2⟩ := List.mem_filterMap.1 hy
    split at h1
    · split at h2
      · cases h1; cases h2; exact hij rfl
      · cases h2
    · cases h1

/-- **C48**: a selected function is kept exactly when, for each of its names, either no other selected function has the
name, or the name is a ".__uniq." name, all functions with the name have the same blocks, and it is the first of them. -/
theorem filterDup_iff (uniq : Name → Bool) (b : Bin) (sel : List Nat) (hs : sel.Pairwise (· < ·))
    (ha : ∀ i ∈ sel, (b.names i).Nodup) (i : Nat) : i ∈ filterDup uniq b sel ↔
    i ∈ sel ∧ ∀ n ∈ b.names i, (∀ j ∈ sel, n ∈ b.names j → j = i) ∨
      (uniq n = true ∧ ∀ j ∈ sel, n ∈ b.names j → i ≤ j ∧ blocks b j = blocks b i) := by
  unfold filterDup
  rw [List.mem_filter]
  refine and_congr_right fun hi => ?_
  simp only [Bool.not_eq_true', List.any_eq_false, List.contains_iff_mem]
  constructor
  · intro h n hn
    have hne := h n (List.mem_flatMap.2 ⟨i, hi, hn⟩)
    have hio : i ∈ owners b sel n := mem_owners.2 ⟨hi, hn⟩
    unfold erased at hne
    simp only at hne
    split at hne
    · rename_i hlen
      left
      intro j hj hnj
      have hjo : j ∈ owners b sel n := mem_owners.2 ⟨hj, hnj⟩
      match ho : owners b sel n with
      | [] => rw [ho] at hio; simp at hio
      | [x] => rw [ho] at hio hjo; simp at hio hjo; omega
      | _ :: _ :: _ => rw [ho] at hlen; simp at hlen
    · split at hne
      · rename_i _ hc
        right
        rw [Bool.and_eq_true] at hc
        refine ⟨hc.1, ?_⟩
        have hso := owners_sorted (b := b) (n := n) hs
        have hss := hc.2
        intro j hj hnj
        have hjo : j ∈ owners b sel n := mem_owners.2 ⟨hj, hnj⟩
        cases ho : owners b sel n with
        | nil => rw [ho] at hio; simp at hio
        | cons x t =>
          rw [ho] at hio hjo hne hss hso
          have hix : i = x := by
            rcases List.mem_cons.1 hio with h | h
            · exact h
            · exact absurd h hne
          subst hix
          unfold sameStructure at hss
          simp only [List.all_eq_true, beq_iff_eq, List.headD_cons] at hss
          refine ⟨?_, hss j hjo⟩
          rcases List.mem_cons.1 hjo with h | h
          · omega
          · exact (List.pairwise_cons.1 hso).1 j h
      · exact absurd hio hne
  · intro h n _ hmem
    unfold erased at hmem
    simp only at hmem
    have hnd := owners_nodup (n := n) (hs.imp fun h => Nat.ne_of_lt h) ha
    have hsub : i ∈ owners b sel n := by
      split at hmem
      · simp at hmem
      · split at hmem
        · exact List.mem_of_mem_tail hmem
        · exact hmem
    have hn := (mem_owners.1 hsub).2
    split at hmem
    · simp at hmem
    · rename_i hlen
      rcases h n hn with h1 | ⟨h1, h2⟩
      · apply hlen
        match ho : owners b sel n with
        | [] => simp
        | [_] => simp
        | x :: y :: t =>
          rw [ho] at hnd
          have hx := h1 x (mem_owners.1 (show x ∈ owners b sel n by rw [ho]; simp)).1
            (mem_owners.1 (show x ∈ owners b sel n by rw [ho]; simp)).2
          have hy := h1 y (mem_owners.1 (show y ∈ owners b sel n by rw [ho]; simp)).1
            (mem_owners.1 (show y ∈ owners b sel n by rw [ho]; simp)).2
          simp [hx, hy] at hnd
      · have hso := owners_sorted (b := b) (n := n) hs
        cases ho : owners b sel n with
        | nil => rw [ho] at hsub; simp at hsub
        | cons x t =>
          have hxo : x ∈ owners b sel n := by rw [ho]; simp
          have hix : i = x := by
            have h3 := (h2 x (mem_owners.1 hxo).1 (mem_owners.1 hxo).2).1
            rw [ho] at hsub hso
            rcases List.mem_cons.1 hsub with h | h
            · exact h
            · have := (List.pairwise_cons.1 hso).1 i h; omega
          have hss : sameStructure b (owners b sel n) = true := by
            unfold sameStructure
            simp only [List.all_eq_true, beq_iff_eq]
            intro j hj
            have := (h2 j (mem_owners.1 hj).1 (mem_owners.1 hj).2).2
            rw [ho, List.headD_cons, ← hix]; exact this
          rw [if_pos (by rw [h1, hss]; rfl), ho] at hmem
          rw [ho] at hnd
          exact (List.nodup_cons.1 hnd).1 (hix ▸ hmem)

example : filterDup (fun _ => true) ⟨[⟨0x10, [⟨0, 8, true, false⟩]⟩, ⟨0x20, [⟨0, 9, true, false⟩]⟩, ⟨0x30, [⟨0, 8, true, false⟩]⟩,
    ⟨0x40, [⟨0, 8, true, false⟩]⟩], fun i => some ⟨[[if i < 2 then 7 else 8]], [1]⟩⟩ [0, 1, 2, 3] = [2] := by
  decide +kernel

end Verif.MapperSelect

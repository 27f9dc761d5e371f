import Verif.ElfSym

/-! # C67: proofs -/
namespace Verif.Elf
open Verif Verif.ByteReader
open Verif.DwarfLine (cstr encodeFixed_len cstr_spec)
open Verif.DwarfInfo (StrIn)
open Verif.AddrLookup (AddrMap Seg W)

theorem Sym.read_ok (w : Nat) (hw : w = 4 ∨ w = 8) (s : Sym) (hf : s.Fits w) (rest : List Nat) :
    Sym.read w (s.encode w ++ rest) = some s := by
  obtain ⟨a1, ⟨b1, b2⟩, d1, c1, c2⟩ := hf
  have h4 : ∀ x, x < 2 ^ 32 → x < 256 ^ 4 := fun x h => by norm_num; norm_num at h; exact h
  have h2 : ∀ x, x < 65536 → x < 256 ^ 2 := fun x h => by norm_num; exact h
  have h1 : ∀ x, x < 256 → x < 256 ^ 1 := fun x h => by norm_num; exact h
  unfold Sym.read Sym.encode
  rcases hw with rfl | rfl
  · rw [if_neg (by omega), if_neg (by omega)]
    unfold Sym.encode32
    simp only [List.append_assoc]
    rw [readFields_le _ _ (by omega) (h4 _ a1), readFields_le _ _ (by omega) c1, readFields_le _ _ (by omega) c2,
      readFields_le _ _ (by omega) (h1 _ b1), readFields_le _ _ (by omega) (h1 _ b2), readFields_le _ _ (by omega) (h2 _ d1)]
    rfl
  · rw [if_pos rfl, if_pos rfl]
    unfold Sym.encode64
    simp only [List.append_assoc]
    rw [readFields_le _ _ (by omega) (h4 _ a1), readFields_le _ _ (by omega) (h1 _ b1), readFields_le _ _ (by omega) (h1 _ b2),
      readFields_le _ _ (by omega) (h2 _ d1), readFields_le _ _ (by omega) c1, readFields_le _ _ (by omega) c2]
    rfl

theorem Sym.encode_pos (w : Nat) (s : Sym) : 0 < (s.encode w).length := by
  unfold Sym.encode Sym.encode64 Sym.encode32
  split <;> simp [le_len]

variable {bs : List Nat} {w : Nat} {eh : Ehdr} {secs : List (Shdr × List Nat)} {segs : List Phdr} {k : Nat} {names : List Nat}
variable {dwp : Bool} {first : Shdr}

theorem indexByType_good (type : Nat) (ks : List Nat) (hks : ∀ i ∈ ks, i < secs.length) :
    (Reader.good bs w dwp eh secs segs first).indexByType type ks =
      some (ks.find? fun i => match secs[i]? with | some s => decide (s.1.type = type) | none => false) := by
  induction ks with
  | nil => rfl
  | cons i ks ih =>
    obtain ⟨s, hi⟩ : ∃ s, secs[i]? = some s := ⟨_, List.getElem?_eq_getElem (hks i (by simp))⟩
    unfold Reader.indexByType
    rw [shdr_good, hi, Option.map_some, Option.bind_some, List.find?_cons, ih fun j hj => hks j (by simp [hj])]
    simp only [hi]
    by_cases ht : s.1.type = type <;> simp [ht]

theorem first_of_type {type i : Nat} {s : Shdr × List Nat} (hi : secs[i]? = some s) (ht : s.1.type = type)
    (hmin : ∀ j t, secs[j]? = some t → t.1.type = type → i ≤ j) :
    (List.range secs.length).find? (fun i => match secs[i]? with | some s => decide (s.1.type = type) | none => false) = some i := by
  have hlt := (List.getElem?_eq_some_iff.1 hi).1
  rw [List.find?_range_eq_some]
  refine ⟨by simp [hi, ht], by simpa using hlt, ?_⟩
  intro j hj
  cases hs : secs[j]? with
  | none => simp
  | some t =>
    by_cases htt : t.1.type = type
    · have := hmin j t hs htt
      omega
    · simp [htt]

theorem no_of_type {type : Nat} (hno : ∀ s ∈ secs, s.1.type ≠ type) :
    (List.range secs.length).find? (fun i => match secs[i]? with | some s => decide (s.1.type = type) | none => false) = none := by
  rw [List.find?_eq_none]
  intro i _ hi
  cases hs : secs[i]? with
  | none => rw [hs] at hi; cases hi
  | some t =>
    rw [hs] at hi
    exact hno t (List.mem_of_getElem? hs) (by simpa using hi)

/-- What a filter is called with. -/
def viewOf (tab : List Nat) (y : Sym) : View := ⟨tab, y.name, y.value, y.size, y.info / 16, y.info % 16, y.shndx⟩

/-- The call for one symbol, if there is one. -/
def callOf (eh : Ehdr) (f : Sym × List Nat → Bool) (bind type : Option Nat) (raw : Bool) (y : Sym × List Nat) : Option Out :=
  if y.1.name ≠ 0 ∧ f y = true ∧ (bind = none ∨ bind = some (y.1.info / 16)) ∧ (type = none ∨ type = some (y.1.info % 16)) then
    some (y.1.call y.2 (if raw then y.1.value else addrOf eh y.1))
  else none

theorem adjust_eq (y : Sym) : adjust eh.machine y = addrOf eh y := by
  unfold adjust addrOf
  split <;> omega

theorem visit_ok (h : IsElf bs w eh secs segs k names) (hn : numSecs eh first = secs.length) (hs : strIdx eh first = k)
    (stype : Nat) (syms : List (Sym × List Nat)) (tab : List Nat) (hsy : SymsOf bs w secs stype syms tab)
    (filter : View → Option Bool) (f : Sym × List Nat → Bool)
    (hfil : ∀ y ∈ syms, y.1.name ≠ 0 → StrIn tab y.1.name y.2 → filter (viewOf tab y.1) = some (f y))
    (bind type : Option Nat) (raw : Bool) :
    (Reader.good bs w dwp eh secs segs first).visit filter bind type raw stype =
      some (syms.filterMap (callOf eh f bind type raw)) := by
  unfold Reader.visit
  have hr : numSecs (Reader.good bs w dwp eh secs segs first).eh (Reader.good bs w dwp eh secs segs first).first = secs.length := hn
  rw [hr, indexByType_good _ _ (by simp)]
  rcases hsy with ⟨i, s, c, hi, ht, hmin, hc, he, hcnt, hsz, hmany, ⟨t, hl, hlk, hct⟩, hsyms⟩ | ⟨hno, rfl⟩
  · rw [first_of_type hi ht hmin, Option.bind_some]
    simp only
    rw [h.section_ok hn hs hi hc, Option.bind_some, shdr_good, hi, Option.map_some, Option.bind_some, if_neg he, hcnt,
      if_neg (by omega), if_neg hl, h.section_ok hn hs hlk hct, Option.bind_some]
    have hmap : (List.range syms.length).mapM ((Reader.good bs w dwp eh secs segs first).visitOne filter bind type raw c tab s.1.entsize)
        = some (syms.map (callOf eh f bind type raw)) := by
      have := mapM_range ((Reader.good bs w dwp eh secs segs first).visitOne filter bind type raw c tab s.1.entsize)
        (syms.map (callOf eh f bind type raw)) (by
        intro n x hx
        rw [List.getElem?_map, Option.map_eq_some_iff] at hx
        obtain ⟨y, hy, rfl⟩ := hx
        obtain ⟨hat, hfit, hname⟩ := hsyms n y hy
        have hbound := hat.bound
        have hpos := Sym.encode_pos w y.1
        rw [hc.2.1] at hbound
        obtain ⟨post, hp⟩ := hat.drop
        unfold Reader.visitOne
        rw [Nat.mod_eq_of_lt (by omega), hp]
        show (Sym.read w _).bind _ = _
        rw [Sym.read_ok w h.class_ y.1 hfit, Option.bind_some]
        unfold callOf
        by_cases hz : y.1.name = 0
        · rw [if_pos hz, if_neg (by simp [hz])]
        · rw [if_neg hz]
          have hst := hname hz
          have hview := hfil y (List.mem_of_getElem? hy) hz hst
          obtain ⟨pre, post', rfl, hpl, hnz⟩ := hst
          have hdrop : (pre ++ (y.2 ++ 0 :: post')).drop y.1.name = y.2 ++ 0 :: post' := by
            rw [← hpl, List.drop_left]
          rw [hdrop, cstr_spec _ _ hnz, Option.bind_some]
          unfold viewOf at hview
          rw [hview, Option.bind_some]
          cases hf : f y with
          | false => simp
          | true =>
            simp only [Bool.true_eq_false, if_false, true_and]
            show (if (bind = none ∨ bind = some (y.1.info / 16)) ∧ (type = none ∨ type = some (y.1.info % 16)) then
              some (some (⟨y.2, if raw = true then y.1.value else adjust eh.machine y.1, y.1.size, y.1.info / 16, y.1.info % 16,
                y.1.shndx⟩ : Out)) else some none) = _
            rw [adjust_eq]
            by_cases hcond : (bind = none ∨ bind = some (y.1.info / 16)) ∧ (type = none ∨ type = some (y.1.info % 16))
            · have hc2 : y.1.name ≠ 0 ∧ (bind = none ∨ bind = some (y.1.info / 16)) ∧
                  (type = none ∨ type = some (y.1.info % 16)) := ⟨hz, hcond⟩
              rw [if_pos hcond, if_pos hc2]
              rfl
            · have hc2 : ¬ (y.1.name ≠ 0 ∧ (bind = none ∨ bind = some (y.1.info / 16)) ∧
                  (type = none ∨ type = some (y.1.info % 16))) := fun hh => hcond hh.2
              rw [if_neg hcond, if_neg hc2])
      rwa [List.length_map] at this
    rw [hmap, Option.map_some, List.filterMap_map]
    rfl
  · rw [no_of_type hno]
    rfl

/-- **C67, symbols.** For every ELF file and every filter: the named symbols of its symbol table, then those of its dynamic one,
are added in their order, each with its name, address, size, binding, type and section, if the filter accepts it and it has
the binding and type asked for. -/
theorem symbols_visited (h : IsElf bs w eh secs segs k names) (path : List Nat) (ho : Opens path)
    (syms dyn : List (Sym × List Nat)) (tab dtab : List Nat) (hs : SymsOf bs w secs 2 syms tab) (hd : SymsOf bs w secs 11 dyn dtab)
    (filter : View → Option Bool) (f : Sym × List Nat → Bool)
    (hf : ∀ y ∈ syms, y.1.name ≠ 0 → StrIn tab y.1.name y.2 → filter (viewOf tab y.1) = some (f y))
    (hf' : ∀ y ∈ dyn, y.1.name ≠ 0 → StrIn dtab y.1.name y.2 → filter (viewOf dtab y.1) = some (f y))
    (bind type : Option Nat) (raw : Bool) :
    visitSymbols path (some bs) filter bind type raw = some (((syms ++ dyn).filter fun y => decide (y.1.name ≠ 0 ∧ f y = true ∧
      (bind = none ∨ bind = some (y.1.info / 16)) ∧ (type = none ∨ type = some (y.1.info % 16)))).map
      fun y => y.1.call y.2 (if raw then y.1.value else addrOf eh y.1)) := by
  obtain ⟨first, h1, h2, _, h3⟩ := h.reader_ok path
  unfold visitSymbols
  rw [openFile_ok ho]
  simp only
  rw [h1]
  simp only [Option.bind_some]
  rw [visit_ok h h2 h3 2 syms tab hs filter f hf, visit_ok h h2 h3 11 dyn dtab hd filter f hf']
  simp only [Option.bind_some, Option.map_some]
  rw [← List.filterMap_append]
  congr 1
  generalize syms ++ dyn = l
  clear hs hd hf hf'
  induction l with
  | nil => rfl
  | cons y l ih =>
    unfold callOf at ih ⊢
    by_cases hc : y.1.name ≠ 0 ∧ f y = true ∧ (bind = none ∨ bind = some (y.1.info / 16)) ∧
        (type = none ∨ type = some (y.1.info % 16))
    · rw [List.filterMap_cons_some (by rw [if_pos hc]), List.filter_cons_of_pos (by simpa using hc), List.map_cons, ih]
    · rw [List.filterMap_cons_none (by rw [if_neg hc]), List.filter_cons_of_neg (by simpa using hc), ih]

/-! ## The filter of the symbol map -/

theorem partSuffix_iff (n : List Nat) : partSuffix n = true ↔
    ∃ x ds, n = x ++ (str ".__part." ++ ds) ∧ ds ≠ [] ∧ ∀ d ∈ ds, 48 ≤ d ∧ d ≤ 57 := by
  unfold partSuffix
  rw [Bool.and_eq_true, Bool.not_eq_true', List.isEmpty_eq_false_iff, List.isSuffixOf_iff_suffix]
  generalize hp : (fun c : Nat => decide (48 ≤ c ∧ c ≤ 57)) = p
  have hsplit : n = (n.reverse.dropWhile p).reverse ++ (n.reverse.takeWhile p).reverse := by
    rw [← List.reverse_append, List.takeWhile_append_dropWhile, List.reverse_reverse]
  constructor
  · rintro ⟨h1, x, hx⟩
    refine ⟨x, (n.reverse.takeWhile p).reverse, ?_, by simpa using h1, ?_⟩
    · rw [← List.append_assoc, hx]
      exact hsplit
    · intro d hd
      rw [List.mem_reverse] at hd
      have := List.all_eq_true.1 List.all_takeWhile d hd
      rw [← hp] at this
      simpa using this
  · rintro ⟨x, ds, rfl, hne, hds⟩
    have hall : ∀ d ∈ ds.reverse, p d = true := by
      intro d hd
      rw [← hp]
      simpa using hds d (by simpa using hd)
    have hrev : (x ++ (str ".__part." ++ ds)).reverse = ds.reverse ++ ((str ".__part.").reverse ++ x.reverse) := by simp
    have hdot : (str ".__part.").reverse = 46 :: (str ".__part").reverse := by decide
    have hno : p 46 = false := by rw [← hp]; decide
    constructor
    · rw [hrev, hdot, List.takeWhile_append_of_pos hall]
      simp [hne]
    · rw [hrev, List.dropWhile_append_of_pos hall, hdot, List.cons_append, List.dropWhile_cons_of_neg (by simp [hno]),
        ← List.cons_append, ← hdot]
      simp

theorem cstr_len {l : List Nat} {r : List Nat × List Nat} (h : cstr l = some r) (i : Nat) (hi : l[i]? = some 0) : r.1.length ≤ i := by
  induction l generalizing r i with
  | nil => cases hi
  | cons b l ih =>
    unfold cstr at h
    by_cases hb : b = 0
    · rw [if_pos hb] at h
      cases h
      simp
    · rw [if_neg hb] at h
      cases hc : cstr l with
      | none => rw [hc] at h; cases h
      | some q =>
        rw [hc] at h
        cases h
        cases i with
        | zero => simp at hi; exact absurd hi hb
        | succ i =>
          have := ih hc i (by simpa using hi)
          simpa using this

theorem cstr_some {l : List Nat} (h : 0 ∈ l) : ∃ r, cstr l = some r := by
  induction l with
  | nil => cases h
  | cons b l ih =>
    unfold cstr
    by_cases hb : b = 0
    · rw [if_pos hb]
      exact ⟨_, rfl⟩
    · rw [if_neg hb]
      obtain ⟨r, hr⟩ := ih (by simpa [Ne.symm hb] using h)
      rw [hr]
      exact ⟨_, rfl⟩

open Classical in
theorem wanted_ok (tab : List Nat) (y : Sym × List Nat) (hz : y.1.name ≠ 0) (hst : StrIn tab y.1.name y.2)
    (hshort : y.2.length < 4 → 4 ≤ y.1.name + y.2.length ∧ tab[y.1.name - 1]? = some 0) :
    wanted (viewOf tab y.1) = some (decide (Kept y)) := by
  obtain ⟨pre, post, rfl, hpl, hnz⟩ := hst
  unfold wanted viewOf
  have hdrop : (pre ++ (y.2 ++ 0 :: post)).drop y.1.name = y.2 ++ 0 :: post := by
    rw [← hpl, List.drop_left]
  simp only
  rw [hdrop, cstr_spec _ _ hnz, Option.bind_some]
  simp only
  by_cases h1 : y.2 = str "__llvm_fs_discriminator__"
  · rw [if_pos h1, decide_eq_true]
    exact ⟨hz, .inl h1⟩
  · rw [if_neg h1]
    have hcond : (y.1.size ≠ 0 ∧ (y.1.info % 16 = 2 ∨ hasSuffix y.2 (str ".cold") = true ∨ partSuffix y.2 = true)) ↔
        (y.1.size ≠ 0 ∧ (y.1.info % 16 = 2 ∨ (∃ x, y.2 = x ++ str ".cold") ∨
        ∃ x ds, y.2 = x ++ (str ".__part." ++ ds) ∧ ds ≠ [] ∧ ∀ d ∈ ds, 48 ≤ d ∧ d ≤ 57)) := by
      rw [hasSuffix_iff, partSuffix_iff]
    by_cases h2' : y.1.size ≠ 0 ∧ (y.1.info % 16 = 2 ∨ hasSuffix y.2 (str ".cold") = true ∨ partSuffix y.2 = true)
    · have h2 := hcond.1 h2'
      rw [if_pos h2']
      have hpl4 : (str "@plt").length = 4 := rfl
      have hk : Kept y ↔ ¬ ∃ x, y.2 = x ++ str "@plt" := by
        constructor
        · rintro ⟨_, h | h⟩
          · exact absurd h h1
          · exact h.2.2
        · intro h
          exact ⟨hz, .inr ⟨h2.1, h2.2, h⟩⟩
      by_cases h4 : y.2.length < 4
      · obtain ⟨g1, g2⟩ := hshort h4
        rw [if_neg (by omega)]
        have hge : y.1.name + y.2.length - 4 ≤ y.1.name - 1 := by omega
        have hzero : ((pre ++ (y.2 ++ 0 :: post)).drop (y.1.name + y.2.length - 4))[y.1.name - 1 - (y.1.name + y.2.length - 4)]? = some 0 := by
          rw [List.getElem?_drop, Nat.add_sub_cancel' hge, g2]
        obtain ⟨r, hr⟩ := cstr_some (List.mem_of_getElem? hzero)
        rw [hr, Option.map_some]
        have hlen := cstr_len hr _ hzero
        congr 1
        rw [decide_eq_decide, hk]
        refine ⟨fun _ => ?_, fun _ => ?_⟩
        · rintro ⟨x, hx⟩
          rw [hx, List.length_append] at h4
          omega
        · intro hc
          rw [hc] at hlen
          omega
      · rw [if_neg (by omega)]
        have hsplit : y.2 = y.2.take (y.2.length - 4) ++ y.2.drop (y.2.length - 4) := (List.take_append_drop _ _).symm
        have hd4 : (pre ++ (y.2 ++ 0 :: post)).drop (y.1.name + y.2.length - 4) = y.2.drop (y.2.length - 4) ++ 0 :: post := by
          have : y.1.name + y.2.length - 4 = pre.length + (y.2.length - 4) := by omega
          rw [this, ← List.drop_drop, List.drop_left, List.drop_append_of_le_length (by omega)]
        rw [hd4, cstr_spec _ _ (fun c hc => hnz c (List.mem_of_mem_drop hc)), Option.map_some]
        congr 1
        rw [decide_eq_decide, hk, not_iff_not]
        constructor
        · intro h
          exact ⟨_, by rw [← h]; exact hsplit⟩
        · rintro ⟨x, hx⟩
          show y.2.drop (y.2.length - 4) = _
          rw [hx, List.length_append, hpl4, Nat.add_sub_cancel, List.drop_left]
    · have h2 := fun h => h2' (hcond.2 h)
      rw [if_neg h2']
      congr 1
      symm
      rw [decide_eq_false_iff_not]
      rintro ⟨_, h | h⟩
      · exact h1 h
      · exact h2 ⟨h.1, h.2.1⟩

/-! ## The symbol map -/

theorem add_sorted {m : SymMap} (h : OMap.Sorted m.map) (o : Out) : OMap.Sorted (m.add o).map := by
  unfold SymMap.add
  split
  · exact h.upsert _ _
  · exact h

theorem addAll_sorted {m : SymMap} (h : OMap.Sorted m.map) (l : List Out) : OMap.Sorted (l.foldl SymMap.add m).map := by
  induction l generalizing m with
  | nil => exact h
  | cons o l ih => exact ih (add_sorted h o)

theorem addAll_find (l : List Out) (a : Nat) :
    OMap.find? (l.foldl SymMap.add ⟨[], []⟩).map a = (l.find? fun o => o.value == a).map fun o => (toName o.name, o.size) := by
  induction l using List.reverseRecOn with
  | nil => rfl
  | append_singleton l o ih =>
    rw [List.foldl_append, List.foldl_cons, List.foldl_nil, List.find?_append]
    have hs : OMap.Sorted (l.foldl SymMap.add ⟨[], []⟩).map := addAll_sorted OMap.sorted_nil l
    generalize l.foldl SymMap.add ⟨[], []⟩ = m at ih hs ⊢
    unfold SymMap.add
    cases hf : OMap.find? m.map o.value with
    | none =>
      simp only
      show OMap.find? (OMap.upsert _ _ _) a = _
      rw [OMap.find?_upsert hs]
      by_cases ha : a = o.value
      · subst ha
        rw [hf] at ih
        rw [if_pos rfl]
        cases hl : l.find? (fun p => p.value == o.value) with
        | none => simp
        | some q => rw [hl] at ih; cases ih
      · rw [if_neg ha, ih]
        have : (o.value == a) = false := by simpa using Ne.symm ha
        rw [List.find?_cons, this]
        simp
    | some e =>
      simp only
      rw [ih]
      cases hl : l.find? (fun p => p.value == a) with
      | some q => simp
      | none =>
        by_cases ha : a = o.value
        · subst ha
          rw [hl, hf] at ih
          cases ih
        · have : (o.value == a) = false := by simpa using Ne.symm ha
          rw [List.find?_cons, this]
          simp

theorem addAll_aliases (l : List Out) (n n' : Name) :
    (n, n') ∈ (l.foldl SymMap.add ⟨[], []⟩).aliases ↔
      ∃ pre o post p, l = pre ++ o :: post ∧ pre.find? (fun q => q.value == o.value) = some p ∧ toName p.name = n ∧ toName o.name = n' := by
  induction l using List.reverseRecOn with
  | nil => simp
  | append_singleton l o ih =>
    have key : (n, n') ∈ ((l ++ [o]).foldl SymMap.add ⟨[], []⟩).aliases ↔
        (n, n') ∈ (l.foldl SymMap.add ⟨[], []⟩).aliases ∨
          ∃ p, l.find? (fun q => q.value == o.value) = some p ∧ toName p.name = n ∧ toName o.name = n' := by
      rw [List.foldl_append, List.foldl_cons, List.foldl_nil]
      have hfind := addAll_find l o.value
      generalize l.foldl SymMap.add ⟨[], []⟩ = m at hfind ⊢
      unfold SymMap.add
      rw [hfind]
      cases hl : l.find? (fun q => q.value == o.value) with
      | none => simp
      | some p =>
        simp only [Option.map_some, List.mem_append, List.mem_singleton, Prod.mk.injEq]
        constructor
        · rintro (h | ⟨rfl, rfl⟩)
          · exact .inl h
          · exact .inr ⟨p, rfl, rfl, rfl⟩
        · rintro (h | ⟨q, hq, rfl, rfl⟩)
          · exact .inl h
          · cases hq
            exact .inr ⟨rfl, rfl⟩
    rw [key, ih]
    constructor
    · rintro (⟨pre, q, post, p, rfl, h⟩ | ⟨p, h⟩)
      · exact ⟨pre, q, post ++ [o], p, by simp, h⟩
      · exact ⟨l, o, [], p, rfl, h⟩
    · rintro ⟨pre, q, post, p, he, h⟩
      rcases List.eq_nil_or_concat post with rfl | ⟨post', z, rfl⟩
      · obtain ⟨rfl, h'⟩ := List.append_inj' he rfl
        cases h'
        exact .inr ⟨p, h⟩
      · rw [List.concat_eq_append, ← List.cons_append, ← List.append_assoc] at he
        obtain ⟨rfl, h'⟩ := List.append_inj' he rfl
        exact .inl ⟨pre, q, post', p, rfl, h⟩

/-- `y` is the first symbol of the map at its address. -/
def FirstAt (eh : Ehdr) (pre : List (Sym × List Nat)) (y : Sym × List Nat) : Prop :=
  ∀ z ∈ pre, Kept z → addrOf eh z.1 ≠ addrOf eh y.1

/-- **C67, the symbol map** (partial: `ShortOk`; see `short_name_violated` and `shared_name_violated`). For every ELF file: the map has exactly the addresses of the functions of its symbol tables
(`Kept`), each with the name and size of the first one at the address; the names of the others at the address are its
aliases, and nothing else is. -/
theorem symbol_map_built_partial (h : IsElf bs w eh secs segs k names) (path : List Nat) (ho : Opens path)
    (syms dyn : List (Sym × List Nat)) (tab dtab : List Nat) (hs : SymsOf bs w secs 2 syms tab) (hd : SymsOf bs w secs 11 dyn dtab)
    (hsh : ShortOk tab syms) (hsh' : ShortOk dtab dyn) :
    ∃ m, buildSymbolMap path (some bs) = some m ∧ OMap.Sorted m.map ∧
      (∀ a n size, (a, n, size) ∈ m.map ↔ ∃ pre y post, syms ++ dyn = pre ++ y :: post ∧ Kept y ∧ FirstAt eh pre y ∧
        addrOf eh y.1 = a ∧ toName y.2 = n ∧ y.1.size = size) ∧
      (∀ n n', (n, n') ∈ m.aliases ↔ ∃ pre y mid z post, syms ++ dyn = pre ++ y :: (mid ++ z :: post) ∧ Kept y ∧ Kept z ∧
        FirstAt eh pre y ∧ addrOf eh z.1 = addrOf eh y.1 ∧ toName y.2 = n ∧ toName z.2 = n') := by
  classical
  have hvis := symbols_visited h path ho syms dyn tab dtab hs hd wanted (fun y => decide (Kept y))
    (fun y hy hz hst => wanted_ok tab y hz hst (hsh y hy hz)) (fun y hy hz hst => wanted_ok dtab y hz hst (hsh' y hy hz))
    none none false
  have hfilt : ((syms ++ dyn).filter fun y => decide (y.1.name ≠ 0 ∧ (decide (Kept y)) = true ∧
      ((none : Option Nat) = none ∨ none = some (y.1.info / 16)) ∧ ((none : Option Nat) = none ∨ none = some (y.1.info % 16)))) =
      (syms ++ dyn).filter fun y => decide (Kept y) := by
    apply List.filter_congr
    intro y _
    rw [decide_eq_decide]
    simp only [true_or, and_true, decide_eq_true_eq]
    exact ⟨fun h => h.2, fun h => ⟨h.1, h⟩⟩
  rw [hfilt] at hvis
  simp only [Bool.false_eq_true, if_false] at hvis
  refine ⟨_, by unfold buildSymbolMap; rw [hvis]; rfl, addAll_sorted OMap.sorted_nil _, ?_, ?_⟩
  · intro a n size
    rw [← OMap.find?_eq_some_iff (addAll_sorted OMap.sorted_nil _), addAll_find, Option.map_eq_some_iff]
    constructor
    · rintro ⟨o, ho, he⟩
      rw [List.find?_map, Option.map_eq_some_iff] at ho
      obtain ⟨y, hy, rfl⟩ := ho
      rw [List.find?_filter, List.find?_eq_some_iff_append] at hy
      obtain ⟨h1, pre, post, he', h2⟩ := hy
      simp only [Function.comp_apply, decide_eq_true_eq, beq_iff_eq] at h1
      have ha : addrOf eh y.1 = a := h1.2
      cases he
      refine ⟨pre, y, post, he', h1.1, ?_, ha, rfl, rfl⟩
      intro z hz hzk hza
      have := h2 z hz
      simp only [Function.comp_apply, Bool.not_eq_true', decide_eq_false_iff_not, decide_eq_true_eq, beq_iff_eq, not_and] at this
      exact this hzk (hza.trans ha)
    · rintro ⟨pre, y, post, he, hk, hf, rfl, rfl, rfl⟩
      refine ⟨y.1.call y.2 (addrOf eh y.1), ?_, rfl⟩
      rw [List.find?_map, Option.map_eq_some_iff]
      refine ⟨y, ?_, rfl⟩
      rw [List.find?_filter, List.find?_eq_some_iff_append]
      refine ⟨?_, pre, post, he, ?_⟩
      · simp only [Function.comp_apply, decide_eq_true_eq, beq_iff_eq]
        exact ⟨hk, rfl⟩
      · intro z hz
        simp only [Function.comp_apply, Bool.not_eq_true', decide_eq_false_iff_not, decide_eq_true_eq, beq_iff_eq, not_and]
        exact fun hzk => hf z hz hzk
  · intro n n'
    rw [addAll_aliases]
    constructor
    · rintro ⟨pre, o, post, p, he, hp, rfl, rfl⟩
      rw [List.map_eq_append_iff] at he
      obtain ⟨l1, l2, hl, rfl, hl2⟩ := he
      rw [List.map_eq_cons_iff] at hl2
      obtain ⟨z, l3, rfl, rfl, rfl⟩ := hl2
      rw [List.find?_map, Option.map_eq_some_iff] at hp
      obtain ⟨y, hy, rfl⟩ := hp
      rw [List.filter_eq_append_iff] at hl
      obtain ⟨a1, a2, hall, rfl, ha2⟩ := hl
      rw [List.filter_eq_cons_iff] at ha2
      obtain ⟨b1, b2, rfl, hb1, hz, rfl⟩ := ha2
      rw [List.find?_filter, List.find?_eq_some_iff_append] at hy
      obtain ⟨g1, pre, post, rfl, g2⟩ := hy
      simp only [Function.comp_apply, decide_eq_true_eq, beq_iff_eq] at g1
      have hya : addrOf eh y.1 = addrOf eh z.1 := g1.2
      refine ⟨pre, y, post ++ b1, z, b2, by rw [hall]; simp, g1.1, by simpa using hz, ?_, hya.symm, rfl, rfl⟩
      intro x hx hxk hxa
      have := g2 x hx
      simp only [Function.comp_apply, Bool.not_eq_true', decide_eq_false_iff_not, decide_eq_true_eq, beq_iff_eq, not_and] at this
      exact this hxk (hxa.trans hya)
    · rintro ⟨pre, y, mid, z, post, he, hy, hz, hf, ha, rfl, rfl⟩
      refine ⟨((pre ++ y :: mid).filter fun y => decide (Kept y)).map (fun y => y.1.call y.2 (addrOf eh y.1)),
        z.1.call z.2 (addrOf eh z.1), (post.filter fun y => decide (Kept y)).map (fun y => y.1.call y.2 (addrOf eh y.1)),
        y.1.call y.2 (addrOf eh y.1), ?_, ?_, rfl, rfl⟩
      · rw [he]
        simp [List.filter_append, hy, hz]
      · rw [List.find?_map, Option.map_eq_some_iff]
        refine ⟨y, ?_, rfl⟩
        rw [List.find?_filter, List.find?_eq_some_iff_append]
        refine ⟨?_, pre, mid, rfl, ?_⟩
        · simp only [Function.comp_apply, decide_eq_true_eq, beq_iff_eq]
          exact ⟨hy, ha.symm⟩
        · intro x hx
          simp only [Function.comp_apply, Bool.not_eq_true', decide_eq_false_iff_not, decide_eq_true_eq, beq_iff_eq, not_and]
          exact fun hxk hh => hf x hx hxk (hh.trans ha)

/-- **C67, addresses to functions** (with C19; partial: `ShortOk`): if the functions of a file do not overlap (functions at the same address
count once, with the first one's size), the function found for an address is the one whose code contains it. -/
theorem function_at_partial (h : IsElf bs w eh secs segs k names) (path : List Nat) (ho : Opens path)
    (syms dyn : List (Sym × List Nat)) (tab dtab : List Nat) (hs : SymsOf bs w secs 2 syms tab) (hd : SymsOf bs w secs 11 dyn dtab)
    (hsh : ShortOk tab syms) (hsh' : ShortOk dtab dyn)
    (hno : ∀ y ∈ syms ++ dyn, ∀ z ∈ syms ++ dyn, Kept y → Kept z → addrOf eh y.1 < addrOf eh z.1 →
      addrOf eh y.1 + y.1.size ≤ addrOf eh z.1) :
    ∃ m, buildSymbolMap path (some bs) = some m ∧ ∀ a n start stop,
      AddrLookup.symbolInfo m.map a = some (n, start, stop) ↔
        ∃ pre y post, syms ++ dyn = pre ++ y :: post ∧ Kept y ∧ FirstAt eh pre y ∧ toName y.2 = n ∧ addrOf eh y.1 = start ∧
          stop = start + y.1.size ∧ start ≤ a ∧ a < stop := by
  obtain ⟨m, h1, h2, h3, _⟩ := symbol_map_built_partial h path ho syms dyn tab dtab hs hd hsh hsh'
  refine ⟨m, h1, ?_⟩
  have hnon : AddrLookup.NonOverlapping m.map := by
    intro x hx z hz hlt
    obtain ⟨xa, xn, xs⟩ := x
    obtain ⟨za, zn, zs⟩ := z
    obtain ⟨p1, y1, q1, e1, k1, _, rfl, rfl, rfl⟩ := (h3 _ _ _).1 hx
    obtain ⟨p2, y2, q2, e2, k2, _, rfl, rfl, rfl⟩ := (h3 _ _ _).1 hz
    exact hno y1 (by rw [e1]; simp) y2 (by rw [e2]; simp) k1 k2 hlt
  intro a n start stop
  rw [AddrLookup.symbol_lookup_iff m.map h2 hnon]
  constructor
  · rintro ⟨size, hm, rfl, h4, h5⟩
    obtain ⟨pre, y, post, e, hk, hf, rfl, rfl, rfl⟩ := (h3 _ _ _).1 hm
    exact ⟨pre, y, post, e, hk, hf, rfl, rfl, rfl, h4, h5⟩
  · rintro ⟨pre, y, post, e, hk, hf, rfl, rfl, rfl, h4, h5⟩
    exact ⟨y.1.size, (h3 _ _ _).2 ⟨pre, y, post, e, hk, hf, rfl, rfl, rfl⟩, rfl, h4, h5⟩

end Verif.Elf

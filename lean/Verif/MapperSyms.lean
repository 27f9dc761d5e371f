import Verif.MapperSelect
import Verif.OMap

/-!
# C82: the names of the functions in the basic block address map
Model of `ReadSymbolTable`, `ReadBbAddrMap`, `GetSymbolInfoMap` and `BuildBinaryAddressMapper` (llvm_propeller_binary_address_mapper.cc:51-148,
456-470).  The symbols of the object file and the decoded basic block address map are inputs (LLVM's object library); warnings and counters
are left out.
-/
namespace Verif.MapperSyms
open Verif Verif.Mapper Verif.MapperSelect

/-- A symbol of the object file: `getELFType() == STT_FUNC`, `getAddress()`, `getName()` (`none`: an error), `getSize()` and the name of
its section (`none`: it is in no section). -/
structure ElfSym where
  isFunc : Bool
  addr : Option Nat
  name : Option Name
  size : Nat
  sect : Option Name
deriving DecidableEq, Inhabited

/-- The loop body of `ReadSymbolTable` (llvm_propeller_binary_address_mapper.cc:56-85). -/
def addSym (T : OMap Nat (List ElfSym)) (s : ElfSym) : OMap Nat (List ElfSym) :=
  if !s.isFunc then T
  else
    match s.addr with
    | none => T
    | some 0 => T
    | some (a + 1) =>
      if s.name.isNone then T
      else if s.size = 0 then T
      else OMap.upsert (a + 1) (fun l => if (l.getD []).all fun t => decide (s.size = t.size) then l.getD [] ++ [s] else l.getD []) T

/-- `ReadSymbolTable` (llvm_propeller_binary_address_mapper.cc:51-87). -/
def readSymbolTable (syms : List ElfSym) : OMap Nat (List ElfSym) := syms.foldl addSym []

/-- ".text" -/
def dotText : Name := [46, 116, 101, 120, 116]

/-- The section name that is stored (llvm_propeller_binary_address_mapper.cc:139-144). -/
def storedSection (n : Name) : Name := if n = dotText || (dotText ++ [46]).isPrefixOf n then n.take 5 else n

/-- The loop body of `GetSymbolInfoMap` (llvm_propeller_binary_address_mapper.cc:126-145) for the function at `a`; `none`: the first symbol
is in no section (the end iterator is dereferenced); `some none`: no entry. -/
def symbolInfo (T : OMap Nat (List ElfSym)) (a : Nat) : Option (Option Info) :=
  match OMap.find? T a with
  | none => some none
  | some l =>
    match l.head?.bind ElfSym.sect with
    | none => none
    | some sec => some (some ⟨l.map fun s => s.name.getD [], storedSection sec⟩)

/-- `GetSymbolInfoMap` (llvm_propeller_binary_address_mapper.cc:117-148). -/
def symbolInfos (T : OMap Nat (List ElfSym)) (fns : List Fn) : Option (List (Option Info)) := fns.mapM fun f => symbolInfo T f.addr

/-- `ReadBbAddrMap` and the rest of `BuildBinaryAddressMapper` (llvm_propeller_binary_address_mapper.cc:92-114, 456-470) up to the selection of
functions; `bbs = none`: the map cannot be decoded.  The result is the error, or the builder's view of the binary. -/
def readBinary (syms : List ElfSym) (bbs : Option (List Fn)) : Option (Except Unit Bin) :=
  match bbs with
  | none => some (.error ())
  | some [] => some (.error ())
  | some fns => (symbolInfos (readSymbolTable syms) fns).map fun l => .ok ⟨fns, fun i => (l[i]?).join⟩

/-! ## Specification -/

/-- A function symbol at the address `a` that has a name and a size. -/
def Usable (a : Nat) (s : ElfSym) : Prop := s.isFunc = true ∧ s.addr = some a ∧ a ≠ 0 ∧ s.name ≠ none ∧ s.size ≠ 0

instance (a : Nat) (s : ElfSym) : Decidable (Usable a s) := by unfold Usable; infer_instance

/-- `s` is the first usable symbol at `a` in the order of the symbol table. -/
def First (syms : List ElfSym) (a : Nat) (s : ElfSym) : Prop := ∃ pre post, syms = pre ++ s :: post ∧ Usable a s ∧ ∀ t ∈ pre, ¬ Usable a t

/-- The names of the usable symbols at `a` of the size `z`, in the order of the symbol table. -/
def namesAt (syms : List ElfSym) (a z : Nat) : List Name :=
  syms.filterMap fun s => if Usable a s ∧ s.size = z then s.name else none

/-- The section that counts as text. -/
def IsText (n : Name) : Prop := n = dotText ∨ ∃ t, n = dotText ++ 46 :: t

/-! ## Proof -/

/-- What the table holds at `a`. -/
def entry (a : Nat) (l : List ElfSym) : Option (List ElfSym) :=
  match l.filter (fun s => decide (Usable a s)) with
  | [] => none
  | s :: t => some ((s :: t).filter fun x => decide (x.size = s.size))

theorem addSym_skip (T : OMap Nat (List ElfSym)) (s : ElfSym) (h : ∀ a, ¬ Usable a s) : addSym T s = T := by
  unfold addSym
  split
  · rfl
  · rename_i h1
    split
    · rfl
    · rfl
    · rename_i a ha
      split
      · rfl
      · rename_i h2
        split
        · rfl
        · rename_i h3
          exact absurd ⟨by simpa using h1, ha, by omega, by simpa using h2, h3⟩ (h (a + 1))

theorem addSym_use (T : OMap Nat (List ElfSym)) (s : ElfSym) (a : Nat) (h : Usable a s) :
    addSym T s = OMap.upsert a (fun l => if (l.getD []).all fun t => decide (s.size = t.size) then l.getD [] ++ [s] else l.getD []) T := by
  obtain ⟨h1, h2, h3, h4, h5⟩ := h
  obtain ⟨b, rfl⟩ : ∃ b, a = b + 1 := ⟨a - 1, by omega⟩
  unfold addSym
  rw [if_neg (by simp [h1]), h2]
  simp only
  rw [if_neg (by simpa using h4), if_neg h5]

theorem usable_unique {a b : Nat} {s : ElfSym} (h : Usable a s) (h' : Usable b s) : a = b := by
  have := h.2.1.symm.trans h'.2.1
  simpa using this

theorem table_aux (syms done : List ElfSym) (T : OMap Nat (List ElfSym)) (hs : OMap.Sorted T) (hT : ∀ a, OMap.find? T a = entry a done) (a : Nat) :
    OMap.find? (syms.foldl addSym T) a = entry a (done ++ syms) := by
  induction syms generalizing done T with
  | nil => simpa using hT a
  | cons s t ih =>
    rw [List.foldl_cons, show done ++ s :: t = (done ++ [s]) ++ t by simp]
    by_cases hu : ∃ b, Usable b s
    · obtain ⟨b, hb⟩ := hu
      rw [addSym_use T s b hb]
      refine ih (done ++ [s]) _ (OMap.Sorted.upsert hs _ _) (fun c => ?_)
      rw [OMap.find?_upsert hs]
      by_cases hc : c = b
      · subst hc
        rw [if_pos rfl, hT c]
        unfold entry
        rw [List.filter_append, List.filter_cons_of_pos (by simpa using hb), List.filter_nil]
        cases hf : done.filter fun s => decide (Usable c s) with
        | nil => simp
        | cons x y =>
          simp only [List.cons_append, Option.getD_some]
          by_cases hz : s.size = x.size
          · rw [if_pos]
            · rw [← List.cons_append, List.filter_append]
              simp [hz]
            · rw [List.all_eq_true]
              intro z hzm
              rw [List.mem_filter] at hzm
              have := of_decide_eq_true hzm.2
              simp [hz, this]
          · rw [if_neg]
            · rw [← List.cons_append, List.filter_append]
              simp [hz]
            · rw [List.all_eq_true]
              intro hall
              have := hall x (List.mem_filter.2 ⟨by simp, by simp⟩)
              exact hz (by simpa using this)
      · rw [if_neg hc, hT c]
        unfold entry
        rw [List.filter_append, List.filter_cons_of_neg (by
          intro h
          exact hc (usable_unique (of_decide_eq_true h) hb)), List.filter_nil, List.append_nil]
    · rw [addSym_skip T s (fun b hb => hu ⟨b, hb⟩)]
      refine ih (done ++ [s]) _ hs (fun c => ?_)
      rw [hT c]
      unfold entry
      rw [List.filter_append, List.filter_cons_of_neg (by
        intro h
        exact hu ⟨c, of_decide_eq_true h⟩), List.filter_nil, List.append_nil]

theorem table_exact (syms : List ElfSym) (a : Nat) : OMap.find? (readSymbolTable syms) a = entry a syms := by
  have := table_aux syms [] [] OMap.sorted_nil (fun a => rfl) a
  rw [List.nil_append] at this
  exact this

theorem entry_first (syms : List ElfSym) (a : Nat) (s : ElfSym) (h : First syms a s) :
    entry a syms = some ((syms.filter fun x => decide (Usable a x)).filter fun x => decide (x.size = s.size)) ∧
    ((syms.filter fun x => decide (Usable a x)).filter fun x => decide (x.size = s.size)).head? = some s := by
  obtain ⟨pre, post, rfl, hu, hpre⟩ := h
  have hf : (pre ++ s :: post).filter (fun x => decide (Usable a x)) = s :: post.filter fun x => decide (Usable a x) := by
    rw [List.filter_append, List.filter_eq_nil_iff.2 (by simpa using hpre), List.nil_append, List.filter_cons_of_pos (by simpa using hu)]
  unfold entry
  rw [hf]
  constructor
  · rfl
  · rw [List.filter_cons_of_pos (by simp)]; rfl

theorem names_eq (syms : List ElfSym) (a z : Nat) :
    (((syms.filter fun x => decide (Usable a x)).filter fun x => decide (x.size = z)).map fun s => s.name.getD []) = namesAt syms a z := by
  unfold namesAt
  induction syms with
  | nil => rfl
  | cons s t ih =>
    by_cases hu : Usable a s
    · rw [List.filter_cons_of_pos (by simpa using hu)]
      by_cases hz : s.size = z
      · obtain ⟨n, hn⟩ := Option.ne_none_iff_exists'.1 hu.2.2.2.1
        rw [List.filter_cons_of_pos (by simpa using hz), List.filterMap_cons, if_pos ⟨hu, hz⟩, hn]
        rw [List.map_cons, ih, hn]
        rfl
      · rw [List.filter_cons_of_neg (by simpa using hz), List.filterMap_cons, if_neg (by simp [hz])]
        exact ih
    · rw [List.filter_cons_of_neg (by simpa using hu), List.filterMap_cons, if_neg (by simp [hu])]
      exact ih

theorem storedSection_text (n : Name) : (IsText n → storedSection n = dotText) ∧ (¬ IsText n → storedSection n = n) := by
  unfold storedSection
  constructor
  · rintro (rfl | ⟨t, rfl⟩)
    · rw [if_pos (by simp)]; rfl
    · rw [if_pos]
      · rfl
      · simp
  · intro h
    rw [if_neg]
    intro hc
    rw [Bool.or_eq_true, decide_eq_true_iff, List.isPrefixOf_iff_prefix] at hc
    rcases hc with hc | ⟨t, ht⟩
    · exact h (Or.inl hc)
    · exact h (Or.inr ⟨t, by rw [← ht]; simp⟩)

/-- **C82.** For every symbol table: a function of the basic block address map has no symbol information exactly if no function symbol with a
name and a size is at its address; otherwise its names are those of all these symbols that have the size of the first one, and its section
is the one of the first, where the sections ".text.*" count as ".text".  If the first symbol is in no section the program stops. -/
theorem names_spec (syms : List ElfSym) (a : Nat) :
    ((∀ s ∈ syms, ¬ Usable a s) → symbolInfo (readSymbolTable syms) a = some none) ∧
    (∀ s, First syms a s → s.sect = none → symbolInfo (readSymbolTable syms) a = none) ∧
    (∀ s sec, First syms a s → s.sect = some sec → ∃ inf, symbolInfo (readSymbolTable syms) a = some (some inf) ∧
      inf.aliases = namesAt syms a s.size ∧ (∃ n, s.name = some n ∧ inf.aliases.head? = some n) ∧
      (IsText sec → inf.section_ = dotText) ∧ (¬ IsText sec → inf.section_ = sec)) := by
  refine ⟨fun h => ?_, fun s hs hsec => ?_, fun s sec hs hsec => ?_⟩
  · unfold symbolInfo
    rw [table_exact, show entry a syms = none by
      unfold entry
      rw [List.filter_eq_nil_iff.2 (by simpa using h)]]
  · obtain ⟨h1, h2⟩ := entry_first syms a s hs
    unfold symbolInfo
    rw [table_exact, h1]
    simp only [h2, Option.bind_some, hsec]
  · obtain ⟨h1, h2⟩ := entry_first syms a s hs
    refine ⟨⟨namesAt syms a s.size, storedSection sec⟩, ?_, rfl, ?_, (storedSection_text sec).1, (storedSection_text sec).2⟩
    · unfold symbolInfo
      rw [table_exact, h1]
      simp only [h2, Option.bind_some, hsec, names_eq]
    · obtain ⟨_, _, _, hu, _⟩ := hs
      obtain ⟨n, hn⟩ := Option.ne_none_iff_exists'.1 hu.2.2.2.1
      refine ⟨n, hn, ?_⟩
      dsimp only
      rw [← names_eq, List.head?_map, h2]
      simp [hn]

/-- There is a first usable symbol if there is one. -/
theorem first_exists (syms : List ElfSym) (a : Nat) (h : ∃ s ∈ syms, Usable a s) : ∃ s, First syms a s := by
  induction syms with
  | nil => obtain ⟨_, h, _⟩ := h; cases h
  | cons x t ih =>
    by_cases hx : Usable a x
    · exact ⟨x, [], t, rfl, hx, by simp⟩
    · obtain ⟨s, hs, hu⟩ := h
      rcases List.mem_cons.1 hs with rfl | hs
      · exact absurd hu hx
      · obtain ⟨r, pre, post, rfl, hr, hp⟩ := ih ⟨s, hs, hu⟩
        refine ⟨r, x :: pre, post, rfl, hr, fun t ht => ?_⟩
        rcases List.mem_cons.1 ht with rfl | ht
        · exact hx
        · exact hp t ht

theorem mapM_get {α β : Type} (f : α → Option β) (l : List α) (r : List β) (h : l.mapM f = some r) (i : Nat) :
    (l[i]?).bind f = r[i]? := by
  induction l generalizing r i with
  | nil => simp at h; subst h; simp
  | cons x t ih =>
    rw [List.mapM_cons] at h
    simp only [Option.bind_eq_bind, Option.pure_def] at h
    obtain ⟨y, hy, h⟩ := Option.bind_eq_some_iff.1 h
    obtain ⟨z, hz, h⟩ := Option.bind_eq_some_iff.1 h
    cases h
    cases i with
    | zero => simp [hy]
    | succ i => simpa using ih z hz i

/-- **C82, the binary.** Reading fails exactly if there is no basic block address map; otherwise the functions are those of the map, each with
the symbol information of its address. -/
theorem readBinary_spec (syms : List ElfSym) (bbs : Option (List Fn)) :
    (readBinary syms bbs = some (.error ()) ↔ bbs = none ∨ bbs = some []) ∧
    (∀ b, readBinary syms bbs = some (.ok b) → bbs = some b.fns ∧ b.fns ≠ [] ∧
      ∀ i f, b.fns[i]? = some f → symbolInfo (readSymbolTable syms) f.addr = some (b.info i)) := by
  unfold readBinary
  match bbs with
  | none => simp
  | some [] => simp
  | some (f :: fs) =>
    constructor
    · simp
    · intro b hb
      simp only [Option.map_eq_some_iff, Except.ok.injEq] at hb
      obtain ⟨l, hl, rfl⟩ := hb
      refine ⟨rfl, by simp, fun i g hg => ?_⟩
      have := mapM_get _ _ _ hl i
      dsimp only at hg ⊢
      rw [hg, Option.bind_some] at this
      rw [← this]
      have hs : i < (f :: fs).length := (List.getElem?_eq_some_iff.1 hg).1
      have hlen : (symbolInfo (readSymbolTable syms) g.addr).isSome = true := by
        rw [this, List.getElem?_eq_getElem (by
          have : l.length = (f :: fs).length := by
            clear this hg
            unfold symbolInfos at hl
            generalize f :: fs = L at hl hs
            induction L generalizing l i with
            | nil => cases hs
            | cons x t ih =>
              rw [List.mapM_cons] at hl
              simp only [Option.bind_eq_bind, Option.pure_def] at hl
              obtain ⟨y, _, hl⟩ := Option.bind_eq_some_iff.1 hl
              obtain ⟨z, hz, hl⟩ := Option.bind_eq_some_iff.1 hl
              cases hl
              cases t with
              | nil => simp at hz; subst hz; rfl
              | cons u v => simp [ih z 0 hz (by simp)]
          omega)]
        rfl
      obtain ⟨w, hw⟩ := Option.isSome_iff_exists.1 hlen
      rw [hw]
      simp

/-- **C82, the selected functions** (with C48): each has at least one name, and each of its names is the one of a function symbol at its address. -/
theorem selected_named (syms : List ElfSym) (fns : List Fn) (b : Bin) (h : readBinary syms (some fns) = some (.ok b)) (uniq : Name → Bool)
    (text : Name) (ft : Bool) (hot : Option (List Nat)) (i : Nat) (hi : i ∈ select uniq text ft b hot) :
    ∃ f inf, b.fns[i]? = some f ∧ b.info i = some inf ∧ inf.aliases ≠ [] ∧
      ∀ n ∈ inf.aliases, ∃ s ∈ syms, Usable f.addr s ∧ s.name = some n := by
  obtain ⟨-, h2⟩ := readBinary_spec syms (some fns)
  obtain ⟨-, -, h3⟩ := h2 b h
  obtain ⟨h4, inf, h5, -⟩ := (select_spec uniq text ft b hot).2.1 i hi
  have hf : b.fns[i]? = some b.fns[i] := List.getElem?_eq_getElem h4
  have h6 := h3 i _ hf
  rw [h5] at h6
  refine ⟨_, inf, hf, h5, ?_⟩
  obtain ⟨n1, n2, n3⟩ := names_spec syms b.fns[i].addr
  by_cases hu : ∃ s ∈ syms, Usable b.fns[i].addr s
  · obtain ⟨s, hs⟩ := first_exists syms _ hu
    cases hsec : s.sect with
    | none => rw [n2 s hs hsec] at h6; cases h6
    | some sec =>
      obtain ⟨inf', g1, g2, ⟨n, _, g3⟩, _⟩ := n3 s sec hs hsec
      rw [g1] at h6
      cases h6
      refine ⟨fun h0 => (by rw [h0] at g3; cases g3), fun m hm => ?_⟩
      rw [g2] at hm
      obtain ⟨x, hx, hxm⟩ := List.mem_filterMap.1 hm
      split at hxm
      · rename_i hc; exact ⟨x, hx, hc.1, hxm⟩
      · cases hxm
  · push Not at hu
    rw [n1 hu] at h6
    cases h6

/-- A function with two names of one size and a third one of another size, which is dropped. -/
def exSyms : List ElfSym := [⟨true, some 0x10, some [97], 8, some (dotText ++ [46, 120])⟩, ⟨false, some 0x10, some [98], 8, some dotText⟩,
  ⟨true, some 0x10, some [99], 4, some [1]⟩, ⟨true, some 0x10, some [100], 8, some [2]⟩, ⟨true, some 0x20, some [101], 0, some dotText⟩]

theorem exSyms_info : symbolInfo (readSymbolTable exSyms) 0x10 = some (some ⟨[[97], [100]], dotText⟩) ∧
    symbolInfo (readSymbolTable exSyms) 0x20 = some none ∧ First exSyms 0x10 ⟨true, some 0x10, some [97], 8, some (dotText ++ [46, 120])⟩ :=
  ⟨by rfl, by rfl, [], _, rfl, by decide, by simp⟩

end Verif.MapperSyms

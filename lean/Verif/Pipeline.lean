import Verif.Alias
import Verif.ElfEx
import Verif.Threshold
import Mathlib.Algebra.Order.BigOperators.Group.List

/-!
# C70: from a binary and a text sample profile to a profile (profile_creator.cc:117-133, 156-221; profile.cc:219-270)

`create_gcov` and `create_llvm_prof` with `--profiler=text`, up to the symbol map given to the writer.  The binary is the bytes of
a file; C01, C03, C18, C53, C65 to C69 are put together here.  As in these: debugging information in the file itself, read by
`Google3Addr2line` (the build without LLVM, where `DuplicationFactor` is 1), and no `llc_misses` mode.
-/
namespace Verif.Pipeline
open Verif Verif.SymbolMap Verif.AddrLookup Verif.Sample Verif.Compute
open Verif.Elf (Ehdr Shdr Phdr IsElf Opens SymsOf ShortOk Kept FirstAt addrOf toName Exec DebugOf buildSymbolMap loadableSegs prepareFile)
open Verif.Addr2Line (Binary Prepared)

/-- A `SourceInfo` as the symbol map sees it: without files, numbers of 32 bits. -/
def toFrame (f : Inline.Frame) : Frame :=
  ⟨toName (f.func.getD []), BitVec.ofNat 32 f.start, BitVec.ofNat 32 f.line, BitVec.ofNat 32 f.discr⟩

/-- The lookups of `Profile` (profile.cc:54-129, 183-212) in a binary that was read. -/
def binOf (m : Elf.SymMap) (segs : List Seg) (p : Prepared) : Bin where
  syms := m.map
  vaddr := fun x => (staticVaddr segs x).getD 0
  stack := fun a => ((p.stack a).getD []).map toFrame
  dup := fun _ => 1

/-- `name_alias_map_` (symbol_map.cc:443-445): the aliases of a name. -/
def aliasesOf (m : Elf.SymMap) (n : Name) : List Name := (m.aliases.filter fun q => decide (q.1 = n)).map Prod.snd

/-- Every lookup succeeds: the assertion of `get_static_vaddr` (symbol_map.h:338), and no null pointer in `GetInlineStack`.  For
simplicity the stacks of all functions are asked for, not only those of the functions written. -/
def lookupsOk (m : Elf.SymMap) (segs : List Seg) (p : Prepared) (S : Maps) : Bool :=
  S.addr.all (fun x => (staticVaddr segs x.1).isSome) &&
  S.range.all (fun x => (staticVaddr segs (ofLex x.1).1).isSome && (staticVaddr segs (ofLex x.1).2).isSome) &&
  S.branch.all (fun x => (staticVaddr segs (ofLex x.1).1).isSome && (staticVaddr segs (ofLex x.1).2).isSome) &&
  m.map.all (fun e => (List.range' e.1 e.2.2).all fun a => (p.stack a).isSome)

/-- `ProfileCreator::CreateProfile` (profile_creator.cc:117-133, 156-221) for a text profile, up to the writer; `some none`: it
returns false.  `num / den` is `--sample_threshold_frac`; `shuffle` is the order of the hash map of the functions. -/
def createProfile (path : List Nat) (disk : Option (List Nat)) (text : List Char) (num den : Nat) (c : Cfg)
    (shuffle : List (Name × FnMaps) → List (Name × FnMaps)) : Option (Option Store) :=
  (buildSymbolMap path disk).bind fun m =>
  match readText Maps.empty text with
  | none => some none
  | some S =>
    (loadableSegs path disk false).bind fun segs =>
    (prepareFile path disk).bind fun
      | none => some none
      | some p =>
        if lookupsOk m segs p S then
          (aggregate (binOf m segs p) S).bind fun P =>
          (computeProfileA (binOf m segs p) (aliasesOf m) c (Threshold.fromTotal num den (S.totalCountFrom 0)) (shuffle P)).map some
        else none

/-! ## Specification -/

/-- The file is a program as compilers and linkers make them: an ELF file with symbol tables whose functions do not overlap and in
which no name stands for two functions, and segments laid out in the same order in the file and in memory. -/
structure ElfProgram (path bs : List Nat) where
  {w : Nat}
  {eh : Ehdr}
  {secs : List (Shdr × List Nat)}
  {segs : List Phdr}
  {k : Nat}
  {names : List Nat}
  elf : IsElf bs w eh secs segs k names
  opens : Opens path
  /-- The symbol tables. -/
  {syms : List (Elf.Sym × List Nat)}
  {dyn : List (Elf.Sym × List Nat)}
  {tab : List Nat}
  {dtab : List Nat}
  isSyms : SymsOf bs w secs 2 syms tab
  isDyn : SymsOf bs w secs 11 dyn dtab
  short : ShortOk tab syms
  short' : ShortOk dtab dyn
  sizes : ∀ y ∈ syms ++ dyn, Kept y → 0 < y.1.size
  apart : ∀ y ∈ syms ++ dyn, ∀ z ∈ syms ++ dyn, Kept y → Kept z → addrOf eh y.1 < addrOf eh z.1 →
    addrOf eh y.1 + y.1.size ≤ addrOf eh z.1
  unique : ∀ y ∈ syms ++ dyn, ∀ z ∈ syms ++ dyn, Kept y → Kept z → toName y.2 = toName z.2 → addrOf eh y.1 = addrOf eh z.1
  /-- The segments. -/
  some_segs : segs ≠ []
  ascending : segs.Pairwise fun p q => Exec p → Exec q → p.offset + p.filesz ≤ q.offset ∧ p.vaddr + p.filesz ≤ q.vaddr
  bounds : ∀ p ∈ segs, Exec p → 0 < p.filesz ∧ p.offset + p.filesz < 2 ^ 64 ∧ p.vaddr + p.filesz < 2 ^ 64

/-- A program with well-formed debugging information (see `Elf.file_stacks`). -/
structure Program (path bs : List Nat) extends ElfProgram path bs where
  {dwp : Bool}
  isDwp : dwp = true ↔ ∃ x, path = x ++ Elf.str ".dwp"
  {b : Binary}
  debug : DebugOf bs w eh secs segs dwp b
  hi : Nat
  {m : RngLists.RngMap}
  rngs : b.rsecs.headers = some m
  {us : List (DwarfInfo.IUnit × List Nat)}
  {sc : DwarfInfo.Secs}
  isSecs : sc = ⟨us.flatMap Prod.snd, b.abbr, b.str, b.lineStr, none, b.addr⟩
  units : DwarfInfo.UnitsAt .little sc InlineHandler.wanted us 0
  info : b.info = some (us.flatMap Prod.snd)
  some_info : us.flatMap Prod.snd ≠ []
  {D : Nat → Inline.Sub}
  {code : Nat → Bool}
  {lives : List (Option LineMap.LSeq)}
  desc : InlineHandler.SecDesc (b.env m) .little b.addrSize hi sc D code us 0 lives
  stackOk : Inline.StackOk b.vaddr (InlineHandler.infoOf (InlineHandler.secKept code us) (InlineHandler.secFns us) D)
  lines : (lives.flatMap Option.toList).Pairwise LineMap.Disj
  below : ∀ y ∈ syms ++ dyn, Kept y → addrOf eh y.1 + y.1.size ≤ hi

variable {path bs : List Nat}

/-- `e` (address, name, size) is a function of the program: the first symbol at its address. -/
def ElfProgram.HasFn (g : ElfProgram path bs) (e : Nat × Name × Nat) : Prop :=
  ∃ pre y post, g.syms ++ g.dyn = pre ++ y :: post ∧ Kept y ∧ FirstAt g.eh pre y ∧ addrOf g.eh y.1 = e.1 ∧ toName y.2 = e.2.1 ∧
    y.1.size = e.2.2

/-- `n` is a name of the function at address `a`. -/
def ElfProgram.NameAt (g : ElfProgram path bs) (a : Nat) (n : Name) : Prop :=
  ∃ y ∈ g.syms ++ g.dyn, Kept y ∧ addrOf g.eh y.1 = a ∧ toName y.2 = n

/-- The byte of the file is in an executable segment, at address `a`. -/
def ElfProgram.Code (g : ElfProgram path bs) (x a : Nat) : Prop :=
  ∃ p ∈ g.segs, Exec p ∧ ∃ j, j < p.filesz ∧ x = p.offset + j ∧ a = p.vaddr + j

/-- The frames of an address (`Elf.file_stacks`): none without a line; only the line outside of all subprograms; otherwise those of
the subprograms and inlined calls around the address, from the inside out. -/
def Program.StackAt (g : Program path bs) (a : Nat) (fs : List Inline.Frame) : Prop :=
  ((∀ id, id.line ≠ 0 → ¬ LineMap.Found (g.lives.flatMap Option.toList) a id) → fs = []) ∧
  ∀ id, id.line ≠ 0 → LineMap.Found (g.lives.flatMap Option.toList) a id →
    ((∀ i t, Inline.Kept g.b.vaddr (InlineHandler.infoOf (InlineHandler.secKept g.code g.us) (InlineHandler.secFns g.us) g.D).order i t →
      ¬ t.Has a) → fs = [{ func := none, dir := id.dir, file := id.file, start := 0, line := id.line, discr := id.discr }]) ∧
    (∀ i t, Inline.Kept g.b.vaddr (InlineHandler.infoOf (InlineHandler.secKept g.code g.us) (InlineHandler.secFns g.us) g.D).order i t →
      t.Has a → ∃ cs, Inline.InsideOut g.b.vaddr
          (InlineHandler.infoOf (InlineHandler.secKept g.code g.us) (InlineHandler.secFns g.us) g.D).order a cs ∧
        Inline.IsStack (InlineHandler.infoOf (InlineHandler.secKept g.code g.us) (InlineHandler.secFns g.us) g.D) id cs fs)

/-- The same frame; C53 has bytes for characters and 32 bits for numbers, and no file names. -/
structure SameFrame (f : Inline.Frame) (g : Frame) : Prop where
  func : g.func.map UInt8.toNat = (f.func.getD []).map (· % 256)
  start : g.startLine.toNat = f.start % 2 ^ 32
  line : g.line.toNat = f.line % 2 ^ 32
  discr : g.disc.toNat = f.discr % 2 ^ 32

/-- What C53 has to know about the program is what is in the file: its functions, where its code is loaded, and the inline stacks
of its instructions. -/
structure Program.Is (g : Program path bs) (b : Bin) : Prop where
  syms : ∀ e, e ∈ b.syms ↔ g.HasFn e
  vaddr : ∀ x a, g.Code x a → b.vaddr x = a
  stack : ∀ a, a < g.hi → ∃ fs, g.StackAt a fs ∧ List.Forall₂ SameFrame fs (b.stack a)
  dup : ∀ a, b.dup a = 1

/-- All samples are in the code of the program. -/
structure ElfProgram.Covers (g : ElfProgram path bs) (S : Maps) : Prop where
  addr : ∀ x ∈ S.addr, ∃ a, g.Code x.1 a
  range : ∀ x ∈ S.range, (∃ a, g.Code (ofLex x.1).1 a) ∧ ∃ a, g.Code (ofLex x.1).2 a
  branch : ∀ x ∈ S.branch, (∃ a, g.Code (ofLex x.1).1 a) ∧ ∃ a, g.Code (ofLex x.1).2 a

/-! ## Proof -/

theorem stack_some (g : Program path bs) : ∃ p, prepareFile path (some bs) = some (some p) ∧
    ∀ a, a < g.hi → ∃ fs, p.stack a = some fs ∧ g.StackAt a fs := by
  classical
  obtain ⟨p, h1, h2, h3⟩ := Elf.file_stacks g.elf path g.opens g.dwp g.isDwp g.b g.debug g.hi g.m g.rngs g.us g.sc g.isSecs g.units
    g.info g.some_info g.D g.code g.lives g.desc g.stackOk g.lines
  refine ⟨p, h1, ?_⟩
  intro a ha
  obtain ⟨h4, h5⟩ := h3 a ha
  rw [h2] at h5
  have huniq : ∀ (fs : List Inline.Frame), p.stack a = some fs → g.StackAt a fs := by
    intro fs hfs
    refine ⟨?_, ?_⟩
    · intro h
      have := h4 h
      rw [hfs] at this
      exact Option.some.inj this
    · intro id hid hf
      obtain ⟨h6, h7⟩ := h5 id hid hf
      refine ⟨?_, ?_⟩
      · intro hno
        have := h6 hno
        rw [hfs] at this
        exact Option.some.inj this
      · intro i t hk ht
        obtain ⟨cs, fs', g1, g2, g3⟩ := h7 i t hk ht
        rw [hfs] at g1
        cases g1
        exact ⟨cs, g2, g3⟩
  by_cases hl : ∃ id, id.line ≠ 0 ∧ LineMap.Found (g.lives.flatMap Option.toList) a id
  · obtain ⟨id, hid, hf⟩ := hl
    obtain ⟨h6, h7⟩ := h5 id hid hf
    by_cases hk : ∃ i t, Inline.Kept g.b.vaddr
        (InlineHandler.infoOf (InlineHandler.secKept g.code g.us) (InlineHandler.secFns g.us) g.D).order i t ∧ t.Has a
    · obtain ⟨i, t, hk, ht⟩ := hk
      obtain ⟨cs, fs, g1, _⟩ := h7 i t hk ht
      exact ⟨fs, g1, huniq fs g1⟩
    · have := h6 fun i t hk' ht => hk ⟨i, t, hk', ht⟩
      exact ⟨_, this, huniq _ this⟩
  · have := h4 fun id hid hf => hl ⟨id, hid, hf⟩
    exact ⟨_, this, huniq _ this⟩

theorem code_vaddr (g : ElfProgram path bs) : ∃ l, loadableSegs path (some bs) false = some l ∧
    ∀ x a, g.Code x a → staticVaddr l x = some a := by
  have hasc' : g.segs.Pairwise fun p q => Exec p → Exec q → p.offset < q.offset := by
    refine g.ascending.imp_of_mem ?_
    intro a b ha hb hab hea heb
    have h1 := (hab hea heb).1
    have h2 := (g.bounds a ha hea).1
    omega
  obtain ⟨h1, _⟩ := Elf.exec_segments g.elf path g.opens hasc' (.inl g.some_segs)
  refine ⟨_, h1, ?_⟩
  rintro x a ⟨p, hp, he, j, hj, rfl, rfl⟩
  obtain ⟨l, h2, h3, _⟩ := Elf.exec_addresses g.elf path g.opens g.ascending g.bounds p hp he j hj
  rw [h1] at h2
  cases h2
  exact h3

theorem mem_aliasesOf (m : Elf.SymMap) (n a : Name) : a ∈ aliasesOf m n ↔ (n, a) ∈ m.aliases := by
  unfold aliasesOf
  rw [List.mem_map]
  constructor
  · rintro ⟨⟨x, y⟩, h, rfl⟩
    rw [List.mem_filter, decide_eq_true_eq] at h
    obtain ⟨h1, h2⟩ := h
    simp only at h2
    rw [← h2]
    exact h1
  · intro h
    exact ⟨(n, a), List.mem_filter.2 ⟨h, by simp⟩, rfl⟩

theorem exists_first (eh : Ehdr) (l : List (Elf.Sym × List Nat)) (y : Elf.Sym × List Nat) (hy : y ∈ l) (hk : Kept y) :
    ∃ pre z post, l = pre ++ z :: post ∧ Kept z ∧ FirstAt eh pre z ∧ addrOf eh z.1 = addrOf eh y.1 ∧
      (z = y ∨ y ∈ post) := by
  classical
  induction l with
  | nil => cases hy
  | cons x t ih =>
    by_cases hx : Kept x ∧ addrOf eh x.1 = addrOf eh y.1
    · have h0 : FirstAt eh [] x := by
        intro z hz
        simp at hz
      refine ⟨[], x, t, rfl, hx.1, h0, hx.2, ?_⟩
      rcases List.mem_cons.1 hy with rfl | h
      · exact .inl rfl
      · exact .inr h
    · rcases List.mem_cons.1 hy with rfl | h
      · exact absurd ⟨hk, rfl⟩ hx
      · obtain ⟨pre, z, post, rfl, h1, h2, h3, h4⟩ := ih h
        refine ⟨x :: pre, z, post, rfl, h1, ?_, h3, h4⟩
        intro u hu hku
        rcases List.mem_cons.1 hu with rfl | hu
        · intro hc
          exact hx ⟨hku, hc.trans h3⟩
        · exact h2 u hu hku

/-- The symbol map, with its aliases as names. -/
theorem program_symbols (g : ElfProgram path bs) : ∃ m, buildSymbolMap path (some bs) = some m ∧ OMap.Sorted m.map ∧
    (∀ e, e ∈ m.map ↔ g.HasFn e) ∧
    (∀ e ∈ m.map, ∀ n, IsName (aliasesOf m) e.2.1 n ↔ g.NameAt e.1 n) := by
  obtain ⟨m, h1, h2, h3, h4⟩ := Elf.symbol_map_built_partial g.elf path g.opens g.syms g.dyn g.tab g.dtab g.isSyms g.isDyn g.short g.short'
  refine ⟨m, h1, h2, fun e => h3 e.1 e.2.1 e.2.2, ?_⟩
  rintro ⟨a, n, size⟩ he n'
  obtain ⟨pre, y, post, hl, hk, hf, rfl, rfl, rfl⟩ := (h3 _ _ _).1 he
  have hy : y ∈ g.syms ++ g.dyn := by rw [hl]; simp
  unfold IsName
  rw [mem_aliasesOf, h4]
  constructor
  · rintro (rfl | ⟨pre', y', mid, z, post', hl', hy', hz, hf', ha, hn, rfl⟩)
    · exact ⟨y, hy, hk, rfl, rfl⟩
    · have hy'm : y' ∈ g.syms ++ g.dyn := by rw [hl']; simp
      have hzm : z ∈ g.syms ++ g.dyn := by rw [hl']; simp
      have := g.unique y' hy'm y hy hy' hk hn
      exact ⟨z, hzm, hz, ha.trans this, rfl⟩
  · rintro ⟨z, hz, hzk, hza, rfl⟩
    obtain ⟨pre', u, post', hl', hu, huf, hua, hor⟩ := exists_first g.eh _ z hz hzk
    have huy : u = y := by
      have hum := (h3 (addrOf g.eh u.1) (toName u.2) u.1.size).2 ⟨pre', u, post', hl', hu, huf, rfl, rfl, rfl⟩
      -- both are the first symbol at the address
      rw [hl] at hl'
      rcases List.append_eq_append_iff.1 hl' with ⟨c, hc1, hc2⟩ | ⟨c, hc1, hc2⟩
      · cases c with
        | nil => simp only [List.nil_append] at hc2; injection hc2 with h _; exact h.symm
        | cons v c =>
          injection hc2 with hv _
          subst hv
          exact absurd (hza.symm.trans hua.symm) (huf _ (by rw [hc1]; simp) hk)
      · cases c with
        | nil => simp only [List.nil_append] at hc2; injection hc2
        | cons v c =>
          injection hc2 with hv _
          subst hv
          exact absurd (hua.trans hza) (hf _ (by rw [hc1]; simp) hu)
    subst huy
    rcases hor with rfl | hz'
    · exact .inl rfl
    · obtain ⟨mid, rest, rfl⟩ := List.append_of_mem hz'
      exact .inr ⟨pre', u, mid, z, rest, hl', hu, hzk, huf, hza, rfl, rfl⟩

/-- The symbols and addresses of C53 and C69 that are in the file, whatever the inline stacks. -/
theorem elf_bin (g : ElfProgram path bs) (stack : Nat → List Frame) (dup : Nat → Nat) :
    ∃ m l, buildSymbolMap path (some bs) = some m ∧ loadableSegs path (some bs) false = some l ∧
    BinOk ⟨m.map, fun x => (staticVaddr l x).getD 0, stack, dup⟩ ∧
    AliasOk ⟨m.map, fun x => (staticVaddr l x).getD 0, stack, dup⟩ (aliasesOf m) ∧ (∀ e, e ∈ m.map ↔ g.HasFn e) ∧
    (∀ e ∈ m.map, ∀ n, IsName (aliasesOf m) e.2.1 n ↔ g.NameAt e.1 n) ∧ (∀ x a, g.Code x a → staticVaddr l x = some a) := by
  obtain ⟨m, hm, hsort, hfn, hnm⟩ := program_symbols g
  obtain ⟨l, hl, hlv⟩ := code_vaddr g
  have hfnm : ∀ e, e ∈ m.map → ∃ y ∈ g.syms ++ g.dyn, Kept y ∧ addrOf g.eh y.1 = e.1 ∧ toName y.2 = e.2.1 ∧ y.1.size = e.2.2 := by
    intro e he
    obtain ⟨pre, y, post, h1, h2, _, h3⟩ := (hfn e).1 he
    exact ⟨y, by rw [h1]; simp, h2, h3⟩
  have hone : ∀ e ∈ m.map, ∀ e' ∈ m.map, e.1 = e'.1 → e = e' := by
    rintro ⟨a, v⟩ he ⟨a', v'⟩ he' h
    simp only at h
    subst h
    have h1 := OMap.find?_some_of_mem hsort he
    have h2 := OMap.find?_some_of_mem hsort he'
    rw [h1] at h2
    cases h2
    rfl
  have hby : ∀ e ∈ m.map, ∀ e' ∈ m.map, ∀ n, g.NameAt e.1 n → g.NameAt e'.1 n → e = e' := by
    rintro e he e' he' n ⟨y, hy, hk, ha, rfl⟩ ⟨y', hy', hk', ha', hn⟩
    exact hone e he e' he' (by rw [← ha, ← ha']; exact g.unique y hy y' hy' hk hk' hn.symm)
  have hself : ∀ e ∈ m.map, g.NameAt e.1 e.2.1 := fun e he => (hnm e he _).1 (.inl rfl)
  have hbin : BinOk ⟨m.map, fun x => (staticVaddr l x).getD 0, stack, dup⟩ := by
    refine ⟨hsort, ?_, ?_, ?_⟩
    · intro x hx z hz hlt
      obtain ⟨y1, m1, k1, a1, _, s1⟩ := hfnm x hx
      obtain ⟨y2, m2, k2, a2, _, _⟩ := hfnm z hz
      have := g.apart y1 m1 y2 m2 k1 k2 (by rw [a1, a2]; exact hlt)
      rw [a1, a2, s1] at this
      exact this
    · show (m.map.map fun e => e.2.1).Nodup
      have hnd : m.map.Nodup := List.Pairwise.imp (fun h => by rintro rfl; exact lt_irrefl _ h) hsort
      refine (List.nodup_map_iff_inj_on hnd).2 ?_
      intro e he e' he' h
      exact hby e he e' he' e.2.1 (hself e he) (h ▸ hself e' he')
    · intro e he
      obtain ⟨y, hy, hk, _, _, hs⟩ := hfnm e he
      rw [← hs]
      exact g.sizes y hy hk
  have hal : AliasOk ⟨m.map, fun x => (staticVaddr l x).getD 0, stack, dup⟩ (aliasesOf m) := by
    constructor
    · intro e he e' he' h
      have := hby e he e' he' e'.2.1 ((hnm e he _).1 (.inr h)) (hself e' he')
      rw [this]
    · intro e he e' he' a h h'
      have := hby e he e' he' a ((hnm e he _).1 (.inr h)) ((hnm e' he' _).1 (.inr h'))
      rw [this]
  exact ⟨m, l, hm, hl, hbin, hal, hfn, hnm, hlv⟩

/-- The binary of C53 and C69 that is in the file. -/
theorem program_bin (g : Program path bs) : ∃ m l p, buildSymbolMap path (some bs) = some m ∧
    loadableSegs path (some bs) false = some l ∧ prepareFile path (some bs) = some (some p) ∧ g.Is (binOf m l p) ∧
    BinOk (binOf m l p) ∧ AliasOk (binOf m l p) (aliasesOf m) ∧ (∀ e, e ∈ m.map ↔ g.HasFn e) ∧
    (∀ e ∈ m.map, ∀ n, IsName (aliasesOf m) e.2.1 n ↔ g.NameAt e.1 n) ∧ (∀ x a, g.Code x a → staticVaddr l x = some a) ∧
    ∀ e ∈ m.map, ∀ a, e.1 ≤ a → a < e.1 + e.2.2 → a < g.hi ∧ (p.stack a).isSome = true := by
  obtain ⟨p, hp, hpst⟩ := stack_some g
  obtain ⟨m, l, hm, hl, hbin, hal, hfn, hnm, hlv⟩ := elf_bin g.toElfProgram (fun a => ((p.stack a).getD []).map toFrame) (fun _ => 1)
  have hfnm : ∀ e, e ∈ m.map → ∃ y ∈ g.syms ++ g.dyn, Kept y ∧ addrOf g.eh y.1 = e.1 ∧ toName y.2 = e.2.1 ∧ y.1.size = e.2.2 := by
    intro e he
    obtain ⟨pre, y, post, h1, h2, _, h3⟩ := (hfn e).1 he
    exact ⟨y, by rw [h1]; simp, h2, h3⟩
  have hIs : g.Is (binOf m l p) := by
    refine ⟨hfn, ?_, ?_, fun _ => rfl⟩
    · intro x a h
      show (staticVaddr l x).getD 0 = a
      rw [hlv x a h]; rfl
    · intro a ha
      obtain ⟨fs, h1, h2⟩ := hpst a ha
      refine ⟨fs, h2, ?_⟩
      show List.Forall₂ SameFrame fs (((p.stack a).getD []).map toFrame)
      rw [h1, List.forall₂_map_right_iff]
      refine List.forall₂_same.2 fun f _ => ⟨?_, ?_, ?_, ?_⟩
      · simp [toFrame, toName, Function.comp_def, UInt8.toNat_ofNat']
      all_goals simp [toFrame]
  refine ⟨m, l, p, hm, hl, hp, hIs, hbin, hal, hfn, hnm, hlv, ?_⟩
  intro e he a h1 h2
  obtain ⟨y, hy, hk, h3, _, h5⟩ := hfnm e he
  have hb := g.below y hy hk
  have ha : a < g.hi := by omega
  obtain ⟨fs, h, _⟩ := hpst a ha
  exact ⟨ha, by rw [h]; rfl⟩

/-- **C70.** For every program file (`Program`), every text profile of samples in its code, every configuration and every order of
the hash map: the profile is created.  Before the elision of suffixes the names in it are those of the functions whose samples
(with those of the functions of the same base name) exceed the threshold of C18, all names of such a function have one symbol, and
this symbol has the profile that C53 describes for the functions, addresses and inline stacks of the file.  If no name has a suffix
to be elided that is what is written; otherwise it is what C12 makes of it. -/
theorem create_profile (g : Program path bs) (S : Maps) (hS : S.Ok) (hfit : S.Fits) (hcov : g.Covers S) (aux : List Char)
    (num den : Nat) (c : Cfg) (shuffle : List (Name × FnMaps) → List (Name × FnMaps)) (hsh : ∀ l, (shuffle l).Perm l) :
    ∃ (b : Bin) (st st' : Store), g.Is b ∧ st.Inv ∧
      createProfile path (some bs) (writeText S aux) num den c shuffle = some (some st') ∧ elide c.pol st = some st' ∧
      ((∀ e a, g.HasFn e → g.NameAt e.1 a → originalName c.pol a = a) → st' = st) ∧
      (∀ n, (OMap.find? st.map n).isSome = true ↔ ∃ e, g.HasFn e ∧
        familyCount b c S e.2.1 > Threshold.fromTotal num den (S.totalCountFrom 0) ∧ g.NameAt e.1 n) ∧
      (∀ e, g.HasFn e → familyCount b c S e.2.1 > Threshold.fromTotal num den (S.totalCountFrom 0) →
        ∃ i, FunctionProfile b c S (Threshold.fromTotal num den (S.totalCountFrom 0)) e (st.heap i) ∧
          ∀ n, g.NameAt e.1 n → OMap.find? st.map n = some i) ∧
      ∀ p, ∑ i ∈ st'.live, (st'.heap i).totalAt p =
        ((b.syms.filter fun e => decide (familyCount b c S e.2.1 > Threshold.fromTotal num den (S.totalCountFrom 0))).map
          fun e => fnSamples b c S e p).sum := by
  obtain ⟨m, l, p, hm, hl, hp, hIs, hbin, hal, hfn, hnm, hlv, hst⟩ := program_bin g
  have hread := text_profile_roundtrip S hS hfit aux
  have hlook : lookupsOk m l p S = true := by
    unfold lookupsOk
    simp only [Bool.and_eq_true, List.all_eq_true]
    have hs : ∀ x, (∃ a, g.Code x a) → (staticVaddr l x).isSome = true := by
      rintro x ⟨a, ha⟩
      rw [hlv x a ha]; rfl
    refine ⟨⟨⟨fun x hx => hs _ (hcov.addr x hx), fun x hx => ⟨hs _ (hcov.range x hx).1, hs _ (hcov.range x hx).2⟩⟩,
      fun x hx => ⟨hs _ (hcov.branch x hx).1, hs _ (hcov.branch x hx).2⟩⟩, ?_⟩
    intro e he a ha
    rw [List.mem_range'_1] at ha
    exact (hst e he a ha.1 ha.2).2
  obtain ⟨thr, hthr⟩ : ∃ thr, thr = Threshold.fromTotal num den (S.totalCountFrom 0) := ⟨_, rfl⟩
  obtain ⟨P, hP, hC⟩ := alias_profile (binOf m l p) hbin (aliasesOf m) hal c S thr
  obtain ⟨st, hst, hinv, hnames, hprof, _⟩ := hC (shuffle P) (hsh P)
  obtain ⟨P', hP', hT⟩ := alias_total (binOf m l p) hbin (aliasesOf m) hal c S thr
  rw [hP] at hP'
  cases hP'
  obtain ⟨st', hst', htot⟩ := hT (shuffle P) (hsh P)
  have hel : elide c.pol st = some st' := by
    unfold computeProfileA at hst'
    rw [hst] at hst'
    exact hst'
  rw [← hthr]
  refine ⟨binOf m l p, st, st', hIs, hinv, ?_, hel, ?_, ?_, ?_, htot⟩
  · unfold createProfile
    rw [hm, Option.bind_some, hread]
    simp only
    rw [hl, Option.bind_some, hp, Option.bind_some]
    simp only
    rw [if_pos hlook, hP, Option.bind_some, ← hthr, hst']
    rfl
  · intro hno
    have := alias_elide c.pol st (by
      intro n hn
      obtain ⟨e, he, _, h⟩ := (hnames n).1 hn
      exact hno e n ((hfn e).1 he) ((hnm e he n).1 h))
    rw [hel] at this
    exact Option.some.inj this
  · intro n
    rw [hnames n]
    constructor
    · rintro ⟨e, he, hf, h⟩
      exact ⟨e, (hfn e).1 he, hf, (hnm e he n).1 h⟩
    · rintro ⟨e, he, hf, h⟩
      exact ⟨e, (hfn e).2 he, hf, (hnm e ((hfn e).2 he) n).2 h⟩
  · intro e he hf
    obtain ⟨i, h1, h2⟩ := hprof e ((hfn e).2 he) hf
    exact ⟨i, h1, fun n hn => h2 n ((hnm e ((hfn e).2 he) n).2 hn)⟩

/-- A text that is not a profile: nothing is created. -/
theorem create_bad_text (g : Program path bs) (text : List Char) (h : readText Maps.empty text = none) (num den : Nat) (c : Cfg)
    (shuffle : List (Name × FnMaps) → List (Name × FnMaps)) :
    createProfile path (some bs) text num den c shuffle = some none := by
  obtain ⟨m, hm, _⟩ := program_symbols g.toElfProgram
  unfold createProfile
  rw [hm, Option.bind_some, h]

/-! ## A concrete program -/

/-- C65's example file is a program. -/
def exProgram : Program Elf.exPath Elf.exFile where
  elf := Elf.exFile_elf
  opens := Elf.exPath_opens
  isSyms := Elf.exSyms_of
  isDyn := Elf.exDyn_of
  short := Elf.exShort
  short' := fun y hy => by cases hy
  sizes := by
    intro y hy hk
    have h : ∀ y ∈ Elf.exSyms ++ [], y.1.name ≠ 0 → 0 < y.1.size := by decide +kernel
    exact h y hy hk.1
  apart := by
    have h : ∀ y ∈ Elf.exSyms ++ [], ∀ z ∈ Elf.exSyms ++ [], addrOf Elf.exEh y.1 < addrOf Elf.exEh z.1 →
      addrOf Elf.exEh y.1 + y.1.size ≤ addrOf Elf.exEh z.1 := by decide +kernel
    exact fun y hy z hz _ _ => h y hy z hz
  unique := by
    have h : ∀ y ∈ Elf.exSyms ++ [], ∀ z ∈ Elf.exSyms ++ [], toName y.2 = toName z.2 → addrOf Elf.exEh y.1 = addrOf Elf.exEh z.1 := by
      decide +kernel
    exact fun y hy z hz _ _ => h y hy z hz
  some_segs := by decide
  ascending := by decide
  bounds := by decide
  isDwp := Elf.exPath_dwp
  debug := Elf.exFile_debug
  hi := 2 ^ 64 - 1
  m := []
  rngs := rfl
  us := [(InlineHandler.hxUnit, InlineHandler.hxInfoBytes)]
  sc := InlineHandler.hxSecs
  isSecs := by simp [InlineHandler.hxSecs, Addr2Line.exB]
  units := InlineHandler.hxUnits_at
  info := by simp [Addr2Line.exB]
  some_info := by decide
  D := InlineHandler.hxD
  code := InlineHandler.hxCode
  desc := InlineHandler.hx_desc' (Addr2Line.exB.env []) rfl rfl
    (Addr2Line.line_at Addr2Line.exB [] DwarfLine.exUnit LineMap.ex_described.ok [] DwarfLine.exBytes [] DwarfLine.exUnit_enc
      (by simp [Addr2Line.exB]))
  stackOk := by
    have hok := InlineHandler.hxInfo_ok
    rw [← InlineHandler.hxInfo_eq] at hok
    exact hok
  lines := LineMap.ex_disj
  below := by
    have h : ∀ y ∈ Elf.exSyms ++ [], addrOf Elf.exEh y.1 + y.1.size ≤ 2 ^ 64 - 1 := by decide +kernel
    exact fun y hy _ => h y hy

/-- Two ranges in `main`, at the offsets of its code in the file. -/
def exS : Maps := ⟨[(toLex (0, 9), 20), (toLex (4, 7), 5)], [], [(toLex (7, 0), 3)]⟩

theorem exCode (x : Nat) (hx : x < 256) : exProgram.Code x (0x1000 + x) :=
  ⟨⟨1, 5, 0, 0x1000, 0x1000, 0x100, 0x100, 0x1000⟩, by show _ ∈ Elf.exSegs; decide, by decide, x, hx, by simp, rfl⟩

theorem exS_covered : exProgram.Covers exS := by
  have hc : ∀ x, x < 256 → ∃ a, exProgram.Code x a := fun x hx => ⟨_, exCode x hx⟩
  constructor
  · intro x hx; cases hx
  · intro x hx
    simp only [exS, List.mem_cons, List.not_mem_nil, or_false] at hx
    rcases hx with rfl | rfl <;> exact ⟨hc _ (by decide), hc _ (by decide)⟩
  · intro x hx
    simp only [exS, List.mem_cons, List.not_mem_nil, or_false] at hx
    rcases hx with rfl
    exact ⟨hc _ (by decide), hc _ (by decide)⟩

theorem exS_ok : exS.Ok ∧ exS.Fits := by
  refine ⟨⟨?_, ?_, ?_⟩, ?_, ?_, ?_, ?_, ?_, ?_⟩ <;>
    simp [exS, OMap.Sorted, FitsPair, FitsAddr, Prod.Lex.lt_iff]

/-- `create_profile` applies to it; `main` and `f` are in the profile, as one symbol. -/
theorem exProgram_created : ∃ st i, createProfile Elf.exPath (some Elf.exFile) (writeText exS []) 0 1 ⟨true, false, .none⟩ id =
    some (some st) ∧ OMap.find? st.map (toName (Elf.str "main")) = some i ∧ OMap.find? st.map (toName (Elf.str "f")) = some i := by
  obtain ⟨b, st, st', hb, _, h1, _, h2, h3, h4, _⟩ := create_profile exProgram exS exS_ok.1 exS_ok.2 exS_covered [] 0 1
    ⟨true, false, .none⟩ id (fun l => List.Perm.refl l)
  have := h2 fun e a _ _ => rfl
  subst this
  have hmain : exProgram.HasFn (0x1000, toName (Elf.str "main"), 10) := by
    refine ⟨[Elf.exSyms[0]], Elf.exSyms[1], [Elf.exSyms[2], Elf.exSyms[3], Elf.exSyms[4]], rfl, ?_, ?_, by decide, rfl, rfl⟩
    · refine ⟨by decide, .inr ⟨by decide, .inl (by decide), ?_⟩⟩
      rw [← Elf.hasSuffix_iff]
      decide
    · intro z hz
      rw [List.mem_singleton] at hz
      subst hz
      intro hk
      exact absurd hk.1 (by decide)
  have hv : ∀ x, x < 256 → b.vaddr x = 0x1000 + x := fun x hx => hb.vaddr x _ (exCode x hx)
  have hcount : familyCount b ⟨true, false, .none⟩ exS (toName (Elf.str "main")) > Threshold.fromTotal 0 1 (exS.totalCountFrom 0) := by
    have hm := (hb.syms _).2 hmain
    have h0 : Threshold.fromTotal 0 1 (exS.totalCountFrom 0) < 220 := by decide
    have hpos : (mapsIn b exS 0x1000 (0x1000 + 10)).totalCountFrom 0 = 220 := by
      have h : pairsIn b 0x1000 (0x1000 + 10) exS.range = [(toLex (0x1000, 0x1009), 20), (toLex (0x1004, 0x1007), 5)] := by
        simp [pairsIn, exS, hv]
      show Maps.totalCountFrom 0 ⟨OMap.addAll [] (pairsIn b 0x1000 (0x1000 + 10) exS.range), _, _⟩ = _
      rw [h]
      rfl
    refine lt_of_lt_of_le h0 ?_
    rw [← hpos]
    unfold familyCount
    exact List.single_le_sum (by simp) _ (List.mem_map.2 ⟨_, List.mem_filter.2 ⟨hm, by simp⟩, rfl⟩)
  obtain ⟨i, _, h5⟩ := h4 _ hmain hcount
  refine ⟨st', i, h1, h5 _ ?_, h5 _ ?_⟩
  · obtain ⟨pre, y, post, e1, e2, _, e3, e4, _⟩ := hmain
    exact ⟨y, by rw [e1]; simp, e2, e3, e4⟩
  · refine ⟨Elf.exSyms[3], by show _ ∈ Elf.exSyms ++ []; simp [Elf.exSyms], ?_, by decide, rfl⟩
    refine ⟨by decide, .inr ⟨by decide, .inl (by decide), ?_⟩⟩
    rw [← Elf.hasSuffix_iff]
    decide

end Verif.Pipeline

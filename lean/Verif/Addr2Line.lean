import Verif.InlineHandlerMain
import Verif.InlineHandlerEx
import Verif.RngLists
import Verif.LineMapEx

/-! # C65: from the sections of a binary to inline stacks (legacy_addr2line.cc) -/
namespace Verif.Addr2Line
open Verif Verif.ByteReader Verif.Ranges Verif.RngLists Verif.Inline
open Verif.DwarfInfo (Secs IUnit UnitsAt readInfo)
open Verif.LineMap (LMap LSeq Described Found Disj)
open Verif.InlineHandler (Env St handler Name)
open Verif.DwarfLine (Unit4)

/-! ## Model -/

/-- The sections that are looked up (legacy_addr2line.cc:92-105).  `.debug_str_offsets` is not among them.  `vaddr` and
`addrSize` are those of the ELF file. -/
structure Binary where
  addrSize : Nat
  vaddr : Nat
  line : Option (List Nat)
  abbr : Option (List Nat)
  info : Option (List Nat)
  str : Option (List Nat)
  ranges : Option (List Nat)
  addr : Option (List Nat)
  rnglists : Option (List Nat)
  lineStr : Option (List Nat)

/-- The range lists (legacy_addr2line.cc:125-131). -/
def Binary.rsecs (b : Binary) : RSecs := ⟨.little, b.addrSize, b.ranges, b.rnglists, b.addr⟩

/-- The sections for the reader of `.debug_info` (legacy_addr2line.cc:150-152). -/
def Binary.secs (b : Binary) : Secs := ⟨b.info.getD [], b.abbr, b.str, b.lineStr, none, b.addr⟩

/-- The line table at an offset (addr2line_inlinestack.cc:402-440).  The section `.debug_line_str` is passed as `.debug_str`
as well (418-421; without it a pointer that is not valid is passed, which is not modelled).  Tables that are malformed are
not modelled. -/
def Binary.lineAt (b : Binary) (v : Nat) : Option (List DwarfLine.Ev) :=
  match b.line with
  | none => none
  | some sec =>
    match DwarfLine.start .little b.addrSize ⟨b.lineStr, b.str.bind fun _ => b.lineStr⟩ (sec.drop v) with
    | .ok (evs, _) => some evs
    | .error _ => none

/-- What the handler of `.debug_info` is constructed with (legacy_addr2line.cc:132-134), after the range lists' headers have been
read.  Range lists by offset are read with the base 0 of the addresses by number (addr2line_inlinestack.cc:354, a default
argument in dwarf3ranges.h:92). -/
def Binary.env (b : Binary) (m : RngMap) : Env :=
  { vaddr := b.vaddr
    sampled := none
    ranges := fun version off base => b.rsecs.byOffset m (version % 256) off base 0
    rangesAt := fun rangesBase i base addrBase => b.rsecs.byNumber m rangesBase i base addrBase
    line := b.lineAt }

/-- What `Prepare` leaves behind. -/
structure Prepared where
  info : Info
  lines : LMap
  byAddr : RangeMap.RMap Nat

/-- `Google3Addr2line::Prepare` (legacy_addr2line.cc:79-186) for an ELF file; `none`: a failed `CHECK` or undefined
behaviour.  The line handler of a section without `.debug_info` has the first load segment at 0 (dwarf2reader.h:225). -/
def prepare (b : Binary) : Option Prepared := do
  let m ← b.rsecs.headers
  if (b.info.getD []).length > 0 then
    let s ← readInfo (handler (b.env m)) .little b.secs 0 {}
    let r ← populate b.vaddr s.info.order
    some ⟨s.info, s.lm, r⟩
  else
    match b.line with
    | none => some ⟨⟨[], []⟩, ⟨[], []⟩, []⟩
    | some sec =>
      let evs ← DwarfLine.readSection .little b.addrSize (sec.length + 1) sec
      let lm ← LineMap.handleAll 0 none evs
      some ⟨⟨[], []⟩, lm, []⟩

/-- `Google3Addr2line::GetInlineStack` (legacy_addr2line.cc:191-265). -/
def Prepared.stack (p : Prepared) (a : Nat) : Option (List Frame) := inlineStack p.info p.lines p.byAddr a

/-! ## The tables the debugging information refers to -/

/-- **C65, line tables.** A unit of `.debug_line` at an offset. -/
theorem line_at (b : Binary) (m : RngMap) (u : Unit4) (hu : u.Ok b.addrSize) (pre bs rest : List Nat)
    (henc : u.Enc .little b.addrSize bs) (hs : b.line = some (pre ++ (bs ++ rest))) :
    (b.env m).line pre.length = some (u.events .little b.addrSize) := by
  show b.lineAt pre.length = _
  unfold Binary.lineAt
  rw [hs]
  simp only [List.drop_left]
  rw [DwarfLine.unit_decoded .little b.addrSize _ u hu bs rest henc]

/-- **C65, range lists before DWARF 5.** -/
theorem ranges4_at (b : Binary) (m : RngMap) (hw : b.addrSize = 4 ∨ b.addrSize = 8) (version : Nat) (hv : version < 5)
    (pre rest : List Nat) (l : List E4) (hl : ∀ x ∈ l, x.Ok b.addrSize)
    (hs : b.ranges = some (pre ++ (l.flatMap (E4.encode .little b.addrSize) ++
      (encodeFixed .little b.addrSize 0 ++ encodeFixed .little b.addrSize 0 ++ rest)))) (base : Nat) :
    (b.env m).ranges version pre.length base = some (meaning4 l base) := by
  show b.rsecs.byOffset m (version % 256) pre.length base 0 = _
  exact list_by_offset4 b.rsecs hw m (version % 256) (by omega) pre rest l hl hs base 0

/-- **C65, range lists of DWARF 5 by offset.**  Addresses by number are taken from the start of `.debug_addr`. -/
theorem ranges5_at (b : Binary) (hw : b.addrSize = 4 ∨ b.addrSize = 8) (cs : List Contrib) (hok : ∀ c ∈ cs, c.Ok .little)
    (hs : b.rnglists = some (cs.flatMap (Contrib.bytes .little))) (m : RngMap) (hm : b.rsecs.headers = some m) (hne : cs ≠ [])
    (hasz : ∀ c ∈ cs, c.addrSize = b.addrSize) (pos : Nat) (leb : Nat → List Nat)
    (hleb : LebOk leb) (l : List E5) (hl : ListAt .little b.addrSize leb l (cs.flatMap (Contrib.bytes .little)) pos)
    (tab : List Nat) (ht : TableOk ⟨b.addr.getD [], 0⟩ .little b.addrSize tab) (hl' : ∀ x ∈ l, x.Ok b.addrSize tab) (base : Nat) :
    (b.env m).ranges 5 pos base = some (codeMeaning5 tab l base) :=
  list_by_offset5 b.rsecs hw cs hok hs m hm hne hasz 5 (by omega) pos leb hleb l hl 0 tab ht hl' base

/-- **C65, range lists of DWARF 5 by number.** -/
theorem ranges5_number (b : Binary) (hw : b.addrSize = 4 ∨ b.addrSize = 8) (cs : List Contrib) (hok : ∀ c ∈ cs, c.Ok .little)
    (hs : b.rnglists = some (cs.flatMap (Contrib.bytes .little))) (m : RngMap) (hm : b.rsecs.headers = some m) (c : Contrib)
    (rangeBase : Nat) (hc : (rangeBase, c) ∈ based .little cs 0) (hasz : c.addrSize = b.addrSize) (i o : Nat)
    (hi : c.offsets[i]? = some o) (leb : Nat → List Nat) (hleb : LebOk leb) (l : List E5)
    (hl : ListAt .little b.addrSize leb l (cs.flatMap (Contrib.bytes .little)) (rangeBase + o)) (addrBase : Nat) (tab : List Nat)
    (ht : TableOk ⟨b.addr.getD [], addrBase⟩ .little b.addrSize tab) (hl' : ∀ x ∈ l, x.Ok b.addrSize tab) (base : Nat) :
    (b.env m).rangesAt rangeBase i base addrBase = some (codeMeaning5 tab l base) :=
  list_by_number b.rsecs hw cs hok hs m hm c rangeBase hc hasz i o hi leb hleb l hl addrBase tab ht hl' base

/-! ## Inline stacks -/

/-- **C65.** For every binary with well-formed debugging information (`UnitsAt`, `SecDesc`; the tables it refers to are those
of `line_at`, `ranges4_at`, `ranges5_at` and `ranges5_number`) that is tidy and whose line tables do not overlap:
the binary is read, and for every address below `hi` the stack is empty without a source line; a single frame without a
function if no subprogram covers the address; otherwise it has one frame per subprogram or inlined call that covers the
address, from the inside out. -/
theorem binary_stacks (b : Binary) (hi : Nat) (m : RngMap) (hm : b.rsecs.headers = some m) (us : List (IUnit × List Nat)) (secs : Secs)
    (hsecs : secs = ⟨us.flatMap Prod.snd, b.abbr, b.str, b.lineStr, none, b.addr⟩) (hat : UnitsAt .little secs InlineHandler.wanted us 0) (hinfo : b.info = some (us.flatMap Prod.snd))
    (hpos : us.flatMap Prod.snd ≠ []) (D : Nat → Sub)
    (code : Nat → Bool) (lives : List (Option LSeq))
    (hd : InlineHandler.SecDesc (b.env m) .little b.addrSize hi secs D code us 0 lives)
    (hok : StackOk b.vaddr (InlineHandler.infoOf (InlineHandler.secKept code us) (InlineHandler.secFns us) D))
    (hap : (lives.flatMap Option.toList).Pairwise Disj) :
    ∃ p, prepare b = some p ∧ p.info = InlineHandler.infoOf (InlineHandler.secKept code us) (InlineHandler.secFns us) D ∧
      ∀ a, a < hi →
        ((∀ id, id.line ≠ 0 → ¬ Found (lives.flatMap Option.toList) a id) → p.stack a = some []) ∧
        ∀ id, id.line ≠ 0 → Found (lives.flatMap Option.toList) a id →
          ((∀ i t, Kept b.vaddr p.info.order i t → ¬ t.Has a) → p.stack a = some [
            { func := none, dir := id.dir, file := id.file, start := 0, line := id.line, discr := id.discr }]) ∧
          (∀ i t, Kept b.vaddr p.info.order i t → t.Has a → ∃ cs fs, p.stack a = some fs ∧
            InsideOut b.vaddr p.info.order a cs ∧ IsStack p.info id cs fs) := by
  obtain ⟨s, r, h1, h2, h3, h4⟩ := InlineHandler.inline_stacks_decoded (b.env m) .little b.addrSize hi secs us hat
    (by rw [hsecs]) D code lives hd hok hap
  refine ⟨⟨s.info, s.lm, r⟩, ?_, h2, h4⟩
  have hb : b.secs = secs := by rw [hsecs, Binary.secs, hinfo]; rfl
  unfold prepare
  rw [hm]
  simp only [Option.bind_eq_bind, Option.bind_some]
  rw [if_pos (by rw [hinfo]; exact List.length_pos_iff.2 hpos), hb, h1]
  simp only [Option.bind_some]
  have : populate b.vaddr s.info.order = some r := h3
  rw [this]
  rfl

/-- **C65, without `.debug_info`.** Every unit of `.debug_line` is read, and the stack of an address is one frame with its
source line, or nothing. -/
theorem lines_only (b : Binary) (hi : Nat) (m : RngMap) (hm : b.rsecs.headers = some m) (hinfo : b.info.getD [] = [])
    (us : List (Unit4 × List Nat × List (Option LSeq)))
    (hus : ∀ u ∈ us, Described .little b.addrSize 0 hi u.1 u.2.2 ∧ u.1.Enc .little b.addrSize u.2.1)
    (hs : b.line = some (us.flatMap (·.2.1)))
    (hap : ((us.flatMap fun u => u.2.2).flatMap Option.toList).Pairwise Disj) :
    ∃ p, prepare b = some p ∧ ∀ a, a < hi →
      ((∀ id, id.line ≠ 0 → ¬ Found ((us.flatMap fun u => u.2.2).flatMap Option.toList) a id) → p.stack a = some []) ∧
      ∀ id, id.line ≠ 0 → Found ((us.flatMap fun u => u.2.2).flatMap Option.toList) a id → p.stack a = some [
        { func := none, dir := id.dir, file := id.file, start := 0, line := id.line, discr := id.discr }] := by
  obtain ⟨evs, lm, h1, h2, h3⟩ := LineMap.address_to_line .little b.addrSize 0 hi us hus hap
  refine ⟨⟨⟨[], []⟩, lm, []⟩, ?_, ?_⟩
  · unfold prepare
    rw [hm, hinfo, hs]
    simp only [Option.bind_eq_bind, Option.bind_some, List.length_nil, gt_iff_lt, Nat.lt_irrefl, if_false]
    rw [h1, Option.bind_some, h2]
    rfl
  · intro a ha
    obtain ⟨g1, g2⟩ := h3 a ha
    refine ⟨?_, ?_⟩
    · intro hno
      show inlineStack _ _ _ _ = _
      unfold inlineStack
      cases hl : LineMap.lookup lm a with
      | none => exact absurd hl g1
      | some o =>
        cases o with
        | none => rfl
        | some id =>
          have := (g2 id).1 hl
          exact absurd this.2 (hno id this.1)
    · intro id hid hf
      show inlineStack _ _ _ _ = _
      unfold inlineStack
      rw [(g2 id).2 ⟨hid, hf⟩]
      rfl

/-! ## Concrete cases -/

/-- The sections of C63's example with the line table of C58's. -/
def exB : Binary :=
  { addrSize := 8, vaddr := 0x1000, line := some DwarfLine.exBytes, abbr := some InlineHandler.hxAbbrevBytes
    info := some InlineHandler.hxInfoBytes, str := none, ranges := none, addr := none, rnglists := none, lineStr := none }

/-- The hypotheses of `binary_stacks` hold for it, with `line_at`; at 0x1006 there is `f` inlined in `m`. -/
theorem exB_stack : ∃ p, prepare exB = some p ∧ ∃ cs fs, p.stack 0x1006 = some fs ∧ 0 ∈ cs ∧ 1 ∈ cs ∧
    InsideOut 0x1000 p.info.order 0x1006 cs ∧ IsStack p.info ⟨[], [99, 46, 104], 8, 3⟩ cs fs := by
  have hok := InlineHandler.hxInfo_ok
  rw [← InlineHandler.hxInfo_eq] at hok
  have hline := line_at exB [] DwarfLine.exUnit LineMap.ex_described.ok [] DwarfLine.exBytes [] DwarfLine.exUnit_enc (by simp [exB])
  obtain ⟨p, h1, h2, h4⟩ := binary_stacks exB (2 ^ 64 - 1) [] rfl [(InlineHandler.hxUnit, InlineHandler.hxInfoBytes)]
    InlineHandler.hxSecs (by simp [InlineHandler.hxSecs, exB]) InlineHandler.hxUnits_at (by simp [exB]) (by decide) InlineHandler.hxD InlineHandler.hxCode _
    (InlineHandler.hx_desc' (exB.env []) rfl rfl hline) hok LineMap.ex_disj
  rw [InlineHandler.hxInfo_eq] at h2
  refine ⟨p, h1, ?_⟩
  have h0 : Kept 0x1000 p.info.order 0 { InlineHandler.hxSubCall with parent := some 1 } := by
    rw [h2]
    refine ⟨rfl, ?_⟩
    decide +kernel
  have h0' : Kept 0x1000 p.info.order 1 InlineHandler.hxSubM := by
    rw [h2]
    refine ⟨rfl, ?_⟩
    decide +kernel
  have hin : ({ InlineHandler.hxSubCall with parent := some 1 } : Sub).Has 0x1006 := ⟨(0x1004, 0x1008), by decide, by decide, by decide⟩
  have hin' : InlineHandler.hxSubM.Has 0x1006 := ⟨(0x1000, 0x100a), by decide, by decide, by decide⟩
  have hf : Found ([some LineMap.exSeq1, some LineMap.exSeq2].flatMap Option.toList) 0x1006 ⟨[], [99, 46, 104], 8, 3⟩ := by
    refine ⟨[], LineMap.exSeq1, [LineMap.exSeq2], rfl, ⟨[_], 0x1006, [], rfl, by decide, by simp, by decide⟩, ?_⟩
    intro t ht h
    rw [List.mem_singleton] at ht
    subst ht
    revert h
    decide
  obtain ⟨cs, fs, g1, g2, g3⟩ := ((h4 0x1006 (by decide)).2 _ (by decide) hf).2 0 _ h0 hin
  exact ⟨cs, fs, g1, (g2.all 0).2 ⟨_, h0, hin⟩, (g2.all 1).2 ⟨_, h0', hin'⟩, g2, g3⟩

/-- The same binary without `.debug_info` and `.debug_abbrev`: the line alone. -/
theorem exB_lines : ∃ p, prepare { exB with info := none, abbr := none } = some p ∧ p.stack 0x1006 =
    some [{ func := none, dir := [], file := [99, 46, 104], start := 0, line := 8, discr := 3 }] := by
  have hdesc : Described .little 8 0 (2 ^ 64 - 1) DwarfLine.exUnit [some LineMap.exSeq1, some LineMap.exSeq2] :=
    { ok := LineMap.ex_described.ok
      closed := LineMap.exUnit_closed
      seqs := .cons ⟨fun s hs => by cases hs; exact ⟨LineMap.exIsSeq1, LineMap.exSeq1_ok, by decide, by decide⟩, fun h => by cases h⟩
        (.cons ⟨fun s hs => by cases hs; exact ⟨LineMap.exIsSeq2, LineMap.exSeq2_ok, by decide, by decide⟩, fun h => by cases h⟩ .nil) }
  obtain ⟨p, h1, h2⟩ := lines_only { exB with info := none, abbr := none } (2 ^ 64 - 1) [] rfl rfl
    [(DwarfLine.exUnit, DwarfLine.exBytes, [some LineMap.exSeq1, some LineMap.exSeq2])]
    (by
      intro u hu
      rw [List.mem_singleton] at hu
      subst hu
      exact ⟨hdesc, DwarfLine.exUnit_enc⟩) (by simp [exB]) (by simpa using LineMap.ex_disj)
  refine ⟨p, h1, (h2 0x1006 (by decide)).2 ⟨[], [99, 46, 104], 8, 3⟩ (by decide) ?_⟩
  refine ⟨[], LineMap.exSeq1, [LineMap.exSeq2], by simp, ⟨[_], 0x1006, [], rfl, by decide, by simp, by decide⟩, ?_⟩
  intro t ht h
  rw [List.mem_singleton] at ht
  subst ht
  revert h
  decide

/-! ## Departures from the standard -/

/-- A binary of DWARF 5 whose unit has its addresses at 8 (`DW_AT_addr_base`): a list by offset with the address number 0
(0x1000) and the length 16, `[3, 0, 16, 0]`. -/
def exB5 : Binary :=
  { addrSize := 8, vaddr := 0x1000, line := none, abbr := none, info := none, str := none, ranges := none, lineStr := none
    addr := some ([12, 0, 0, 0, 5, 0, 8, 0] ++ [0, 0x10, 0, 0, 0, 0, 0, 0])
    rnglists := some (Contrib.bytes .little ⟨false, 8, 0, [], [3, 0, 16, 0]⟩) }

/-- By offset, an address by number is taken from the start of `.debug_addr` whatever the unit says. -/
theorem offset_list_addr_base_violated : ∃ m, exB5.rsecs.headers = some m ∧
    (exB5.env m).ranges 5 12 0 = some [(0x800050000000c, 0x800050000001c)] := by
  refine ⟨_, headers_read exB5.rsecs [⟨false, 8, 0, [], [3, 0, 16, 0]⟩] (by simp) ?_ (by simp [exB5, Binary.rsecs]), by decide +kernel⟩
  intro c hc
  rw [List.mem_singleton] at hc
  subst hc
  exact ⟨by decide, by decide, by decide, by decide⟩

end Verif.Addr2Line

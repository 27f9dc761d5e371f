import Verif.DwarfLine

/-! # C58: specification of line number programs (DWARF 5, section 6.2.5) and their decoding

The specification works with unbounded registers; the theorem says that what the reader reports are these
rows, narrowed to the widths of the handler's parameters. -/
namespace Verif.DwarfLine
open Verif.ByteReader

/-- `bs` is an unsigned LEB128 encoding of the 64-bit value `v`, possibly padded, of at most ten bytes. -/
def IsU (v : Nat) (bs : List Nat) : Prop :=
  v < 2 ^ 64 ∧ ∃ ds, ds ≠ [] ∧ (∀ d ∈ ds, d < 128) ∧ ds.length ≤ 10 ∧ value ds = v ∧ bs = encodeDigits ds

/-- `bs` is a signed LEB128 encoding of the 64-bit value `v`, possibly padded, of at most ten bytes. -/
def IsS (v : Int) (bs : List Nat) : Prop :=
  -2 ^ 63 ≤ v ∧ v < 2 ^ 63 ∧
  ∃ ds, ds ≠ [] ∧ (∀ d ∈ ds, d < 128) ∧ ds.length ≤ 10 ∧ signedValue ds = v ∧ bs = encodeDigits ds

/-- Consecutive unsigned LEB128 numbers. -/
def IsUs : List Nat → List Nat → Prop
  | [], bs => bs = []
  | v :: vs, bs => ∃ a b, IsU v a ∧ IsUs vs b ∧ bs = a ++ b

/-- The registers of the state machine that are reported to the handler (DWARF 5, 6.2.2). -/
structure Regs where
  address : Nat
  file : Nat
  line : Int
  column : Nat
  discr : Nat
deriving DecidableEq, Repr

/-- Their values at the start of a sequence. -/
def Regs.init : Regs := { address := 0, file := 1, line := 1, column := 0, discr := 0 }

/-- Instructions other than `DW_LNE_end_sequence`.  `other` are the standard opcodes without effect on the
reported registers: `DW_LNS_set_prologue_end`, `DW_LNS_set_epilogue_begin`, `DW_LNS_set_isa` and those
unknown to the reader; `otherExt` likewise for extended opcodes. -/
inductive Instr where
  | special (op : Nat)
  | copy
  | advancePc (n : Nat)
  | advanceLine (d : Int)
  | setFile (n : Nat)
  | setColumn (n : Nat)
  | negateStmt
  | setBasicBlock
  | constAddPc
  | fixedAdvancePc (n : Nat)
  | setAddress (a : Nat)
  | setDiscriminator (n : Nat)
  | defineFile (name : List Nat) (dir mtime length : Nat)
  | other (op : Nat) (args : List Nat)
  | otherExt (op : Nat) (payload : List Nat)
deriving DecidableEq, Repr

/-- What a line program defines: rows of the line table and files. -/
inductive Out where
  | row (r : Regs) (endSeq : Bool)
  | file (name : List Nat) (dir mtime length : Nat)
deriving DecidableEq, Repr

/-- A special opcode advances the address and the line (DWARF 5, 6.2.5.1). -/
def Regs.special (h : Hdr) (op : Nat) (r : Regs) : Regs :=
  { r with address := r.address + h.minInsn * ((op - h.opcodeBase) / h.lineRange)
           line := r.line + (h.lineBase + ((op - h.opcodeBase) % h.lineRange : Nat)) }

/-- Effect of an instruction on the registers and the rows it appends. -/
def Instr.exec (h : Hdr) : Instr → Regs → Regs × List Out
  | .special op, r => ({ r.special h op with discr := 0 }, [.row (r.special h op) false])
  | .copy, r => ({ r with discr := 0 }, [.row r false])
  | .advancePc n, r => ({ r with address := r.address + h.minInsn * n }, [])
  | .advanceLine d, r => ({ r with line := r.line + d }, [])
  | .setFile n, r => ({ r with file := n }, [])
  | .setColumn n, r => ({ r with column := n }, [])
  | .constAddPc, r => ({ r with address := r.address + h.minInsn * ((255 - h.opcodeBase) / h.lineRange) }, [])
  | .fixedAdvancePc n, r => ({ r with address := r.address + n }, [])
  | .setAddress a, r => ({ r with address := a }, [])
  | .setDiscriminator n, r => ({ r with discr := n }, [])
  | .defineFile name dir mtime length, r => (r, [.file name dir mtime length])
  | .negateStmt, r | .setBasicBlock, r | .other _ _, r | .otherExt _ _, r => (r, [])

/-- Meaning of a sequence: its instructions followed by `DW_LNE_end_sequence`. -/
def seqMeaning (h : Hdr) : List Instr → Regs → List Out
  | [], r => [.row r true]
  | i :: is, r => (i.exec h r).2 ++ seqMeaning h is (i.exec h r).1

/-- Meaning of a line program: its sequences in order, each starting from the initial registers. -/
def meaning (h : Hdr) (p : List (List Instr)) : List Out := p.flatMap fun s => seqMeaning h s Regs.init

/-- Encoding of an instruction (DWARF 5, 6.2.5.1-6.2.5.3).  Opcodes 13 to 15 are not standard; the reader
expects one, two and no operands for them. -/
def Instr.Enc (h : Hdr) : Instr → List Nat → Prop
  | .special op, bs => h.opcodeBase ≤ op ∧ op < 256 ∧ bs = [op]
  | .copy, bs => 1 < h.opcodeBase ∧ bs = [1]
  | .advancePc n, bs => 2 < h.opcodeBase ∧ ∃ b, IsU n b ∧ bs = 2 :: b
  | .advanceLine d, bs => 3 < h.opcodeBase ∧ ∃ b, IsS d b ∧ bs = 3 :: b
  | .setFile n, bs => 4 < h.opcodeBase ∧ ∃ b, IsU n b ∧ bs = 4 :: b
  | .setColumn n, bs => 5 < h.opcodeBase ∧ ∃ b, IsU n b ∧ bs = 5 :: b
  | .negateStmt, bs => 6 < h.opcodeBase ∧ bs = [6]
  | .setBasicBlock, bs => 7 < h.opcodeBase ∧ bs = [7]
  | .constAddPc, bs => 8 < h.opcodeBase ∧ bs = [8]
  | .fixedAdvancePc n, bs => 9 < h.opcodeBase ∧ n < 2 ^ 16 ∧ bs = 9 :: encodeFixed h.endian 2 n
  | .other op args, bs => 10 ≤ op ∧ op < h.opcodeBase ∧ h.stdLens[op]? = some args.length ∧
      (op = 13 → args.length = 1) ∧ (op = 14 → args.length = 2) ∧ (op = 15 → args.length = 0) ∧
      ∃ b, IsUs args b ∧ bs = op :: b
  | .setAddress a, bs => a < 256 ^ h.addrSize ∧
      ∃ b, IsU (1 + h.addrSize) b ∧ bs = 0 :: b ++ 2 :: encodeFixed h.endian h.addrSize a
  | .defineFile name dir mtime length, bs => (∀ c ∈ name, c ≠ 0) ∧ dir < 2 ^ 32 ∧
      ∃ b b1 b2 b3, IsU dir b1 ∧ IsU mtime b2 ∧ IsU length b3 ∧
        IsU (1 + (name ++ 0 :: b1 ++ b2 ++ b3).length) b ∧ bs = 0 :: b ++ 3 :: (name ++ 0 :: b1 ++ b2 ++ b3)
  | .setDiscriminator n, bs => ∃ b b1, IsU n b1 ∧ IsU (1 + b1.length) b ∧ bs = 0 :: b ++ 4 :: b1
  | .otherExt op payload, bs => op ≠ 1 ∧ op ≠ 2 ∧ op ≠ 3 ∧ op ≠ 4 ∧
      ∃ b, IsU (1 + payload.length) b ∧ bs = 0 :: b ++ op :: payload

/-- Encoding of a sequence, with the final `DW_LNE_end_sequence`. -/
def SeqEnc (h : Hdr) : List Instr → List Nat → Prop
  | [], bs => ∃ b, IsU 1 b ∧ bs = 0 :: b ++ [1]
  | i :: is, bs => ∃ a b, i.Enc h a ∧ SeqEnc h is b ∧ bs = a ++ b

/-- Encoding of a line program. -/
def ProgEnc (h : Hdr) : List (List Instr) → List Nat → Prop
  | [], bs => bs = []
  | s :: p, bs => ∃ a b, SeqEnc h s a ∧ ProgEnc h p b ∧ bs = a ++ b

/-- Headers for which the standard defines the line program. -/
structure Hdr.Ok (h : Hdr) : Prop where
  base : 1 ≤ h.opcodeBase
  base' : h.opcodeBase ≤ 255
  range : 0 < h.lineRange
  addr : h.addrSize = 4 ∨ h.addrSize = 8

/-- What the handler is told about a row: the address modulo 2^64, everything else modulo 2^32. -/
def Out.narrow : Out → Ev
  | .row r e => .line (r.address % 2 ^ 64) (r.file % 2 ^ 32) (r.line % 2 ^ 32).toNat (r.column % 2 ^ 32)
      (r.discr % 2 ^ 32) e
  | .file name dir mtime length => .file name (-1) dir mtime length

/-! ## Proof -/

theorem IsU.read {v : Nat} {bs : List Nat} (h : IsU v bs) (rest : List Nat) :
    readU (bs ++ rest) = some (v, bs.length) := by
  obtain ⟨hv, ds, h1, h2, h3, h4, rfl⟩ := h
  have e := uleb_decode ds rest h1 h2 h3
  rw [e, h4, Nat.mod_eq_of_lt hv]
  congr 2
  clear e h4 h3 h2 rest
  induction ds with
  | nil => rfl
  | cons d ds ih =>
    cases ds with
    | nil => rfl
    | cons d' ds => simp only [encodeDigits, List.length_cons] at ih ⊢; rw [ih (by simp)]

theorem encodeDigits_len (ds : List Nat) : (encodeDigits ds).length = ds.length := by
  induction ds with
  | nil => rfl
  | cons d ds ih =>
    cases ds with
    | nil => rfl
    | cons d' ds => simp only [encodeDigits, List.length_cons] at ih ⊢; rw [ih]

theorem IsS.read {v : Int} {bs : List Nat} (h : IsS v bs) (rest : List Nat) :
    readS (bs ++ rest) = some (v, bs.length) := by
  obtain ⟨hv, hv', ds, h1, h2, h3, h4, rfl⟩ := h
  rw [sleb_decode ds rest h1 h2 h3 (by rw [h4]; exact hv) (by rw [h4]; exact hv'), h4, encodeDigits_len]

/-- A signed read of an unsigned number consumes the same bytes. -/
theorem IsU.readS {v : Nat} {bs : List Nat} (h : IsU v bs) (rest : List Nat) :
    ∃ x, readS (bs ++ rest) = some (x, bs.length) := by
  have h1 := h.read rest
  unfold readU at h1
  unfold ByteReader.readS
  cases hl : lebLoop (bs ++ rest) 0 0 0 with
  | none => rw [hl] at h1; simp at h1
  | some r =>
    obtain ⟨a, b, c, d⟩ := r
    rw [hl] at h1
    simp only [Option.map_some, Option.some.injEq, Prod.mk.injEq] at h1 ⊢
    exact ⟨_, rfl, h1.2⟩

theorem IsUs.skip {vs bs : List Nat} (h : IsUs vs bs) (rest : List Nat) :
    skipLebs vs.length (bs ++ rest) = some bs.length := by
  induction vs generalizing bs with
  | nil => simp only [IsUs] at h; subst h; rfl
  | cons v vs ih =>
    obtain ⟨a, b, ha, hb, rfl⟩ := h
    simp only [List.length_cons, skipLebs, List.append_assoc, ha.read, Option.bind_eq_bind, Option.bind_some]
    rw [List.drop_left, ih hb]
    simp

/-- The state of the reader represents the registers. -/
structure Sim (s : Lsm) (r : Regs) : Prop where
  address : s.address = r.address % 2 ^ 64
  line : (s.line : Int) = r.line % 2 ^ 64
  file : s.file = r.file % 2 ^ 32
  column : s.column = r.column % 2 ^ 32
  discr : s.discr = r.discr % 2 ^ 32
  endSeq : s.endSeq = false

theorem mod_mod_32 (x : Int) (w : Nat) (h : (w : Int) = x % 2 ^ 64) :
    w % 2 ^ 32 = (x % 2 ^ 32).toNat := by
  norm_num at *
  omega

theorem Sim.row {s : Lsm} {r : Regs} (h : Sim s r) : s.row = (Out.row r false).narrow := by
  simp only [Lsm.row, Out.narrow]
  rw [h.address, h.file, h.column, h.discr, h.endSeq, mod_mod_32 _ _ h.line]

theorem addInt64_eq (w : Nat) (x d : Int) (h : (w : Int) = x % 2 ^ 64) :
    (addInt64 w d : Int) = (x + d) % 2 ^ 64 := by
  unfold addInt64
  rw [Int.toNat_of_nonneg (Int.emod_nonneg _ (by norm_num)), h, Int.emod_add_emod]

theorem cstr_spec (name rest : List Nat) (h : ∀ c ∈ name, c ≠ 0) :
    cstr (name ++ 0 :: rest) = some (name, rest) := by
  induction name with
  | nil => simp [cstr]
  | cons c name ih =>
    simp only [List.cons_append, cstr]
    rw [if_neg (h c List.mem_cons_self), ih (fun x hx => h x (List.mem_cons_of_mem _ hx))]
    rfl

theorem encodeFixed_len (e : Endian) (n v : Nat) : (encodeFixed e n v).length = n := by
  have h : ∀ n v, (leBytes n v).length = n := by
    intro n
    induction n with
    | zero => intro v; rfl
    | succ n ih => intro v; simp [leBytes, ih]
  cases e <;> simp [encodeFixed, h]

/-- The state after the row, if any, has been reported. -/
def afterRow (add : Bool) (s : Lsm) : Lsm := if add then { s with basicBlock := false, discr := 0 } else s

theorem processOp_spec {h : Hdr} (hok : h.Ok) (i : Instr) {bs : List Nat} (henc : i.Enc h bs) {s : Lsm}
    {r : Regs} (hs : Sim s r) (rest : List Nat) :
    ∃ add s' evs, processOp h (bs ++ rest) s = some (add, s', bs.length, evs) ∧
      evs ++ (if add then [s'.row] else []) = (i.exec h r).2.map Out.narrow ∧
      Sim (afterRow add s') (i.exec h r).1 ∧ 0 < bs.length := by
  have hb := hok.base
  have hb' := hok.base'
  have hr : h.lineRange ≠ 0 := by have := hok.range; omega
  cases i with
  | special op =>
    obtain ⟨h1, h2, rfl⟩ := henc
    have hsim : Sim { s with
        address := (s.address + (op - h.opcodeBase) / h.lineRange * h.minInsn) % 2 ^ 64
        line := addInt64 s.line (((op - h.opcodeBase) % h.lineRange : Nat) + h.lineBase)
        basicBlock := true } (r.special h op) :=
      { address := by
          simp only [Regs.special]
          rw [hs.address, Nat.mod_add_mod, Nat.mul_comm h.minInsn]
        line := by
          simp only [Regs.special]
          rw [addInt64_eq _ _ _ hs.line]
          congr 2
          ring
        file := hs.file, column := hs.column, discr := hs.discr, endSeq := hs.endSeq }
    refine ⟨true, { s with
        address := (s.address + (op - h.opcodeBase) / h.lineRange * h.minInsn) % 2 ^ 64
        line := addInt64 s.line (((op - h.opcodeBase) % h.lineRange : Nat) + h.lineBase)
        basicBlock := true }, [], ?_, ?_, ?_, by simp⟩
    · simp only [List.cons_append, List.nil_append, processOp]
      rw [if_pos h1, if_neg hr]
      rfl
    · simp only [List.nil_append, if_true, Instr.exec, List.map_cons, List.map_nil]
      rw [hsim.row]
    · exact { address := hsim.address, line := hsim.line, file := hsim.file, column := hsim.column,
              discr := rfl, endSeq := hsim.endSeq }
  | copy =>
    obtain ⟨h1, rfl⟩ := henc
    refine ⟨true, { s with basicBlock := false }, [], ?_, ?_, ?_, by simp⟩
    · simp only [List.cons_append, List.nil_append, processOp]
      rw [if_neg (by omega), if_pos trivial]
      rfl
    · have hsim : Sim { s with basicBlock := false } r :=
        { address := hs.address, line := hs.line, file := hs.file, column := hs.column,
          discr := hs.discr, endSeq := hs.endSeq }
      simp only [List.nil_append, if_true, Instr.exec, List.map_cons, List.map_nil]
      rw [hsim.row]
    · exact { address := hs.address, line := hs.line, file := hs.file, column := hs.column,
              discr := rfl, endSeq := hs.endSeq }
  | advancePc n =>
    obtain ⟨h1, b, hn, rfl⟩ := henc
    refine ⟨false, { s with address := (s.address + h.minInsn * n) % 2 ^ 64 }, [], ?_, rfl, ?_, by simp⟩
    · simp only [List.cons_append, processOp]
      rw [if_neg (by omega), if_neg (by omega), if_pos trivial, hn.read]
      simp [Nat.add_comm]
    · exact { address := (by
                simp only [Instr.exec, afterRow, Bool.false_eq_true, if_false]
                rw [hs.address, Nat.mod_add_mod])
              line := hs.line, file := hs.file, column := hs.column,
              discr := hs.discr, endSeq := hs.endSeq }
  | advanceLine d =>
    obtain ⟨h1, b, hn, rfl⟩ := henc
    refine ⟨false, { s with line := addInt64 s.line d }, [], ?_, rfl, ?_, by simp⟩
    · simp only [List.cons_append, processOp]
      rw [if_neg (by omega), if_neg (by omega), if_neg (by omega), if_pos trivial, hn.read]
      simp [Nat.add_comm]
    · exact { address := hs.address, line := addInt64_eq _ _ _ hs.line, file := hs.file,
              column := hs.column, discr := hs.discr, endSeq := hs.endSeq }
  | setFile n =>
    obtain ⟨h1, b, hn, rfl⟩ := henc
    refine ⟨false, { s with file := n % 2 ^ 32 }, [], ?_, rfl, ?_, by simp⟩
    · simp only [List.cons_append, processOp]
      rw [if_neg (by omega), if_neg (by omega), if_neg (by omega), if_neg (by omega), if_pos trivial, hn.read]
      simp [Nat.add_comm]
    · exact { address := hs.address, line := hs.line, file := rfl,
              column := hs.column, discr := hs.discr, endSeq := hs.endSeq }
  | setColumn n =>
    obtain ⟨h1, b, hn, rfl⟩ := henc
    refine ⟨false, { s with column := n % 2 ^ 32 }, [], ?_, rfl, ?_, by simp⟩
    · simp only [List.cons_append, processOp]
      rw [if_neg (by omega), if_neg (by omega), if_neg (by omega), if_neg (by omega), if_neg (by omega),
        if_pos trivial, hn.read]
      simp [Nat.add_comm]
    · exact { address := hs.address, line := hs.line, file := hs.file,
              column := rfl, discr := hs.discr, endSeq := hs.endSeq }
  | negateStmt =>
    obtain ⟨h1, rfl⟩ := henc
    refine ⟨false, { s with isStmt := !s.isStmt }, [], ?_, rfl, ?_, by simp⟩
    · simp only [List.cons_append, List.nil_append, processOp]
      rw [if_neg (by omega)]
      rfl
    · exact { address := hs.address, line := hs.line, file := hs.file,
              column := hs.column, discr := hs.discr, endSeq := hs.endSeq }
  | setBasicBlock =>
    obtain ⟨h1, rfl⟩ := henc
    refine ⟨false, { s with basicBlock := true }, [], ?_, rfl, ?_, by simp⟩
    · simp only [List.cons_append, List.nil_append, processOp]
      rw [if_neg (by omega)]
      rfl
    · exact { address := hs.address, line := hs.line, file := hs.file,
              column := hs.column, discr := hs.discr, endSeq := hs.endSeq }
  | constAddPc =>
    obtain ⟨h1, rfl⟩ := henc
    refine ⟨false, { s with
      address := (s.address + h.minInsn * ((255 - h.opcodeBase) / h.lineRange)) % 2 ^ 64 }, [], ?_, rfl, ?_,
      by simp⟩
    · simp only [List.cons_append, List.nil_append, processOp]
      rw [if_neg (by omega), if_neg (by omega), if_neg (by omega), if_neg (by omega), if_neg (by omega),
        if_neg (by omega), if_neg (by omega), if_neg (by omega), if_pos trivial, if_neg hr]
      rfl
    · exact { address := (by
                simp only [Instr.exec, afterRow, Bool.false_eq_true, if_false]
                rw [hs.address, Nat.mod_add_mod])
              line := hs.line, file := hs.file, column := hs.column,
              discr := hs.discr, endSeq := hs.endSeq }
  | fixedAdvancePc n =>
    obtain ⟨h1, hn, rfl⟩ := henc
    refine ⟨false, { s with address := (s.address + n) % 2 ^ 64 }, [], ?_, rfl, ?_, by simp⟩
    · simp only [List.cons_append, processOp]
      rw [if_neg (by omega), if_neg (by omega), if_neg (by omega), if_neg (by omega), if_neg (by omega),
        if_neg (by omega), if_neg (by omega), if_neg (by omega), if_neg (by omega), if_pos trivial,
        fixed_roundtrip h.endian 2 n (by omega) (by norm_num at hn ⊢; exact hn)]
      simp [encodeFixed_len]
    · exact { address := (by
                simp only [Instr.exec, afterRow, Bool.false_eq_true, if_false]
                rw [hs.address, Nat.mod_add_mod])
              line := hs.line, file := hs.file, column := hs.column,
              discr := hs.discr, endSeq := hs.endSeq }
  | setAddress a =>
    obtain ⟨ha, b, hb1, rfl⟩ := henc
    refine ⟨false, { s with address := a }, [], ?_, rfl, ?_, by simp⟩
    · simp only [List.cons_append, List.append_assoc, processOp]
      rw [if_neg (by omega), if_neg (by omega), if_neg (by omega), if_neg (by omega), if_neg (by omega),
        if_neg (by omega), if_neg (by omega), if_neg (by omega), if_neg (by omega), if_neg (by omega),
        if_neg (by omega), if_neg (by omega), if_neg (by omega), if_pos trivial, hb1.read]
      simp only [Option.bind_eq_bind, Option.bind_some, List.drop_left, extendedOp]
      rw [if_neg (by omega), if_pos trivial, fixed_roundtrip h.endian _ a (by have := hok.addr; omega) ha]
      simp [encodeFixed_len]
      omega
    · have ha' : a < 2 ^ 64 := by
        rcases hok.addr with h4 | h4 <;> rw [h4] at ha <;> norm_num at ha ⊢ <;> omega
      exact { address := (Nat.mod_eq_of_lt ha').symm
              line := hs.line, file := hs.file, column := hs.column,
              discr := hs.discr, endSeq := hs.endSeq }
  | setDiscriminator n =>
    obtain ⟨b, b1, hn, hb1, rfl⟩ := henc
    refine ⟨false, { s with discr := n % 2 ^ 32 }, [], ?_, rfl, ?_, by simp⟩
    · simp only [List.cons_append, List.append_assoc, processOp]
      rw [if_neg (by omega), if_neg (by omega), if_neg (by omega), if_neg (by omega), if_neg (by omega),
        if_neg (by omega), if_neg (by omega), if_neg (by omega), if_neg (by omega), if_neg (by omega),
        if_neg (by omega), if_neg (by omega), if_neg (by omega), if_pos trivial, hb1.read]
      simp only [Option.bind_eq_bind, Option.bind_some, List.drop_left, extendedOp]
      rw [if_neg (by omega), if_neg (by omega), if_neg (by omega), if_pos trivial, hn.read]
      simp
      omega
    · exact { address := hs.address, line := hs.line, file := hs.file, column := hs.column,
              discr := rfl, endSeq := hs.endSeq }
  | defineFile name dir mtime length =>
    obtain ⟨hname, hdir, b, b1, b2, b3, h1, h2, h3, hb1, rfl⟩ := henc
    refine ⟨false, s, [.file name (-1) dir mtime length], ?_, rfl, ?_, by simp⟩
    · simp only [List.cons_append, List.append_assoc, processOp]
      rw [if_neg (by omega), if_neg (by omega), if_neg (by omega), if_neg (by omega), if_neg (by omega),
        if_neg (by omega), if_neg (by omega), if_neg (by omega), if_neg (by omega), if_neg (by omega),
        if_neg (by omega), if_neg (by omega), if_neg (by omega), if_pos trivial, hb1.read]
      simp only [Option.bind_eq_bind, Option.bind_some, List.drop_left, extendedOp]
      rw [if_neg (by omega), if_neg (by omega), if_pos trivial, cstr_spec _ _ hname]
      simp only [Option.bind_some, h1.read, List.drop_left, h2.read, h3.read, Nat.mod_eq_of_lt hdir]
      simp
      omega
    · exact { address := hs.address, line := hs.line, file := hs.file, column := hs.column,
              discr := hs.discr, endSeq := hs.endSeq }
  | other op args =>
    obtain ⟨h1, h2, h3, h13, h14, h15, b, hb1, rfl⟩ := henc
    refine ⟨false, s, [], ?_, rfl, ?_, by simp⟩
    · simp only [List.cons_append, processOp]
      rw [if_neg (by omega), if_neg (by omega), if_neg (by omega), if_neg (by omega), if_neg (by omega),
        if_neg (by omega), if_neg (by omega), if_neg (by omega), if_neg (by omega), if_neg (by omega)]
      by_cases e13 : op = 13
      · rw [if_pos e13]
        match args, h13 e13, hb1 with
        | [v], _, hb1 =>
          obtain ⟨a, c, ha, hc, rfl⟩ := hb1
          simp only [IsUs] at hc
          subst hc
          rw [List.append_nil]
          obtain ⟨x, hx⟩ := ha.readS rest
          rw [hx]
          simp [Nat.add_comm]
      rw [if_neg e13]
      by_cases e14 : op = 14
      · rw [if_pos e14]
        match args, h14 e14, hb1 with
        | [v, v'], _, hb1 =>
          obtain ⟨a, c, ha, ⟨a', c', ha', hc', rfl⟩, rfl⟩ := hb1
          simp only [IsUs] at hc'
          subst hc'
          rw [List.append_nil, List.append_assoc]
          obtain ⟨x, hx⟩ := ha.readS (a' ++ rest)
          rw [hx]
          simp only [Option.bind_eq_bind, Option.bind_some, List.drop_left, ha'.read]
          simp
          omega
      rw [if_neg e14]
      by_cases e15 : op = 15
      · rw [if_pos e15]
        match args, h15 e15, hb1 with
        | [], _, hb1 =>
          simp only [IsUs] at hb1
          subst hb1
          rfl
      rw [if_neg e15, if_neg (by omega), h3]
      simp only [Option.bind_eq_bind, Option.bind_some, hb1.skip]
      simp [Nat.add_comm]
    · exact { address := hs.address, line := hs.line, file := hs.file, column := hs.column,
              discr := hs.discr, endSeq := hs.endSeq }
  | otherExt op payload =>
    obtain ⟨h1, h2, h3, h4, b, hb1, rfl⟩ := henc
    refine ⟨false, s, [], ?_, rfl, ?_, by simp⟩
    · simp only [List.cons_append, List.append_assoc, processOp]
      rw [if_neg (by omega), if_neg (by omega), if_neg (by omega), if_neg (by omega), if_neg (by omega),
        if_neg (by omega), if_neg (by omega), if_neg (by omega), if_neg (by omega), if_neg (by omega),
        if_neg (by omega), if_neg (by omega), if_neg (by omega), if_pos trivial, hb1.read]
      simp only [Option.bind_eq_bind, Option.bind_some, List.drop_left, extendedOp]
      rw [if_neg h1, if_neg h2, if_neg h3, if_neg h4]
      simp
      omega
    · exact { address := hs.address, line := hs.line, file := hs.file, column := hs.column,
              discr := hs.discr, endSeq := hs.endSeq }

theorem processOp_end {h : Hdr} (hok : h.Ok) {b : List Nat} (hb : IsU 1 b) (s : Lsm) (rest : List Nat) :
    processOp h ((0 :: b ++ [1]) ++ rest) s = some (true, { s with endSeq := true }, (0 :: b ++ [1]).length, []) := by
  have hb0 := hok.base
  simp only [List.cons_append, List.append_assoc, List.nil_append, processOp]
  rw [if_neg (by omega), if_neg (by omega), if_neg (by omega), if_neg (by omega), if_neg (by omega),
    if_neg (by omega), if_neg (by omega), if_neg (by omega), if_neg (by omega), if_neg (by omega),
    if_neg (by omega), if_neg (by omega), if_neg (by omega), if_pos trivial, hb.read]
  simp only [Option.bind_eq_bind, Option.bind_some, List.drop_left, extendedOp]
  simp
  omega

theorem readSeq_spec {h : Hdr} (hok : h.Ok) (is : List Instr) {bs : List Nat} (henc : SeqEnc h is bs)
    {s : Lsm} {r : Regs} (hs : Sim s r) (rest : List Nat) (fuel : Nat) (hf : bs.length < fuel) :
    readSeq h fuel (bs ++ rest) s = some (bs.length, (seqMeaning h is r).map Out.narrow) := by
  induction is generalizing bs s r fuel with
  | nil =>
    obtain ⟨b, hb, rfl⟩ := henc
    match fuel, hf with
    | fuel + 2, _ =>
      simp only [readSeq]
      rw [if_neg (by rw [hs.endSeq]; simp)]
      rw [processOp_end hok hb]
      simp only [if_true, seqMeaning, List.map_cons, List.map_nil, Out.narrow, Lsm.row]
      rw [hs.address, hs.file, hs.column, hs.discr, mod_mod_32 _ _ hs.line]
      simp
    | 1, hf => simp at hf
  | cons i is ih =>
    obtain ⟨a, b, ha, hb, rfl⟩ := henc
    match fuel, hf with
    | fuel + 1, hf =>
      obtain ⟨add, s', evs, h1, h2, h3, h4⟩ := processOp_spec hok i ha hs (b ++ rest)
      simp only [readSeq]
      rw [if_neg (by rw [hs.endSeq]; simp), List.append_assoc, h1]
      simp only [List.drop_left]
      have := ih hb h3 fuel (by simp only [List.length_append] at hf; omega)
      unfold afterRow at this
      rw [this]
      simp only [seqMeaning, List.map_append, ← h2, List.length_append]

theorem sim_reset (b : Bool) : Sim (Lsm.reset b) Regs.init :=
  { address := rfl, line := rfl, file := rfl, column := rfl, discr := rfl, endSeq := rfl }

theorem seqEnc_pos {h : Hdr} (hok : h.Ok) (is : List Instr) {bs : List Nat} (henc : SeqEnc h is bs) :
    0 < bs.length := by
  induction is generalizing bs with
  | nil => obtain ⟨b, _, rfl⟩ := henc; simp
  | cons i is ih =>
    obtain ⟨a, b, _, hb, rfl⟩ := henc
    have := ih hb
    simp only [List.length_append]
    omega

/-- **C58, the line program.** For every header, every line program made of complete sequences and every
encoding of it (with padded numbers or not), whatever follows it in the section, the reader consumes exactly
the program and reports exactly its rows and files, in order. -/
theorem lines_decoded {h : Hdr} (hok : h.Ok) (p : List (List Instr)) {bs : List Nat} (henc : ProgEnc h p bs)
    (rest : List Nat) :
    readLines h bs.length (bs ++ rest) = some ((meaning h p).map Out.narrow) := by
  unfold readLines
  suffices H : ∀ fuel, bs.length < fuel →
      readSeqs h fuel bs.length (bs ++ rest) = some ((meaning h p).map Out.narrow) from H _ (by omega)
  induction p generalizing bs with
  | nil =>
    simp only [ProgEnc] at henc
    subst henc
    intro fuel hf
    match fuel, hf with
    | fuel + 1, _ => rfl
  | cons s p ih =>
    obtain ⟨a, b, ha, hb, rfl⟩ := henc
    intro fuel hf
    have hpos := seqEnc_pos hok s ha
    match fuel, hf with
    | fuel + 1, hf =>
      simp only [readSeqs]
      simp only [List.length_append] at hf ⊢
      rw [if_neg (by omega), List.append_assoc, readSeq_spec hok s ha (sim_reset _) (b ++ rest) _
        (by omega)]
      simp only [List.drop_left]
      rw [show a.length + b.length - a.length = b.length by omega, ih hb fuel (by omega)]
      simp only [meaning, List.flatMap_cons, List.map_append]

end Verif.DwarfLine

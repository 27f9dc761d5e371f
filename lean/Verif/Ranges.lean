import Verif.ByteReader

/-! # C40: DWARF range lists (util/symbolize/dwarf3ranges.cc)

`none`: a `CHECK` fails, `LOG(FATAL)`, or undefined behaviour (reading outside a section). -/
namespace Verif.Ranges
open Verif.ByteReader

/-- 64-bit addition. -/
def add64 (a b : Nat) : Nat := (a + b) % 2 ^ 64

/-- Ranges read so far. -/
abbrev RangeList := List (Nat × Nat)

/-! ## Before DWARF 5 -/

/-- `largest_address` (dwarf3ranges.cc:40-46). -/
def largest (w : Nat) : Nat := 256 ^ w - 1

/-- The loop of `ReadDwarfRangeList` (dwarf3ranges.cc:48-61) on the bytes from `pos` to the end of the
section; `w` is the address width. -/
def readV4 (e : Endian) (w : Nat) : Nat → List Nat → Nat → RangeList → Option RangeList
  | 0, _, _, _ => none
  | fuel + 1, bs, base, acc =>
    if bs.length < 2 * w then none
    else
      match readFixed e w bs, readFixed e w (bs.drop w) with
      | some start, some stop =>
        if start = largest w then readV4 e w fuel (bs.drop (2 * w)) stop acc
        else if start = 0 ∧ stop = 0 then some acc
        else readV4 e w fuel (bs.drop (2 * w)) base (acc ++ [(add64 start base, add64 stop base)])
      | _, _ => none

/-- `ReadDwarfRangeList` (dwarf3ranges.cc:35-62): only 4 and 8 byte addresses.  Each iteration consumes
bytes, so the length of the section bounds the number of iterations. -/
def readRangeList (e : Endian) (w : Nat) (section_ : List Nat) (offset base : Nat) : Option RangeList :=
  if w = 4 ∨ w = 8 then readV4 e w (section_.length + 1) (section_.drop offset) base [] else none

/-- Specification (DWARF 4, 2.17.3): a range list is a sequence of base address selections and ranges. -/
inductive E4 where
  | base (a : Nat)
  | range (s t : Nat)

/-- Encoding of an entry: a pair of addresses, a base selection has the largest address first. -/
def E4.encode (e : Endian) (w : Nat) : E4 → List Nat
  | .base a => encodeFixed e w (largest w) ++ encodeFixed e w a
  | .range s t => encodeFixed e w s ++ encodeFixed e w t

/-- An entry that is neither confused with a base selection nor with the end marker. -/
def E4.Ok (w : Nat) : E4 → Prop
  | .base a => a < 256 ^ w
  | .range s t => s < largest w ∧ t < 256 ^ w ∧ ¬ (s = 0 ∧ t = 0)

/-- Meaning of the list: offsets are relative to the current base. -/
def meaning4 : List E4 → Nat → RangeList
  | [], _ => []
  | .base a :: l, _ => meaning4 l a
  | .range s t :: l, b => (add64 s b, add64 t b) :: meaning4 l b

theorem encodeFixed_length (e : Endian) (n v : Nat) : (encodeFixed e n v).length = n := by
  have h : ∀ n v, (leBytes n v).length = n := by
    intro n
    induction n with
    | zero => intro v; rfl
    | succ n ih => intro v; simp [leBytes, ih]
  cases e <;> simp [encodeFixed, h]

theorem pair_read (e : Endian) (w a b : Nat) (hw : w = 4 ∨ w = 8) (ha : a < 256 ^ w) (hb : b < 256 ^ w)
    (rest : List Nat) :
    let bs := encodeFixed e w a ++ encodeFixed e w b ++ rest
    ¬ bs.length < 2 * w ∧ readFixed e w bs = some a ∧ readFixed e w (bs.drop w) = some b ∧
      bs.drop (2 * w) = rest := by
  have hw' : w = 1 ∨ w = 2 ∨ w = 3 ∨ w = 4 ∨ w = 8 := by omega
  refine ⟨?_, ?_, ?_, ?_⟩
  · simp only [List.length_append, encodeFixed_length]; omega
  · rw [List.append_assoc]; exact fixed_roundtrip e w a hw' ha _
  · rw [List.append_assoc, List.drop_append_of_le_length (by rw [encodeFixed_length])]
    rw [List.drop_of_length_le (by rw [encodeFixed_length])]
    exact fixed_roundtrip e w b hw' hb _
  · rw [List.drop_append_of_le_length (by simp only [List.length_append, encodeFixed_length]; omega),
      List.drop_of_length_le (by simp only [List.length_append, encodeFixed_length]; omega)]
    rfl

theorem readV4_spec (e : Endian) (w : Nat) (hw : w = 4 ∨ w = 8) (l : List E4) (hl : ∀ x ∈ l, x.Ok w)
    (rest : List Nat) (fuel base : Nat) (acc : RangeList) (hf : l.length < fuel) :
    readV4 e w fuel (l.flatMap (E4.encode e w) ++ (encodeFixed e w 0 ++ encodeFixed e w 0 ++ rest)) base acc =
      some (acc ++ meaning4 l base) := by
  have hlt : largest w < 256 ^ w := by rcases hw with rfl | rfl <;> decide
  have hpos : 0 < 256 ^ w := Nat.pow_pos (by omega)
  have hlpos : largest w ≠ 0 := by rcases hw with rfl | rfl <;> decide
  induction l generalizing fuel base acc with
  | nil =>
    cases fuel with
    | zero => simp at hf
    | succ fuel =>
      obtain ⟨a1, a2, a3, _⟩ := pair_read e w 0 0 hw hpos hpos rest
      simp only [List.flatMap_nil, List.nil_append, readV4]
      rw [if_neg a1, a2, a3]
      simp only [meaning4, List.append_nil]
      rw [if_neg (by omega)]
      simp
  | cons x l ih =>
    cases fuel with
    | zero => simp at hf
    | succ fuel =>
      have hl' := fun y hy => hl y (List.mem_cons_of_mem x hy)
      have hf' : l.length < fuel := by simpa using hf
      have hx := hl x List.mem_cons_self
      rw [List.flatMap_cons, List.append_assoc]
      cases x with
      | base a =>
        have hx : a < 256 ^ w := hx
        have henc : E4.encode e w (.base a) = encodeFixed e w (largest w) ++ encodeFixed e w a := rfl
        obtain ⟨a1, a2, a3, a4⟩ := pair_read e w (largest w) a hw hlt hx
          (l.flatMap (E4.encode e w) ++ (encodeFixed e w 0 ++ encodeFixed e w 0 ++ rest))
        rw [henc]
        simp only [readV4]
        rw [if_neg a1, a2, a3, a4]
        simp only [if_true]
        rw [ih hl' _ _ _ hf']
        rfl
      | range s t =>
        simp only [E4.Ok] at hx
        obtain ⟨a1, a2, a3, a4⟩ := pair_read e w s t hw (by omega) hx.2.1
          (l.flatMap (E4.encode e w) ++ (encodeFixed e w 0 ++ encodeFixed e w 0 ++ rest))
        have henc : E4.encode e w (.range s t) = encodeFixed e w s ++ encodeFixed e w t := rfl
        rw [henc]
        simp only [readV4]
        rw [if_neg a1, a2, a3, a4]
        simp only
        rw [if_neg (by omega), if_neg hx.2.2, ih hl' _ _ _ hf']
        simp [meaning4]

theorem flatMap_encode_length (e : Endian) (w : Nat) (hw : 0 < w) (l : List E4) :
    l.length ≤ (l.flatMap (E4.encode e w)).length := by
  induction l with
  | nil => simp
  | cons x l ih =>
    rw [List.flatMap_cons, List.length_append, List.length_cons]
    have : 1 ≤ (E4.encode e w x).length := by
      cases x <;> simp [E4.encode, encodeFixed_length] <;> omega
    omega

/-- **C40, before DWARF 5.** For every byte order, both address widths, every section contents before and
after the list, and every well-formed list: reading it at its offset returns its ranges in order, each
relative to the base in force. -/
theorem v4_range_list (e : Endian) (w : Nat) (hw : w = 4 ∨ w = 8) (l : List E4) (hl : ∀ x ∈ l, x.Ok w)
    (pre rest : List Nat) (base : Nat) :
    readRangeList e w
      (pre ++ (l.flatMap (E4.encode e w) ++ (encodeFixed e w 0 ++ encodeFixed e w 0 ++ rest)))
      pre.length base = some (meaning4 l base) := by
  unfold readRangeList
  rw [if_pos hw, List.drop_append_of_le_length (Nat.le_refl _), List.drop_length, List.nil_append,
    readV4_spec e w hw l hl rest _ base []]
  · simp
  · have := flatMap_encode_length e w (by omega) l
    simp only [List.length_append]; omega

/-! ## DWARF 5 -/

/-- The `.debug_addr` section, `addr_base` and the address width of the reader. -/
structure AddrTable where
  bytes : List Nat
  base : Nat

/-- `ReadAddress(addr_buffer_ + addr_base + index * AddressSize())` with its `CHECK`
(e.g. dwarf3ranges.cc:106-108, 115-117). -/
def AddrTable.get (t : AddrTable) (e : Endian) (w i : Nat) : Option Nat :=
  if t.base + i * w ≤ t.bytes.length then readFixed e w (t.bytes.drop (t.base + i * w)) else none

/-- A ULEB128 operand and the remaining bytes. -/
def uleb (bs : List Nat) : Option (Nat × List Nat) := (readU bs).map fun r => (r.1, bs.drop r.2)

/-- An address operand and the remaining bytes (`ReadAddress(pos); pos += address_size`). -/
def addr (e : Endian) (w asz : Nat) (bs : List Nat) : Option (Nat × List Nat) :=
  if bs.length < asz then none else (readFixed e w bs).map fun a => (a, bs.drop asz)

/-- Append a range unless it is empty. -/
def pushIf (c : Prop) [Decidable c] (acc : RangeList) (r : Nat × Nat) : RangeList :=
  if c then acc ++ [r] else acc

/-- The loop of `ReadDwarfRngLists` (dwarf3ranges.cc:94-176) on the bytes from `pos` to the end of the
section.  `w` is the width of `ReadAddress`, `asz` the `address_size` of the header. -/
def readV5 (e : Endian) (w asz : Nat) (t : AddrTable) : Nat → List Nat → Nat → RangeList → Option RangeList
  | 0, _, _, _ => none
  | fuel + 1, bs, base, acc =>
    match bs with
    | [] => none
    | kind :: bs =>
      match kind with
      | 0 => some acc
      | 1 => do
        let (i, bs) ← uleb bs
        let b ← t.get e w i
        readV5 e w asz t fuel bs b acc
      | 2 => do
        let (i, bs) ← uleb bs
        let start ← t.get e w i
        let (j, bs) ← uleb bs
        let stop ← t.get e w j
        readV5 e w asz t fuel bs base (pushIf (start ≠ stop) acc (add64 start base, add64 stop base))
      | 3 => do
        let (i, bs) ← uleb bs
        let start ← t.get e w i
        let (len, bs) ← uleb bs
        readV5 e w asz t fuel bs base
          (pushIf (len ≠ 0) acc (add64 start base, add64 (add64 start base) len))
      | 4 => do
        let (start, bs) ← uleb bs
        let (stop, bs) ← uleb bs
        readV5 e w asz t fuel bs base (pushIf (start ≠ stop) acc (add64 start base, add64 stop base))
      | 5 => do
        let (b, bs) ← addr e w asz bs
        readV5 e w asz t fuel bs b acc
      | 6 => do
        let (start, bs) ← addr e w asz bs
        let (stop, bs) ← addr e w asz bs
        readV5 e w asz t fuel bs base (pushIf (start ≠ stop) acc (start, stop))
      | 7 => do
        let (start, bs) ← addr e w asz bs
        let (len, bs) ← uleb bs
        readV5 e w asz t fuel bs base
          (pushIf (len ≠ 0) acc (add64 base start, add64 (add64 base start) len))
      | _ => none

/-- `ReadDwarfRngLists` (dwarf3ranges.cc:85-177) on the section `section_` at `pos`. -/
def readRngList (e : Endian) (w asz : Nat) (t : AddrTable) (section_ : List Nat) (pos base : Nat) :
    Option RangeList :=
  readV5 e w asz t (section_.length + 1) (section_.drop pos) base []

/-- Specification (DWARF 5, 2.17.3 and 7.25): the entry kinds. -/
inductive E5 where
  | baseAddressx (i : Nat)
  | startxEndx (i j : Nat)
  | startxLength (i len : Nat)
  | offsetPair (s t : Nat)
  | baseAddress (a : Nat)
  | startEnd (s t : Nat)
  | startLength (s len : Nat)

/-- A choice of ULEB128 encoding for each 64-bit value (canonical or padded). -/
def LebOk (leb : Nat → List Nat) : Prop :=
  ∀ v, v < 2 ^ 64 → leb v ≠ [] ∧ (∀ d ∈ leb v, d < 128) ∧ (leb v).length ≤ 10 ∧ value (leb v) = v

/-- Encoding of an entry. -/
def E5.encode (e : Endian) (w : Nat) (leb : Nat → List Nat) : E5 → List Nat
  | .baseAddressx i => 1 :: encodeDigits (leb i)
  | .startxEndx i j => 2 :: (encodeDigits (leb i) ++ encodeDigits (leb j))
  | .startxLength i l => 3 :: (encodeDigits (leb i) ++ encodeDigits (leb l))
  | .offsetPair s t => 4 :: (encodeDigits (leb s) ++ encodeDigits (leb t))
  | .baseAddress a => 5 :: encodeFixed e w a
  | .startEnd s t => 6 :: (encodeFixed e w s ++ encodeFixed e w t)
  | .startLength s l => 7 :: (encodeFixed e w s ++ encodeDigits (leb l))

/-- Operands fit their fields and indices are inside the address table `tab`. -/
def E5.Ok (w : Nat) (tab : List Nat) : E5 → Prop
  | .baseAddressx i => i < tab.length ∧ i < 2 ^ 64
  | .startxEndx i j => i < tab.length ∧ j < tab.length ∧ i < 2 ^ 64 ∧ j < 2 ^ 64
  | .startxLength i l => i < tab.length ∧ i < 2 ^ 64 ∧ l < 2 ^ 64
  | .offsetPair s t => s < 2 ^ 64 ∧ t < 2 ^ 64
  | .baseAddress a => a < 256 ^ w
  | .startEnd s t => s < 256 ^ w ∧ t < 256 ^ w
  | .startLength s l => s < 256 ^ w ∧ l < 2 ^ 64

/-- Empty ranges contribute nothing. -/
def nonEmpty (c : Prop) [Decidable c] (r : Nat × Nat) : RangeList := if c then [r] else []

/-- Meaning of a list in the standard: only `offset_pair` is relative to the base. -/
def meaning5 (tab : List Nat) : List E5 → Nat → RangeList
  | [], _ => []
  | .baseAddressx i :: l, _ => meaning5 tab l (tab.getD i 0)
  | .startxEndx i j :: l, b =>
    nonEmpty (tab.getD i 0 ≠ tab.getD j 0) (tab.getD i 0, tab.getD j 0) ++ meaning5 tab l b
  | .startxLength i n :: l, b =>
    nonEmpty (n ≠ 0) (tab.getD i 0, add64 (tab.getD i 0) n) ++ meaning5 tab l b
  | .offsetPair s t :: l, b => nonEmpty (s ≠ t) (add64 s b, add64 t b) ++ meaning5 tab l b
  | .baseAddress a :: l, _ => meaning5 tab l a
  | .startEnd s t :: l, b => nonEmpty (s ≠ t) (s, t) ++ meaning5 tab l b
  | .startLength s n :: l, b => nonEmpty (n ≠ 0) (s, add64 s n) ++ meaning5 tab l b

/-- What the code computes: it also adds the base to `startx_endx`, `startx_length` and
`start_length`. -/
def codeMeaning5 (tab : List Nat) : List E5 → Nat → RangeList
  | [], _ => []
  | .baseAddressx i :: l, _ => codeMeaning5 tab l (tab.getD i 0)
  | .startxEndx i j :: l, b =>
    nonEmpty (tab.getD i 0 ≠ tab.getD j 0) (add64 (tab.getD i 0) b, add64 (tab.getD j 0) b) ++
      codeMeaning5 tab l b
  | .startxLength i n :: l, b =>
    nonEmpty (n ≠ 0) (add64 (tab.getD i 0) b, add64 (add64 (tab.getD i 0) b) n) ++ codeMeaning5 tab l b
  | .offsetPair s t :: l, b => nonEmpty (s ≠ t) (add64 s b, add64 t b) ++ codeMeaning5 tab l b
  | .baseAddress a :: l, _ => codeMeaning5 tab l a
  | .startEnd s t :: l, b => nonEmpty (s ≠ t) (s, t) ++ codeMeaning5 tab l b
  | .startLength s n :: l, b =>
    nonEmpty (n ≠ 0) (add64 b s, add64 (add64 b s) n) ++ codeMeaning5 tab l b

/-- The absolute entries the code treats as relative only occur while the base is 0. -/
def BaseZero (tab : List Nat) : List E5 → Nat → Prop
  | [], _ => True
  | .baseAddressx i :: l, _ => BaseZero tab l (tab.getD i 0)
  | .baseAddress a :: l, _ => BaseZero tab l a
  | .offsetPair _ _ :: l, b => BaseZero tab l b
  | .startEnd _ _ :: l, b => BaseZero tab l b
  | .startxEndx _ _ :: l, b => b = 0 ∧ BaseZero tab l b
  | .startxLength _ _ :: l, b => b = 0 ∧ BaseZero tab l b
  | .startLength _ _ :: l, b => b = 0 ∧ BaseZero tab l b

/-- The address section holds the table `tab` at `base`. -/
def TableOk (t : AddrTable) (e : Endian) (w : Nat) (tab : List Nat) : Prop :=
  (∀ a ∈ tab, a < 256 ^ w) ∧
  ∃ pre post, pre.length = t.base ∧ t.bytes = pre ++ (tab.flatMap (encodeFixed e w) ++ post)

theorem encodeDigits_length (ds : List Nat) : (encodeDigits ds).length = ds.length := by
  induction ds with
  | nil => rfl
  | cons d ds ih =>
    cases ds with
    | nil => rfl
    | cons d' ds => simp only [encodeDigits, List.length_cons] at *; omega

theorem uleb_spec (leb : Nat → List Nat) (h : LebOk leb) (v : Nat) (hv : v < 2 ^ 64) (rest : List Nat) :
    uleb (encodeDigits (leb v) ++ rest) = some (v, rest) := by
  obtain ⟨h1, h2, h3, h4⟩ := h v hv
  unfold uleb
  rw [uleb_decode _ rest h1 h2 h3, h4, Nat.mod_eq_of_lt hv]
  simp only [Option.map_some, Option.some.injEq, Prod.mk.injEq, true_and]
  rw [← encodeDigits_length, List.drop_left]

theorem addr_spec (e : Endian) (w a : Nat) (hw : w = 4 ∨ w = 8) (ha : a < 256 ^ w) (rest : List Nat) :
    addr e w w (encodeFixed e w a ++ rest) = some (a, rest) := by
  unfold addr
  rw [if_neg (by simp [encodeFixed_length]), fixed_roundtrip e w a (by omega) ha]
  simp only [Option.map_some, Option.some.injEq, Prod.mk.injEq, true_and]
  have := List.drop_left (l₁ := encodeFixed e w a) (l₂ := rest)
  rwa [encodeFixed_length] at this

theorem get_spec (t : AddrTable) (e : Endian) (w : Nat) (hw : w = 4 ∨ w = 8) (tab : List Nat)
    (h : TableOk t e w tab) (i : Nat) (hi : i < tab.length) : t.get e w i = some (tab.getD i 0) := by
  obtain ⟨hb, pre, post, hp, hbytes⟩ := h
  have split : ∀ (tab : List Nat) (i : Nat) (post : List Nat), i < tab.length →
      ∃ q, (tab.flatMap (encodeFixed e w) ++ post).drop (i * w) = encodeFixed e w (tab.getD i 0) ++ q ∧
        i * w ≤ (tab.flatMap (encodeFixed e w) ++ post).length := by
    intro tab
    induction tab with
    | nil => intro i post h; simp at h
    | cons a tab ih =>
      intro i post h
      cases i with
      | zero => exact ⟨tab.flatMap (encodeFixed e w) ++ post, by simp, by simp⟩
      | succ i =>
        obtain ⟨q, h1, h2⟩ := ih i post (by simpa using h)
        refine ⟨q, ?_, ?_⟩
        · rw [List.flatMap_cons, List.append_assoc, show (i + 1) * w = w + i * w by ring,
            ← List.drop_drop]
          have := List.drop_left (l₁ := encodeFixed e w a) (l₂ := tab.flatMap (encodeFixed e w) ++ post)
          rw [encodeFixed_length] at this
          rw [this, h1]
          rfl
        · rw [List.flatMap_cons, List.append_assoc, List.length_append, encodeFixed_length,
            show (i + 1) * w = w + i * w by ring]
          omega
  obtain ⟨q, h1, h2⟩ := split tab i post hi
  unfold AddrTable.get
  rw [hbytes, if_pos (by rw [List.length_append, hp]; omega), ← List.drop_drop, ← hp, List.drop_left, h1]
  apply fixed_roundtrip e w _ (by omega)
  rw [List.getD_eq_getElem?_getD, List.getElem?_eq_getElem hi]
  exact hb _ (List.getElem_mem hi)

theorem pushIf_eq (c : Prop) [Decidable c] (acc : RangeList) (r : Nat × Nat) (l : RangeList) :
    pushIf c acc r ++ l = acc ++ (nonEmpty c r ++ l) := by
  unfold pushIf nonEmpty; split <;> simp

theorem readV5_spec (e : Endian) (w : Nat) (hw : w = 4 ∨ w = 8) (t : AddrTable) (tab : List Nat)
    (ht : TableOk t e w tab) (leb : Nat → List Nat) (hleb : LebOk leb) (l : List E5)
    (hl : ∀ x ∈ l, x.Ok w tab) (rest : List Nat) (fuel base : Nat) (acc : RangeList) (hf : l.length < fuel) :
    readV5 e w w t fuel (l.flatMap (E5.encode e w leb) ++ 0 :: rest) base acc =
      some (acc ++ codeMeaning5 tab l base) := by
  induction l generalizing fuel base acc with
  | nil =>
    cases fuel with
    | zero => simp at hf
    | succ fuel => simp [readV5, codeMeaning5]
  | cons x l ih =>
    cases fuel with
    | zero => simp at hf
    | succ fuel =>
      have ih' := fun b a => ih (fun y hy => hl y (List.mem_cons_of_mem x hy)) fuel b a (by simpa using hf)
      have hx := hl x List.mem_cons_self
      have hu := fun v hv r => uleb_spec leb hleb v hv r
      have hg := fun i hi => get_spec t e w hw tab ht i hi
      have ha := fun a h r => addr_spec e w a hw h r
      rw [List.flatMap_cons, List.append_assoc]
      cases x <;> simp only [E5.Ok] at hx <;> simp only [E5.encode, List.cons_append, List.append_assoc, readV5]
      · rw [hu _ hx.2]
        simp only [Option.bind_eq_bind, Option.bind_some]
        rw [hg _ hx.1]
        simp only [Option.bind_some]
        rw [ih']; rfl
      · rw [hu _ hx.2.2.1]
        simp only [Option.bind_eq_bind, Option.bind_some]
        rw [hg _ hx.1]
        simp only [Option.bind_some]
        rw [hu _ hx.2.2.2]
        simp only [Option.bind_some]
        rw [hg _ hx.2.1]
        simp only [Option.bind_some]
        rw [ih', pushIf_eq]; rfl
      · rw [hu _ hx.2.1]
        simp only [Option.bind_eq_bind, Option.bind_some]
        rw [hg _ hx.1]
        simp only [Option.bind_some]
        rw [hu _ hx.2.2]
        simp only [Option.bind_some]
        rw [ih', pushIf_eq]; rfl
      · rw [hu _ hx.1]
        simp only [Option.bind_eq_bind, Option.bind_some]
        rw [hu _ hx.2]
        simp only [Option.bind_some]
        rw [ih', pushIf_eq]; rfl
      · rw [ha _ hx]
        simp only [Option.bind_eq_bind, Option.bind_some]
        rw [ih']; rfl
      · rw [ha _ hx.1]
        simp only [Option.bind_eq_bind, Option.bind_some]
        rw [ha _ hx.2]
        simp only [Option.bind_some]
        rw [ih', pushIf_eq]; rfl
      · rw [ha _ hx.1]
        simp only [Option.bind_eq_bind, Option.bind_some]
        rw [hu _ hx.2]
        simp only [Option.bind_some]
        rw [ih', pushIf_eq]; rfl

theorem flatMap_encode5_length (e : Endian) (w : Nat) (leb : Nat → List Nat) (l : List E5) :
    l.length ≤ (l.flatMap (E5.encode e w leb)).length := by
  induction l with
  | nil => simp
  | cons x l ih =>
    rw [List.flatMap_cons, List.length_append, List.length_cons]
    have : 1 ≤ (E5.encode e w leb x).length := by cases x <;> simp [E5.encode]
    omega

/-- C40, DWARF 5: what the code returns, for every list, byte order, width, operand encoding, address table
and surrounding section contents. -/
theorem v5_range_list (e : Endian) (w : Nat) (hw : w = 4 ∨ w = 8) (t : AddrTable) (tab : List Nat)
    (ht : TableOk t e w tab) (leb : Nat → List Nat) (hleb : LebOk leb) (l : List E5)
    (hl : ∀ x ∈ l, x.Ok w tab) (pre rest : List Nat) (base : Nat) :
    readRngList e w w t (pre ++ (l.flatMap (E5.encode e w leb) ++ 0 :: rest)) pre.length base =
      some (codeMeaning5 tab l base) := by
  unfold readRngList
  rw [List.drop_left, readV5_spec e w hw t tab ht leb hleb l hl rest _ base []]
  · simp
  · have := flatMap_encode5_length e w leb l
    simp only [List.length_append]; omega

theorem add64_zero {a w : Nat} (hw : w = 4 ∨ w = 8) (h : a < 256 ^ w) : add64 a 0 = a ∧ add64 0 a = a := by
  have h64 : a < 2 ^ 64 := by rcases hw with rfl | rfl <;> norm_num at h ⊢ <;> omega
  unfold add64
  rw [Nat.add_zero, Nat.zero_add, Nat.mod_eq_of_lt h64]
  exact ⟨rfl, rfl⟩

/-- **C40, DWARF 5, the part that holds.** The result is what the standard assigns to the list, provided
`startx_endx`, `startx_length` and `start_length` entries only occur while the base address is 0.
Missing: those entries under a non-zero base, see `v5_meaning_violated`. -/
theorem v5_meaning_partial (e : Endian) (w : Nat) (hw : w = 4 ∨ w = 8) (t : AddrTable) (tab : List Nat)
    (ht : TableOk t e w tab) (leb : Nat → List Nat) (hleb : LebOk leb) (l : List E5)
    (hl : ∀ x ∈ l, x.Ok w tab) (pre rest : List Nat) (base : Nat) (hb : BaseZero tab l base) :
    readRngList e w w t (pre ++ (l.flatMap (E5.encode e w leb) ++ 0 :: rest)) pre.length base =
      some (meaning5 tab l base) := by
  rw [v5_range_list e w hw t tab ht leb hleb l hl pre rest base]
  congr 1
  have htab : ∀ i, tab.getD i 0 < 256 ^ w := by
    intro i
    by_cases hi : i < tab.length
    · rw [List.getD_eq_getElem?_getD, List.getElem?_eq_getElem hi]
      exact ht.1 _ (List.getElem_mem hi)
    · rw [List.getD_eq_getElem?_getD, List.getElem?_eq_none (by omega)]
      exact Nat.pow_pos (by omega)
  induction l generalizing base with
  | nil => rfl
  | cons x l ih =>
    have hx := hl x List.mem_cons_self
    have ih' := fun b h => ih (fun y hy => hl y (List.mem_cons_of_mem x hy)) b h
    cases x with
    | baseAddressx i => exact ih' _ hb
    | baseAddress a => exact ih' _ hb
    | offsetPair s t => simp only [codeMeaning5, meaning5]; rw [ih' _ hb]
    | startEnd s t => simp only [codeMeaning5, meaning5]; rw [ih' _ hb]
    | startxEndx i j =>
      obtain ⟨rfl, hb'⟩ := hb
      simp only [codeMeaning5, meaning5]
      rw [ih' _ hb', (add64_zero hw (htab i)).1, (add64_zero hw (htab j)).1]
    | startxLength i n =>
      obtain ⟨rfl, hb'⟩ := hb
      simp only [codeMeaning5, meaning5]
      rw [ih' _ hb', (add64_zero hw (htab i)).1]
    | startLength s n =>
      obtain ⟨rfl, hb'⟩ := hb
      simp only [codeMeaning5, meaning5]
      rw [ih' _ hb', (add64_zero hw hx.1).2]

/-- **C40 is violated** by `start_length` (and likewise `startx_length`, `startx_endx`) under a non-zero
base: the code reports [0x3000, 0x3010), the standard assigns [0x2000, 0x2010). -/
theorem v5_meaning_violated :
    let l := [E5.baseAddress 0x1000, .startLength 0x2000 0x10, .startxLength 0 0x10, .startxEndx 0 1]
    readRngList .little 8 8 ⟨encodeFixed .little 8 0x5000 ++ encodeFixed .little 8 0x5020, 0⟩
      (l.flatMap (E5.encode .little 8 fun v => [v % 128, v / 128]) ++ [0]) 0 0 =
      some [(0x3000, 0x3010), (0x6000, 0x6010), (0x6000, 0x6020)] ∧
    meaning5 [0x5000, 0x5020] l 0 = [(0x2000, 0x2010), (0x5000, 0x5010), (0x5000, 0x5020)] := by
  decide +kernel

/-- Canonical operand encodings qualify. -/
theorem digitsU_ok : LebOk digitsU := fun v hv =>
  ⟨(digitsU_spec v).1, (digitsU_spec v).2.1, digitsU_length v 9 (Nat.lt_trans hv (by norm_num)),
    (digitsU_spec v).2.2⟩

/-- Non-vacuity: a list using every kind of entry satisfies the hypotheses of `v5_meaning_partial`. -/
example : let tab := [0x5000, 0x5020, 0]
    let l := [E5.startxLength 0 16, .startxEndx 0 1, .startLength 0x100 8, .baseAddressx 1, .offsetPair 4 9,
      .baseAddress 0x40, .startEnd 7 9, .offsetPair 1 1]
    TableOk ⟨[9, 9] ++ (tab.flatMap (encodeFixed .big 4) ++ []), 2⟩ .big 4 tab ∧ (∀ x ∈ l, x.Ok 4 tab) ∧
    BaseZero tab l 0 ∧
    meaning5 tab l 0 = [(0x5000, 0x5010), (0x5000, 0x5020), (0x100, 0x108), (0x5024, 0x5029), (7, 9)] := by
  refine ⟨⟨by simp, [9, 9], [], rfl, rfl⟩, ?_, ?_, by decide +kernel⟩
  · simp [E5.Ok]
  · simp [BaseZero]

example : readRangeList .little 4 ([E4.range 1 5, .base 0x100, .range 2 3].flatMap (E4.encode .little 4) ++
    [0, 0, 0, 0, 0, 0, 0, 0]) 0 0x10 = some [(0x11, 0x15), (0x102, 0x103)] := by decide +kernel

end Verif.Ranges

import Verif.Ranges
import Verif.DwarfLineUnit
import Verif.OMap

/-! # C64: range lists by offset and by number (util/symbolize/dwarf3ranges.cc)

`none`: a `CHECK` fails or undefined behaviour (reading outside a section). -/
namespace Verif.RngLists
open Verif Verif.ByteReader Verif.Ranges
open Verif.DwarfLine (initialLength readInitialLength_ok encodeFixed_len)

/-! ## Model -/

/-- `struct RngListsData` (dwarf3ranges.h:43-60). -/
structure RngData where
  unitLength : Nat
  addrSize : Nat
  segSize : Nat
  count : Nat
  base : Nat
  offsets : List Nat
deriving DecidableEq, Repr

/-- The loop over the array of offsets (dwarf3ranges.cc:224-228) with `ReadOffset` (250-256), on the bytes up to the end of
the section.  The offsets are kept in 32 bits (`std::vector<uint32> offset_list_`).  More than 2^31 offsets would overflow
the `int` of the loop; this is not modelled. -/
def readOffsets (e : Endian) (offSize : Nat) : Nat → List Nat → Option (List Nat)
  | 0, _ => some []
  | n + 1, bs => do
    if bs.length ≤ offSize then none
    else
      let o ← readFixed e offSize bs
      let os ← readOffsets e offSize n (bs.drop offSize)
      some (o % 2 ^ 32 :: os)

/-- One round of the loop in `ReadDwarfRngListsHeader` (dwarf3ranges.cc:192-232): `total` is the length of the section, `bs` the
bytes from position `pos` on.  The result is the data and the distance to the next header.  The version is kept in 8 bits
(dwarf3ranges.h:55). -/
def readHeader (e : Endian) (total pos : Nat) (bs : List Nat) : Option (RngData × Nat) :=
  if bs.length ≤ 12 then none
  else
    match readInitialLength e bs with
    | none => none
    | some (len, il, offSize) =>
      if total < (il + len) % 2 ^ 64 then none
      else if bs.length ≤ il + 2 then none
      else
        match readFixed e 2 (bs.drop il) with
        | none => none
        | some version =>
          if version % 256 ≠ 5 then none
          else if bs.length ≤ il + 3 then none
          else
            match (bs.drop (il + 2)).head? with
            | none => none
            | some addrSize =>
              if bs.length ≤ il + 4 then none
              else
                match (bs.drop (il + 3)).head? with
                | none => none
                | some segSize =>
                  if bs.length ≤ il + 8 then none
                  else
                    match readFixed e 4 (bs.drop (il + 4)) with
                    | none => none
                    | some count =>
                      match readOffsets e offSize count (bs.drop (il + 8)) with
                      | none => none
                      | some offsets => some (⟨len, addrSize, segSize, count, pos + il + 8, offsets⟩, (il + len) % 2 ^ 64)

/-- `rngdatamap_`. -/
abbrev RngMap := OMap Nat RngData

/-- `ReadDwarfRngListsHeader` (dwarf3ranges.cc:187-236). -/
def readHeaders (e : Endian) (sec : List Nat) (pos : Nat) (m : RngMap) : Option RngMap :=
  match readHeader e sec.length pos (sec.drop pos) with
  | none => none
  | some (d, n) =>
    if pos + n < sec.length then readHeaders e sec (pos + n) (OMap.upsert d.base (fun _ => d) m)
    else some (OMap.upsert d.base (fun _ => d) m)
partial_fixpoint

/-- What an `AddressRangeList` is constructed with (dwarf3ranges.h:71-89): sections, byte order and address size of the
reader; `none`: NULL. -/
structure RSecs where
  endian : Endian
  addrSize : Nat
  ranges : Option (List Nat)
  rnglists : Option (List Nat)
  addr : Option (List Nat)

/-- The constructor (dwarf3ranges.h:71-89). -/
def RSecs.headers (r : RSecs) : Option RngMap :=
  match r.rnglists with
  | none => some []
  | some sec => readHeaders r.endian sec 0 []

/-- `ReadDwarfRngLists` (dwarf3ranges.cc:85-185) from a position on. -/
def RSecs.listAt (r : RSecs) (asz pos base addrBase : Nat) : Option RangeList :=
  match r.rnglists with
  | none => none
  | some sec => readRngList r.endian r.addrSize asz ⟨r.addr.getD [], addrBase⟩ sec pos base

/-- `ReadRangeList` (dwarf3ranges.cc:23-33) with `ReadDwarfRngListsDirectly` (64-75); `m` is what the constructor read. -/
def RSecs.byOffset (r : RSecs) (m : RngMap) (version offset base addrBase : Nat) : Option RangeList :=
  if 5 ≤ version then
    match m with
    | [] => none
    | (_, d) :: _ => r.listAt d.addrSize offset base addrBase
  else
    match r.ranges with
    | none => none
    | some sec => readRangeList r.endian r.addrSize sec offset base

/-- `GetRngListsElementOffsetByIndex` (dwarf3ranges.cc:238-248). -/
def offsetOf (m : RngMap) (rangeBase i : Nat) : Option Nat :=
  match OMap.find? m rangeBase with
  | none => none
  | some d => if d.count = 0 then some 0 else d.offsets[i]?

/-- `ReadDwarfRngListwithOffsetArray` (dwarf3ranges.cc:77-83). -/
def RSecs.withArray (r : RSecs) (m : RngMap) (offset base addrBase rangeBase : Nat) : Option RangeList :=
  match OMap.find? m rangeBase with
  | none => none
  | some d => r.listAt d.addrSize (d.base + offset) base addrBase

/-- The range list with a number (addr2line_inlinestack.cc:357-359). -/
def RSecs.byNumber (r : RSecs) (m : RngMap) (rangeBase i base addrBase : Nat) : Option RangeList :=
  match offsetOf m rangeBase i with
  | none => none
  | some o => r.withArray m o base addrBase rangeBase

/-! ## Specification (DWARF 5, 7.28) -/

/-- A contribution to `.debug_rnglists`: format, address and segment selector size, the offsets of the lists with a number,
and the bytes of the lists. -/
structure Contrib where
  dwarf64 : Bool
  addrSize : Nat
  segSize : Nat
  offsets : List Nat
  lists : List Nat

/-- Size of an offset. -/
def Contrib.offSize (c : Contrib) : Nat := if c.dwarf64 then 8 else 4

/-- Size of the length field. -/
def Contrib.ilSize (c : Contrib) : Nat := if c.dwarf64 then 12 else 4

/-- The bytes that offsets are relative to: the array of offsets and the lists. -/
def Contrib.area (e : Endian) (c : Contrib) : List Nat := c.offsets.flatMap (encodeFixed e c.offSize) ++ c.lists

/-- The bytes after the length. -/
def Contrib.body (e : Endian) (c : Contrib) : List Nat :=
  encodeFixed e 2 5 ++ (c.addrSize :: c.segSize :: (encodeFixed e 4 c.offsets.length ++ c.area e))

def Contrib.bytes (e : Endian) (c : Contrib) : List Nat := initialLength e c.dwarf64 (c.body e).length ++ c.body e

/-- The offsets fit, and there are lists. -/
structure Contrib.Ok (e : Endian) (c : Contrib) : Prop where
  lists : c.lists ≠ []
  offsets : ∀ o ∈ c.offsets, o < 2 ^ 32
  count : c.offsets.length < 2 ^ 31
  length : (c.body e).length < (if c.dwarf64 then 2 ^ 64 - 12 else 0xffffffff)

/-- The bases of the contributions of a section from a position on: after the header. -/
def based (e : Endian) : List Contrib → Nat → List (Nat × Contrib)
  | [], _ => []
  | c :: cs, pos => (pos + c.ilSize + 8, c) :: based e cs (pos + (c.bytes e).length)

/-- A range list at a position of the section. -/
def ListAt (e : Endian) (w : Nat) (leb : Nat → List Nat) (l : List E5) (sec : List Nat) (pos : Nat) : Prop :=
  ∃ pre rest, sec = pre ++ (l.flatMap (E5.encode e w leb) ++ 0 :: rest) ∧ pre.length = pos

/-! ## Proof -/

theorem initialLength_length (e : Endian) (c : Contrib) (n : Nat) : (initialLength e c.dwarf64 n).length = c.ilSize := by
  unfold initialLength Contrib.ilSize
  cases c.dwarf64 <;> simp [encodeFixed_len]

theorem readOffsets_ok (e : Endian) (k : Nat) (hk : k = 4 ∨ k = 8) (os rest : List Nat) (hr : rest ≠ []) :
    (∀ o ∈ os, o < 2 ^ 32) → readOffsets e k os.length (os.flatMap (encodeFixed e k) ++ rest) = some os := by
  induction os with
  | nil => intro _; rfl
  | cons o os ih =>
    intro h
    have ho := h o List.mem_cons_self
    have hlen : 0 < rest.length := List.length_pos_iff.2 hr
    rw [List.flatMap_cons, List.append_assoc, List.length_cons]
    unfold readOffsets
    rw [if_neg (by simp only [List.length_append, encodeFixed_len]; omega)]
    have h1 : readFixed e k (encodeFixed e k o ++ (os.flatMap (encodeFixed e k) ++ rest)) = some o := by
      apply fixed_roundtrip e k o (by omega)
      rcases hk with rfl | rfl <;> norm_num <;> omega
    have h2 : (encodeFixed e k o ++ (os.flatMap (encodeFixed e k) ++ rest)).drop k = os.flatMap (encodeFixed e k) ++ rest := by
      have := List.drop_left (l₁ := encodeFixed e k o) (l₂ := os.flatMap (encodeFixed e k) ++ rest)
      rwa [encodeFixed_len] at this
    rw [h1, h2]
    simp only [Option.bind_eq_bind, Option.bind_some]
    rw [ih (fun x hx => h x (List.mem_cons_of_mem _ hx))]
    simp only [Option.bind_some, Nat.mod_eq_of_lt ho]

/-- The data of a contribution with a base. -/
def Contrib.data (e : Endian) (c : Contrib) (base : Nat) : RngData :=
  ⟨(c.body e).length, c.addrSize, c.segSize, c.offsets.length, base, c.offsets⟩

theorem readHeader_ok (e : Endian) (c : Contrib) (h : c.Ok e) (total pos : Nat) (rest : List Nat)
    (ht : (c.bytes e).length ≤ total) :
    readHeader e total pos (c.bytes e ++ rest) = some (c.data e (pos + c.ilSize + 8), (c.bytes e).length) := by
  have hil := initialLength_length e c (c.body e).length
  have hl : 0 < c.lists.length := List.length_pos_iff.2 h.lists
  have hb : (c.body e).length = 8 + (c.area e).length := by
    simp only [Contrib.body, List.length_append, List.length_cons, encodeFixed_len]; omega
  have ha : c.lists.length ≤ (c.area e).length := by simp only [Contrib.area, List.length_append]; omega
  have hby : (c.bytes e).length = c.ilSize + (c.body e).length := by
    simp only [Contrib.bytes, List.length_append, hil]
  have hilv : c.ilSize = 4 ∨ c.ilSize = 12 := by unfold Contrib.ilSize; cases c.dwarf64 <;> simp
  have hlen := h.length
  have hmod : (c.ilSize + (c.body e).length) % 2 ^ 64 = c.ilSize + (c.body e).length := by
    apply Nat.mod_eq_of_lt
    unfold Contrib.ilSize
    cases hd : c.dwarf64 <;> simp only [hd, if_true, Bool.false_eq_true, if_false] at hlen ⊢ <;> omega
  have hdrop : ∀ k, (c.bytes e ++ rest).drop (c.ilSize + k) = (c.body e ++ rest).drop k := by
    intro k
    rw [← List.drop_drop]
    congr 1
    rw [Contrib.bytes, List.append_assoc, ← hil, List.drop_left]
  have hd0 : (c.bytes e ++ rest).drop c.ilSize = c.body e ++ rest := hdrop 0
  have e1 : c.body e ++ rest = encodeFixed e 2 5 ++ (c.addrSize :: c.segSize :: (encodeFixed e 4 c.offsets.length ++
      (c.area e ++ rest))) := by simp [Contrib.body]
  have hd2 : (c.bytes e ++ rest).drop (c.ilSize + 2) = c.addrSize :: c.segSize :: (encodeFixed e 4 c.offsets.length ++
      (c.area e ++ rest)) := by
    rw [hdrop, e1]
    have := List.drop_left (l₁ := encodeFixed e 2 5) (l₂ := c.addrSize :: c.segSize :: (encodeFixed e 4 c.offsets.length ++
      (c.area e ++ rest)))
    rwa [encodeFixed_len] at this
  have hd3 : (c.bytes e ++ rest).drop (c.ilSize + 3) = c.segSize :: (encodeFixed e 4 c.offsets.length ++
      (c.area e ++ rest)) := by
    rw [show c.ilSize + 3 = c.ilSize + 2 + 1 by omega, ← List.drop_drop, hd2]; rfl
  have hd4 : (c.bytes e ++ rest).drop (c.ilSize + 4) = encodeFixed e 4 c.offsets.length ++ (c.area e ++ rest) := by
    rw [show c.ilSize + 4 = c.ilSize + 3 + 1 by omega, ← List.drop_drop, hd3]; rfl
  have hd8 : (c.bytes e ++ rest).drop (c.ilSize + 8) = c.area e ++ rest := by
    rw [show c.ilSize + 8 = c.ilSize + 4 + 4 by omega, ← List.drop_drop, hd4]
    have := List.drop_left (l₁ := encodeFixed e 4 c.offsets.length) (l₂ := c.area e ++ rest)
    rwa [encodeFixed_len] at this
  have hoffs : readOffsets e c.offSize c.offsets.length (c.area e ++ rest) = some c.offsets := by
    unfold Contrib.area
    rw [List.append_assoc]
    apply readOffsets_ok
    · unfold Contrib.offSize; cases c.dwarf64 <;> simp
    · simp [h.lists]
    · exact h.offsets
  have hinit : readInitialLength e (c.bytes e ++ rest) = some ((c.body e).length, c.ilSize, c.offSize) := by
    rw [Contrib.bytes, List.append_assoc, readInitialLength_ok, hil]
    · rfl
    · cases hd : c.dwarf64 <;> simp only [hd, if_true, Bool.false_eq_true, if_false] at hlen ⊢ <;> omega
  have hL : (c.bytes e ++ rest).length = c.ilSize + (8 + (c.area e).length) + rest.length := by
    rw [List.length_append, hby, hb]
  unfold readHeader
  rw [if_neg (by omega), hinit]
  simp only
  rw [hmod, if_neg (by omega), if_neg (by omega), hd0, e1, fixed_roundtrip e 2 5 (by omega) (by norm_num)]
  simp only
  rw [if_neg (by omega), if_neg (by omega), hd2]
  simp only [List.head?_cons]
  rw [if_neg (by omega), hd3]
  simp only [List.head?_cons]
  rw [if_neg (by omega), hd4, fixed_roundtrip e 4 _ (by omega) (by have := h.count; norm_num; omega)]
  simp only
  rw [hd8, hoffs]
  simp only [Contrib.data, hby]

theorem upsert_last (k : Nat) (v : RngData) (m : RngMap) (h : ∀ x ∈ m, x.1 < k) :
    OMap.upsert k (fun _ => v) m = m ++ [(k, v)] := by
  induction m with
  | nil => rfl
  | cons a m ih =>
    obtain ⟨k', v'⟩ := a
    have hk := h _ List.mem_cons_self
    unfold OMap.upsert
    simp only at hk
    rw [if_neg (by omega), if_neg (by omega), ih (fun e he => h e (List.mem_cons_of_mem _ he))]
    rfl

theorem bytes_pos (e : Endian) (c : Contrib) : 4 < (c.bytes e).length := by
  simp only [Contrib.bytes, Contrib.body, List.length_append, initialLength_length, List.length_cons, encodeFixed_len]
  omega

theorem readHeaders_ok (e : Endian) (cs : List Contrib) : ∀ (c : Contrib) (pre : List Nat) (m : RngMap),
    (∀ x ∈ c :: cs, x.Ok e) → (∀ x ∈ m, x.1 < pre.length + c.ilSize + 8) →
    readHeaders e (pre ++ (c :: cs).flatMap (Contrib.bytes e)) pre.length m =
      some (m ++ (based e (c :: cs) pre.length).map fun x => (x.1, x.2.data e x.1)) := by
  induction cs with
  | nil =>
    intro c pre m h hm
    unfold readHeaders
    have h1 : (pre ++ [c].flatMap (Contrib.bytes e)).drop pre.length = c.bytes e ++ [] := by
      rw [List.drop_left]; simp
    rw [h1, readHeader_ok e c (h c List.mem_cons_self) _ _ [] (by simp)]
    simp only
    rw [if_neg (by simp)]
    have : (c.data e (pre.length + c.ilSize + 8)).base = pre.length + c.ilSize + 8 := rfl
    rw [this, upsert_last _ _ _ hm]
    simp [based]
  | cons c' cs ih =>
    intro c pre m h hm
    unfold readHeaders
    have h1 : (pre ++ (c :: c' :: cs).flatMap (Contrib.bytes e)).drop pre.length =
        c.bytes e ++ (c' :: cs).flatMap (Contrib.bytes e) := by
      rw [List.drop_left]; simp
    rw [h1, readHeader_ok e c (h c List.mem_cons_self) _ _ _ (by simp only [List.flatMap_cons, List.length_append]; omega)]
    simp only
    have hp := bytes_pos e c'
    rw [if_pos (by simp only [List.flatMap_cons, List.length_append]; omega)]
    have hb : (c.data e (pre.length + c.ilSize + 8)).base = pre.length + c.ilSize + 8 := rfl
    rw [hb, upsert_last _ _ _ hm]
    have h2 : pre ++ (c :: c' :: cs).flatMap (Contrib.bytes e) =
        (pre ++ c.bytes e) ++ (c' :: cs).flatMap (Contrib.bytes e) := by simp
    have h3 : pre.length + (c.bytes e).length = (pre ++ c.bytes e).length := by simp
    rw [h2, h3, ih c' _ _ (fun x hx => h x (List.mem_cons_of_mem _ hx))]
    · simp [based]
    · intro x hx
      have hil := initialLength_length e c (c.body e).length
      have hb8 : 8 ≤ (c.body e).length := by
        simp only [Contrib.body, List.length_append, List.length_cons, encodeFixed_len]; omega
      have hby : (c.bytes e).length = c.ilSize + (c.body e).length := by
        simp only [Contrib.bytes, List.length_append, hil]
      have hil' : 4 ≤ c'.ilSize := by unfold Contrib.ilSize; cases c'.dwarf64 <;> simp
      rw [← h3]
      rcases List.mem_append.1 hx with hx | hx
      · have := hm x hx
        omega
      · rw [List.mem_singleton] at hx
        subst hx
        simp only
        omega

/-- **C64, headers.** For every section that consists of contributions with lists, the constructor reads all of them, with
their offsets, in the order of the section. -/
theorem headers_read (r : RSecs) (cs : List Contrib) (hne : cs ≠ []) (hok : ∀ c ∈ cs, c.Ok r.endian)
    (hs : r.rnglists = some (cs.flatMap (Contrib.bytes r.endian))) :
    r.headers = some ((based r.endian cs 0).map fun x => (x.1, x.2.data r.endian x.1)) := by
  unfold RSecs.headers
  rw [hs]
  cases cs with
  | nil => exact absurd rfl hne
  | cons c cs =>
    have := readHeaders_ok r.endian cs c [] [] hok (by simp)
    simpa using this

theorem based_sorted (e : Endian) (cs : List Contrib) : ∀ pos, ((based e cs pos).map Prod.fst).Pairwise (· < ·) ∧
    ∀ x ∈ based e cs pos, pos + 12 ≤ x.1 := by
  induction cs with
  | nil => intro pos; simp [based]
  | cons c cs ih =>
    intro pos
    obtain ⟨h1, h2⟩ := ih (pos + (c.bytes e).length)
    have hil' : 4 ≤ c.ilSize := by unfold Contrib.ilSize; cases c.dwarf64 <;> simp
    have hil := initialLength_length e c (c.body e).length
    have hb8 : 8 ≤ (c.body e).length := by
      simp only [Contrib.body, List.length_append, List.length_cons, encodeFixed_len]; omega
    have hby : (c.bytes e).length = c.ilSize + (c.body e).length := by
      simp only [Contrib.bytes, List.length_append, hil]
    refine ⟨?_, ?_⟩
    · simp only [based, List.map_cons, List.pairwise_cons]
      refine ⟨?_, h1⟩
      intro x hx
      obtain ⟨y, hy, rfl⟩ := List.mem_map.1 hx
      have := h2 y hy
      omega
    · intro x hx
      simp only [based, List.mem_cons] at hx
      rcases hx with rfl | hx
      · simp only; omega
      · have := h2 x hx; omega

theorem find_mapped {α : Type} (l : List (Nat × α)) (f : Nat × α → RngData) (h : (l.map Prod.fst).Pairwise (· < ·)) (x : Nat × α)
    (hx : x ∈ l) : OMap.find? (l.map fun y => (y.1, f y)) x.1 = some (f x) := by
  induction l with
  | nil => cases hx
  | cons a l ih =>
    rw [List.map_cons, List.pairwise_cons] at h
    rw [List.map_cons]
    unfold OMap.find?
    rcases List.mem_cons.1 hx with rfl | hx
    · rw [if_pos rfl]
    · rw [if_neg, ih h.2 hx]
      have := h.1 x.1 (List.mem_map_of_mem hx)
      omega

/-- **C64, by number.** The list with number `i` of the contribution with a base: it is found at its offset from the base, and
its ranges are those of `codeMeaning5` (C40), relative to `base` and with addresses by number taken from the table at
`addrBase`. -/
theorem list_by_number (r : RSecs) (hw : r.addrSize = 4 ∨ r.addrSize = 8) (cs : List Contrib) (hok : ∀ c ∈ cs, c.Ok r.endian)
    (hs : r.rnglists = some (cs.flatMap (Contrib.bytes r.endian))) (m : RngMap) (hm : r.headers = some m) (c : Contrib)
    (rangeBase : Nat) (hc : (rangeBase, c) ∈ based r.endian cs 0) (hasz : c.addrSize = r.addrSize) (i o : Nat)
    (hi : c.offsets[i]? = some o) (leb : Nat → List Nat) (hleb : LebOk leb) (l : List E5)
    (hl : ListAt r.endian r.addrSize leb l (cs.flatMap (Contrib.bytes r.endian)) (rangeBase + o)) (addrBase : Nat) (tab : List Nat)
    (ht : TableOk ⟨r.addr.getD [], addrBase⟩ r.endian r.addrSize tab) (hl' : ∀ x ∈ l, x.Ok r.addrSize tab) (base : Nat) :
    r.byNumber m rangeBase i base addrBase = some (codeMeaning5 tab l base) := by
  have hne : cs ≠ [] := by rintro rfl; simp [based] at hc
  rw [headers_read r cs hne hok hs, Option.some.injEq] at hm
  subst hm
  have hf := find_mapped _ (fun x => x.2.data r.endian x.1) (based_sorted r.endian cs 0).1 (rangeBase, c) hc
  unfold RSecs.byNumber offsetOf
  rw [hf]
  have hlen : i < c.offsets.length := (List.getElem?_eq_some_iff.1 hi).1
  have hcount : (Contrib.data r.endian c rangeBase).count = c.offsets.length := rfl
  have hoff : (Contrib.data r.endian c rangeBase).offsets = c.offsets := rfl
  simp only
  rw [if_neg (by omega), hoff, hi]
  simp only
  unfold RSecs.withArray
  rw [hf]
  simp only [Contrib.data, RSecs.listAt, hs, hasz]
  obtain ⟨pre, rest, h1, h2⟩ := hl
  rw [h1, ← h2]
  exact v5_range_list _ _ hw _ tab ht leb hleb l hl' pre rest base

/-- **C64, by offset, version 5.** A list at an offset of the section; addresses by number are taken from `addrBase`. -/
theorem list_by_offset5 (r : RSecs) (hw : r.addrSize = 4 ∨ r.addrSize = 8) (cs : List Contrib) (hok : ∀ c ∈ cs, c.Ok r.endian)
    (hs : r.rnglists = some (cs.flatMap (Contrib.bytes r.endian))) (m : RngMap) (hm : r.headers = some m) (hne : cs ≠ [])
    (hasz : ∀ c ∈ cs, c.addrSize = r.addrSize) (version : Nat) (hv : 5 ≤ version) (pos : Nat) (leb : Nat → List Nat)
    (hleb : LebOk leb) (l : List E5) (hl : ListAt r.endian r.addrSize leb l (cs.flatMap (Contrib.bytes r.endian)) pos)
    (addrBase : Nat) (tab : List Nat) (ht : TableOk ⟨r.addr.getD [], addrBase⟩ r.endian r.addrSize tab)
    (hl' : ∀ x ∈ l, x.Ok r.addrSize tab) (base : Nat) :
    r.byOffset m version pos base addrBase = some (codeMeaning5 tab l base) := by
  rw [headers_read r cs hne hok hs, Option.some.injEq] at hm
  subst hm
  unfold RSecs.byOffset
  rw [if_pos hv]
  cases cs with
  | nil => exact absurd rfl hne
  | cons c cs =>
    simp only [based, List.map_cons, Contrib.data, RSecs.listAt, hs, hasz c List.mem_cons_self]
    obtain ⟨pre, rest, h1, h2⟩ := hl
    rw [h1, ← h2]
    exact v5_range_list _ _ hw _ tab ht leb hleb l hl' pre rest base

/-- **C64, by offset, before version 5.** -/
theorem list_by_offset4 (r : RSecs) (hw : r.addrSize = 4 ∨ r.addrSize = 8) (m : RngMap) (version : Nat) (hv : version < 5)
    (pre rest : List Nat) (l : List E4) (hl : ∀ x ∈ l, x.Ok r.addrSize)
    (hs : r.ranges = some (pre ++ (l.flatMap (E4.encode r.endian r.addrSize) ++
      (encodeFixed r.endian r.addrSize 0 ++ encodeFixed r.endian r.addrSize 0 ++ rest)))) (base addrBase : Nat) :
    r.byOffset m version pre.length base addrBase = some (meaning4 l base) := by
  unfold RSecs.byOffset
  rw [if_neg (by omega), hs]
  exact v4_range_list _ _ hw l hl pre rest base

/-! ## A concrete case and departures from the standard -/

/-- Two contributions, the second one in the 64-bit format with two numbered lists. -/
def exC1 : Contrib := ⟨false, 8, 0, [], [4, 1, 5, 0]⟩
def exC2 : Contrib := ⟨true, 8, 0, [16, 20], [4, 2, 6, 0, 7, 0, 0x10, 0, 0, 0, 0, 0, 0, 8, 0]⟩

def exR : RSecs := ⟨.little, 8, none, some ([exC1, exC2].flatMap (Contrib.bytes .little)), none⟩

theorem exC_ok : ∀ c ∈ [exC1, exC2], c.Ok .little := by
  intro c hc
  simp only [List.mem_cons, List.not_mem_nil, or_false] at hc
  rcases hc with rfl | rfl
  · exact ⟨by decide, by decide, by decide, by decide⟩
  · exact ⟨by decide, by decide, by decide, by decide⟩

theorem ex_leb : LebOk digitsU := digitsU_ok

/-- The second numbered list of the second contribution, whose base is 36. -/
theorem ex_by_number : ∃ m, exR.headers = some m ∧ exR.byNumber m 36 1 0 0 = some [(0x1000, 0x1008)] := by
  refine ⟨_, headers_read exR [exC1, exC2] (by simp) exC_ok rfl, ?_⟩
  have := list_by_number exR (Or.inr rfl) [exC1, exC2] exC_ok rfl _ (headers_read exR [exC1, exC2] (by simp) exC_ok rfl) exC2 36
    (by simp [based, exC1, exC2, Contrib.bytes, Contrib.body, Contrib.area, Contrib.ilSize, initialLength, encodeFixed_len])
    rfl 1 20 rfl (fun v => if v = 8 then [8] else digitsU v) ?_ [.startLength 0x1000 8] ?_ 0 [] ⟨by simp, [], [], rfl, rfl⟩ (by simp [E5.Ok, exR]) 0
  · rw [this]; decide +kernel
  · intro v hv
    by_cases h : v = 8
    · subst h
      refine ⟨by simp, by simp, by simp, by decide⟩
    · simp only [if_neg h]
      exact digitsU_ok v hv
  · exact ⟨_, [], (List.take_append_drop 56 _).symm, by decide +kernel⟩

/-- A section whose last table ends with the header, or with its array of offsets, cannot be read, although the standard allows
it. -/
theorem empty_table_violated (e : Endian) (c : Contrib) (h : c.lists = []) (hd : c.dwarf64 = false)
    (ho : c.offsets = []) (pos total : Nat) : readHeader e total pos (c.bytes e) = none := by
  unfold readHeader
  rw [if_pos]
  simp only [Contrib.bytes, Contrib.body, Contrib.area, List.length_append, List.length_cons, encodeFixed_len, h, ho, hd]
  simp [initialLength, encodeFixed_len]

/-- With an empty array of offsets a list by number is read at the base instead of being rejected. -/
theorem number_without_array_violated (m : RngMap) (base i : Nat) (d : RngData) (h : OMap.find? m base = some d)
    (h0 : d.count = 0) : offsetOf m base i = some 0 := by
  unfold offsetOf
  rw [h]
  simp only [h0, if_true]

end Verif.RngLists

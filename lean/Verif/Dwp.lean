import Verif.ByteReader
import Mathlib.Data.Nat.ModEq
import Mathlib.Data.Nat.GCD.Basic
import Mathlib.Data.Int.GCD

/-!
# C81: finding a unit in a package of split debug information (.dwp)
Model of `DwpReader` (util/symbolize/dwarf2reader.cc:1078-1258): the index `.debug_cu_index`, the open-addressing lookups and the
contributions of a unit.  `none` stands for a read outside the index or a lookup that does not end.  Pointers are offsets in the index;
the contributions are offsets in the sections of the package.
-/
namespace Verif.Dwp
open Verif.ByteReader

/-- `ReadFourBytes` at an offset of the index. -/
def at4 (e : Endian) (b : List Nat) (off : Nat) : Option Nat := readFixed e 4 (b.drop off)

/-- `ReadEightBytes` at an offset of the index. -/
def at8 (e : Endian) (b : List Nat) (off : Nat) : Option Nat := readFixed e 8 (b.drop off)

/-- The members of `DwpReader` that are set by `Initialize` (dwarf2reader.h:780-810). -/
structure Reader where
  version : Nat
  ncolumns : Nat
  nunits : Nat
  nslots : Nat
  phash : Nat
  pindex : Nat
  shndxPool : Nat
  offsetTable : Nat
  sizeTable : Nat
deriving DecidableEq, Inhabited

/-- `Initialize` (dwarf2reader.cc:1091-1133) with the section `.debug_cu_index`, if there is one. -/
def init (e : Endian) : Option (List Nat) → Option Reader
  | none => some ⟨0, 0, 0, 0, 0, 0, 0, 0, 0⟩
  | some idx => do
    let version ← at4 e idx 0
    if version = 1 then
      let nslots ← at4 e idx 12
      let pindex := 16 + nslots * 8
      let pool := pindex + nslots * 4
      some ⟨if pool ≥ idx.length then 0 else 1, 0, 0, nslots, 16, pindex, pool, 0, 0⟩
    else if version = 2 then
      let ncolumns ← at4 e idx 4
      let nunits ← at4 e idx 8
      let nslots ← at4 e idx 12
      let pindex := 16 + nslots * 8
      let offsets := pindex + nslots * 4
      let sizes := offsets + (ncolumns * ((nunits + 1) % 2 ^ 32)) % 2 ^ 32 * 4
      some ⟨if sizes ≥ idx.length then 0 else 2, ncolumns, nunits, nslots, 16, pindex, 0, offsets, sizes⟩
    else some ⟨version, 0, 0, 0, 0, 0, 0, 0, 0⟩

/-- `x & (nslots_ - 1)` in 32 bits. -/
def mask (n x : Nat) : Nat := x &&& ((n + 2 ^ 32 - 1) % 2 ^ 32)

/-- The first slot (dwarf2reader.cc:1229, 1245). -/
def first (n id : Nat) : Nat := mask n (id % 2 ^ 32)

/-- The step between slots (dwarf2reader.cc:1232-1233, 1249-1250). -/
def step (n id : Nat) : Nat := mask n ((id / 2 ^ 32) % 2 ^ 32) ||| 1

/-- The loop of both lookups: from `slot` on to the next slot at which `stop` is true. -/
def walk (stop : Nat → Option Bool) (n st slot : Nat) : Option Nat := do
  if ← stop slot then some slot else walk stop n st (mask n ((slot + st) % 2 ^ 32))
partial_fixpoint

/-- `LookupCU` (dwarf2reader.cc:1228-1242); `some none` is -1. -/
def lookupCU (e : Endian) (idx : List Nat) (r : Reader) (id : Nat) : Option (Option Nat) := do
  let slot ← walk (fun s => (at8 e idx (r.phash + s * 8)).map fun p => decide (p = 0 ∨ p = id)) r.nslots (step r.nslots id) (first r.nslots id)
  let probe ← at8 e idx (r.phash + slot * 8)
  some (if probe = 0 then none else some slot)

/-- `LookupCUv2` (dwarf2reader.cc:1244-1258). -/
def lookupCUv2 (e : Endian) (idx : List Nat) (r : Reader) (id : Nat) : Option Nat := do
  let slot ← walk (fun s => do
    let p ← at8 e idx (r.phash + s * 8)
    let i ← at4 e idx (r.pindex + s * 4)
    some (decide (i = 0 ∨ p = id))) r.nslots (step r.nslots id) (first r.nslots id)
  at4 e idx (r.pindex + slot * 4)

/-- The sections of a unit that are used: `.debug_info`, `.debug_abbrev`, `.debug_str_offsets`. -/
inductive Sect where
  | info
  | abbrev
  | strOffsets
deriving DecidableEq

/-- The section of a column (dwarf2enums.h:669-676; dwarf2reader.cc:1208-1219). -/
def sectOf (id : Nat) : Option Sect :=
  if id = 3 then some .abbrev else if id = 1 then some .info else if id = 6 then some .strOffsets else none

/-- What a unit contributes: in a version 1 package the number of an ELF section, in version 2 offset and size in the section. -/
inductive Contrib where
  | elf (shndx : Nat)
  | part (offset size : Nat)
deriving DecidableEq

/-- `sections->insert`: the first contribution to a section is kept. -/
def insert (m : List (Sect × Contrib)) (s : Sect) (c : Contrib) : List (Sect × Contrib) := if (m.lookup s).isSome then m else m ++ [(s, c)]

/-- The loop over the columns (dwarf2reader.cc:1201-1220). -/
def columns (e : Endian) (idx : List Nat) (ids offs sizes : Nat) (m : List (Sect × Contrib)) (col : Nat) : Option (List (Sect × Contrib)) := do
  let id ← at4 e idx (ids + col * 4)
  let o ← at4 e idx (offs + col * 4)
  let s ← at4 e idx (sizes + col * 4)
  some (match sectOf id with
    | none => m
    | some k => insert m k (.part o s))

/-- The result of `ReadDebugSectionsForCU`. -/
inductive Res where
  /-- nothing is found (the sections stay empty) -/
  | missing
  /-- ".debug_cu_index is corrupt"; the package is not used any more (the sections found before in version 1 remain) -/
  | corrupt (m : List (Sect × Contrib))
  /-- the sections found, and the whole of `.debug_str.dwo` -/
  | found (m : List (Sect × Contrib))
deriving DecidableEq

/-- The section of an ELF section of a version 1 package, by a prefix of its name (dwarf2reader.cc:1164-1178). -/
def sectOfName (name : String) : Option Sect :=
  if ".debug_abbrev".toList <+: name.toList then some .abbrev
  else if ".debug_info".toList <+: name.toList then some .info
  else if ".debug_str_offsets".toList <+: name.toList then some .strOffsets else none

/-- The loop over the section numbers of a unit in a version 1 package (dwarf2reader.cc:1150-1179). -/
def pool (e : Endian) (idx : List Nat) (name : Nat → String) (off : Nat) (m : List (Sect × Contrib)) : Option Res :=
  if _h : off ≥ idx.length then some (.corrupt m)
  else
    match at4 e idx off with
    | none => none
    | some 0 => some (.found m)
    | some (k + 1) => pool e idx name (off + 4) (match sectOfName (name (k + 1)) with
      | none => m
      | some s => insert m s (.elf (k + 1)))
  termination_by idx.length - off

/-- `ReadDebugSectionsForCU` (dwarf2reader.cc:1135-1226). -/
def readSections (e : Endian) (idx : List Nat) (name : Nat → String) (r : Reader) (id : Nat) : Option Res := do
  if r.version = 1 then
    match ← lookupCU e idx r id with
    | none => some .missing
    | some slot =>
      let index ← at4 e idx (r.pindex + slot * 4)
      pool e idx name (r.shndxPool + index * 4) []
  else if r.version = 2 then
    let index ← lookupCUv2 e idx r id
    if index = 0 then some .missing
    else
      let offs := r.offsetTable + (index * r.ncolumns) % 2 ^ 32 * 4
      let sizes := r.sizeTable + ((index - 1) * r.ncolumns) % 2 ^ 32 * 4
      if sizes + r.ncolumns * 4 > idx.length then some (.corrupt [])
      else (← (List.range r.ncolumns).foldlM (columns e idx r.offsetTable offs sizes) []) |> fun m => some (.found m)
  else some .missing

/-- Opening the index and looking up one unit. -/
def find (e : Endian) (idx : List Nat) (name : Nat → String) (id : Nat) : Option Res := do
  readSections e idx name (← init e (some idx)) id

/-! ## Specification

The hash table of the DWARF package format: `2^k` slots; a unit is put in the first free slot of its sequence. -/

/-- The `i`-th slot tried for the unit `id`: low half of `id`, then steps of the high half made odd. -/
def slotOf (k id i : Nat) : Nat := (id + i * ((id / 2 ^ 32) % 2 ^ k ||| 1)) % 2 ^ k

/-- A hash table: what is in a slot. -/
abbrev Table := Nat → Option (Nat × Nat)

/-- `T'` is `T` with the unit `u` (its id and its row or index) in the first free slot of its sequence. -/
def Inserted (k : Nat) (T : Table) (u : Nat × Nat) (T' : Table) : Prop :=
  ∃ i, (∀ j < i, T (slotOf k u.1 j) ≠ none) ∧ T (slotOf k u.1 i) = none ∧
    T' = fun s => if s = slotOf k u.1 i then some u else T s

/-- The table with the units `us`, inserted in some order. -/
inductive Built (k : Nat) : List (Nat × Nat) → Table → Prop where
  | nil : Built k [] (fun _ => none)
  | cons {us T u T'} : Built k us T → Inserted k T u T' → Built k (u :: us) T'

/-- A number in 4 bytes. -/
def u32 (e : Endian) (v : Nat) : List Nat := encodeFixed e 4 v

/-- A number in 8 bytes. -/
def u64 (e : Endian) (v : Nat) : List Nat := encodeFixed e 8 v

/-- The hash table: all signatures, then all indices; 0 in free slots. -/
def encodeTable (e : Endian) (k : Nat) (T : Table) : List Nat :=
  (List.range (2 ^ k)).flatMap (fun s => u64 e ((T s).elim 0 Prod.fst)) ++
  (List.range (2 ^ k)).flatMap fun s => u32 e ((T s).elim 0 Prod.snd)

/-- A package, version 2: the hash table gives the row of a unit, from 1 on; a row has offset and size for every column. -/
structure Package where
  k : Nat
  table : Table
  ids : List Nat
  rows : List (List (Nat × Nat))

/-- The index of a package in a file of the byte order `e`. -/
def Package.encode (e : Endian) (p : Package) : List Nat :=
  u32 e 2 ++ u32 e p.ids.length ++ u32 e p.rows.length ++ u32 e (2 ^ p.k) ++ encodeTable e p.k p.table ++
  p.ids.flatMap (u32 e) ++ p.rows.flatMap (fun r => r.flatMap fun x => u32 e x.1) ++ p.rows.flatMap fun r => r.flatMap fun x => u32 e x.2

/-- The package holds the units `us` (id and row) in a table that is not full, and all numbers fit their fields. -/
structure Package.Holds (p : Package) (us : List (Nat × Nat)) : Prop where
  built : Built p.k us p.table
  free : us.length < 2 ^ p.k
  slots : p.k < 32
  distinct : (us.map Prod.fst).Nodup
  units : ∀ u ∈ us, u.1 < 2 ^ 64 ∧ 1 ≤ u.2 ∧ u.2 ≤ p.rows.length
  columns : p.ids ≠ [] ∧ ∀ i ∈ p.ids, i < 2 ^ 32
  rows : ∀ r ∈ p.rows, r.length = p.ids.length ∧ ∀ x ∈ r, x.1 < 2 ^ 32 ∧ x.2 < 2 ^ 32
  size : p.ids.length * (p.rows.length + 1) < 2 ^ 32

/-- The first column of the number `n` of a row. -/
def column (ids : List Nat) (row : List (Nat × Nat)) (n : Nat) : Option Contrib :=
  ((ids.zip row).find? fun x => x.1 == n).map fun x => .part x.2.1 x.2.2

/-- The sections of the unit with the row `row`: the columns 1, 3 and 6. -/
def IsRow (ids : List Nat) (row : List (Nat × Nat)) (m : List (Sect × Contrib)) : Prop :=
  m.lookup .info = column ids row 1 ∧ m.lookup .abbrev = column ids row 3 ∧ m.lookup .strOffsets = column ids row 6

/-- A package, version 1: the hash table gives the begin of the section numbers of a unit in the pool. -/
structure Package1 where
  k : Nat
  nunits : Nat
  table : Table
  pool : List Nat

/-- The index of a version 1 package. -/
def Package1.encode (e : Endian) (p : Package1) : List Nat :=
  u32 e 1 ++ u32 e 0 ++ u32 e p.nunits ++ u32 e (2 ^ p.k) ++ encodeTable e p.k p.table ++ p.pool.flatMap (u32 e)

/-- The package holds the units `us` (id, not 0, and begin in the pool). -/
structure Package1.Holds (p : Package1) (us : List (Nat × Nat)) : Prop where
  built : Built p.k us p.table
  free : us.length < 2 ^ p.k
  slots : p.k < 32
  distinct : (us.map Prod.fst).Nodup
  units : ∀ u ∈ us, u.1 < 2 ^ 64 ∧ u.1 ≠ 0 ∧ u.2 < 2 ^ 32
  pool : ∀ x ∈ p.pool, x < 2 ^ 32

/-- The section numbers `l` begin at `i` in the pool, with a 0 after them. -/
def PoolAt (pool : List Nat) (i : Nat) (l : List Nat) : Prop := ∃ pre post, pool = pre ++ l ++ 0 :: post ∧ pre.length = i ∧ 0 ∉ l

/-- The first section of a list of numbers whose name begins with `pre`. -/
def named (name : Nat → String) (l : List Nat) (pre : String) : Option Contrib :=
  (l.find? fun x => decide (pre.toList <+: (name x).toList)).map .elf

/-- The sections of the unit with the section numbers `l`. -/
def IsUnit1 (name : Nat → String) (l : List Nat) (m : List (Sect × Contrib)) : Prop :=
  m.lookup .info = named name l ".debug_info" ∧ m.lookup .abbrev = named name l ".debug_abbrev" ∧
  m.lookup .strOffsets = named name l ".debug_str_offsets"

end Verif.Dwp

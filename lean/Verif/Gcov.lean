import Verif.Bytes

/-!
# Model of gcov.cc: primitive writer, flat-stream reader, buffered reader
-/
namespace Verif.Gcov
open Verif

/-- `GCOV_BLOCK_BYTE_SIZE` (gcov.cc:40). -/
def blockByteSize : Nat := 2 ^ 14

/-- The three primitive values a gcov file is made of. -/
inductive Item where
  | u32 (v : Nat)
  | counter (v : Nat)
  | str (s : Name)
  deriving Repr, DecidableEq

/-- `gcov_write_unsigned` (gcov.cc:134-137). -/
def writeUnsigned (v : Nat) : List UInt8 := le32 v

/-- `gcov_write_counter` (gcov.cc:139-144): low word then high word. -/
def writeCounter (v : Nat) : List UInt8 := le32 v ++ le32 (v / 4294967296)

/-- `gcov_write_string` (gcov.cc:146-170) for a non-null `string` whose bytes (without the NUL)
are `s` (`strlen` = `s.length`, so `s` must not contain 0).
Version >= 2: byte length including the NUL, the bytes, the NUL.
Version < 2: length in words `(len+4)>>2`, the bytes, zero padding to whole words (only the last
word is cleared by the code; the padding always lies in it, see `pad_lt_four`). -/
def writeString (version : Nat) (s : Name) : List UInt8 :=
  if version ≥ 2 then le32 (s.length + 1) ++ s ++ [0]
  else
    let alloc := (s.length + 4) / 4
    le32 alloc ++ s ++ List.replicate (4 * alloc - s.length) 0

/-- One primitive write. -/
def writeItem (version : Nat) : Item → List UInt8
  | .u32 v => writeUnsigned v
  | .counter v => writeCounter v
  | .str s => writeString version s

/-- A sequence of primitive writes: the bytes accumulate in order (gcov.cc:113-124, 85-97). -/
def writeItems (version : Nat) (is : List Item) : List UInt8 := is.flatMap (writeItem version)

/-! ## Reader over the flat byte stream

`none` = the process dies (`CHECK` failure) or has undefined behaviour. -/

/-- A read action on the remaining bytes of the file. -/
abbrev Rd (α : Type) := List UInt8 → Option (α × List UInt8)

/-- Specification-level `gcov_read_bytes`: `CHECK(bytes < GCOV_BLOCK_BYTE_SIZE)`; a null pointer
(`none` inside) and an exhausted stream when fewer bytes remain. -/
def readBytes (n : Nat) : Rd (Option (List UInt8)) := fun s =>
  if n < blockByteSize then
    if s.length < n then some (none, []) else some (some (s.take n), s.drop n)
  else none

/-- `gcov_read_unsigned` (gcov.cc:204-213). -/
def readUnsigned : Rd Nat := fun s => do
  let (b, s) ← readBytes 4 s
  match b with
  | none => some (0, s)
  | some w => some (ofLe32 w, s)

/-- `gcov_read_counter` (gcov.cc:215-224). -/
def readCounter : Rd Nat := fun s => do
  let (b, s) ← readBytes 8 s
  match b with
  | none => some (0, s)
  | some w => some (ofLe32 (w.take 4) + 4294967296 * ofLe32 (w.drop 4), s)

/-- `gcov_read_string` (gcov.cc:226-239) followed by the conversion of the returned `char*` to
`std::string` done by every caller: null pointer or a missing terminator is undefined behaviour. -/
def readString (version : Nat) : Rd Name := fun s => do
  let (len, s) ← readUnsigned s
  if len = 0 then none
  else
    let n := if version ≥ 2 then len else (4 * len) % 4294967296
    let (b, s) ← readBytes n s
    match b with
    | none => none
    | some w => if (0 : UInt8) ∈ w then some (w.takeWhile (· ≠ 0), s) else none

/-- The kind of a primitive value. -/
inductive Kind where | u32 | counter | str
  deriving Repr, DecidableEq

def Item.kind : Item → Kind
  | .u32 _ => .u32
  | .counter _ => .counter
  | .str _ => .str

/-- Read one primitive of the given kind. -/
def readKind (version : Nat) : Kind → Rd Item
  | .u32 => fun s => (readUnsigned s).map fun (v, s) => (.u32 v, s)
  | .counter => fun s => (readCounter s).map fun (v, s) => (.counter v, s)
  | .str => fun s => (readString version s).map fun (v, s) => (.str v, s)

/-- Read a sequence of primitives. -/
def readKinds (version : Nat) : List Kind → Rd (List Item)
  | [], s => some ([], s)
  | k :: ks, s => do
    let (i, s) ← readKind version k s
    let (is, s) ← readKinds version ks s
    some (i :: is, s)

/-! ## Buffered reader (gcov.cc:172-202) -/

/-- `struct gcov_var` in read mode (gcov.cc:42-50). `buffer` holds the `byte_length` valid bytes of
the allocated block, `file` the bytes not yet `fread`. -/
structure RState where
  buffer : List UInt8
  offset : Nat
  alloc : Nat
  file : List UInt8

/-- `gcov_allocate` (gcov.cc:99-111): new size of the block. -/
def allocate (alloc byteLength : Nat) : Nat :=
  ((if alloc = 0 then blockByteSize else alloc) + byteLength) * 2

/-- `gcov_read_bytes` (gcov.cc:172-197) on the buffer state. `fread` is assumed to deliver all
requested bytes unless the file ends (regular file). 32-bit wrap-around of `byte_length` (files
whose buffered part exceeds 4 GiB) is not modelled. -/
def RState.readBytes (n : Nat) (st : RState) : Option (Option (List UInt8) × RState) :=
  if n < blockByteSize then
    let excess := st.buffer.length - st.offset
    if excess < n then
      -- memmove; byte_offset = 0; byte_length = excess
      let buf := st.buffer.drop st.offset
      let alloc := if excess + n > st.alloc then allocate st.alloc (excess + n) else st.alloc
      let room := alloc - excess
      let got := st.file.take room
      let buf' := buf ++ got
      let file' := st.file.drop room
      if buf'.length < n then
        -- byte_length = 0; return null
        some (none, { buffer := [], offset := 0, alloc := alloc, file := file' })
      else
        some (some (buf'.take n), { buffer := buf', offset := n, alloc := alloc, file := file' })
    else
      some (some ((st.buffer.drop st.offset).take n), { st with offset := st.offset + n })
  else none

end Verif.Gcov

import Mathlib.Tactic.Linarith

/-!
# Model of the location packing of source_info.h
-/
namespace Verif.SourceOffset

/-- `SourceInfo::GenerateOffset` (source_info.h:72-76). -/
def generateOffset (line disc : BitVec 32) : BitVec 64 :=
  (line.setWidth 64 <<< 32) ||| disc.setWidth 64

/-- `SourceInfo::GenerateCompressedOffset` (source_info.h:79-81). -/
def generateCompressedOffset (off : BitVec 64) : BitVec 32 :=
  ((off >>> 16) ||| (off &&& 0xffff#64)).setWidth 32

/-- `SourceInfo::GetLineNumberFromOffset` (source_info.h:84-86). -/
def getLineNumberFromOffset (off : BitVec 64) : BitVec 32 :=
  ((off >>> 32) &&& 0xffff#64).setWidth 32

/-- `SourceInfo::GetDiscriminatorFromOffset` (source_info.h:89-91). -/
def getDiscriminatorFromOffset (off : BitVec 64) : BitVec 32 :=
  (off &&& 0xffffffff#64).setWidth 32

/-- `SourceInfo::Offset` with plain discriminators (source_info.h:38-54): relative line (32-bit
wrap-around subtraction) packed with the discriminator. LLVM's base-discriminator extraction
(`getBaseDiscriminatorFromDiscriminator`) is not modelled. -/
def offset (startLine line disc : BitVec 32) : BitVec 64 := generateOffset (line - startLine) disc

/-- The decoding done by the AFDO reader on a 32-bit location word: `offset >> 16`,
`offset & 0xffff` with `start_line = 0` (profile_reader.cc:75, 101), then re-packed by
`SourceInfo::Offset`. -/
def readerLine (w : BitVec 32) : BitVec 32 := w >>> 16
def readerDisc (w : BitVec 32) : BitVec 32 := w &&& 0xffff#32
def readerOffset (w : BitVec 32) : BitVec 64 := offset 0 (readerLine w) (readerDisc w)

end Verif.SourceOffset

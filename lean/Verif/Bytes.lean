import Mathlib.Data.List.Lex
import Mathlib.Order.Basic

/-!
# Bytes and C++ strings

`std::string` is modelled as `List UInt8`.  `std::string::operator<` (used by `std::map`) compares
bytes as unsigned chars lexicographically, which is the order below.
-/
namespace Verif

/-- Unsigned byte order. -/
instance instLinearOrderUInt8 : LinearOrder UInt8 where
  le_refl a := Nat.le_refl a.toNat
  le_trans a b c h₁ h₂ := Nat.le_trans (m := b.toNat) h₁ h₂
  le_antisymm a b h₁ h₂ := UInt8.toNat_inj.1 (Nat.le_antisymm h₁ h₂)
  le_total a b := Nat.le_total a.toNat b.toNat
  lt_iff_le_not_ge a b := Nat.lt_iff_le_and_not_ge (m := a.toNat) (n := b.toNat)
  toDecidableLE := inferInstance
  toDecidableLT := inferInstance
  toDecidableEq := inferInstance

/-- A C++ `std::string` / symbol name: a sequence of bytes. -/
abbrev Name := List UInt8

/-- Little-endian 32-bit word: `*(uint32*)p = n` on the (little-endian) host; keeps `n mod 2^32`. -/
def le32 (n : Nat) : List UInt8 :=
  [UInt8.ofNat n, UInt8.ofNat (n / 256), UInt8.ofNat (n / 65536), UInt8.ofNat (n / 16777216)]

/-- Value of four little-endian bytes. -/
def ofLe32 : List UInt8 → Nat
  | [a, b, c, d] => a.toNat + 256 * b.toNat + 65536 * c.toNat + 16777216 * d.toNat
  | _ => 0

@[simp] theorem le32_length (n : Nat) : (le32 n).length = 4 := rfl

theorem ofLe32_le32 (n : Nat) : ofLe32 (le32 n) = n % 4294967296 := by
  simp only [le32, ofLe32, UInt8.toNat_ofNat']
  omega

end Verif

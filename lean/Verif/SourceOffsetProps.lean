import Verif.SourceOffset

/-!
# C10: location packing
-/
namespace Verif.SourceOffset

theorem getLsbD_ffff (i : Nat) : (0xffff#64).getLsbD i = decide (i < 16) := by
  have h : 0xffff#64 = (BitVec.allOnes 16).setWidth 64 := by decide
  rw [h, BitVec.getLsbD_setWidth, BitVec.getLsbD_allOnes]
  by_cases h1 : i < 16 <;> simp [h1] ; omega

theorem getLsbD_ffff32 (i : Nat) : (0xffff#32).getLsbD i = decide (i < 16) := by
  have h : 0xffff#32 = (BitVec.allOnes 16).setWidth 32 := by decide
  rw [h, BitVec.getLsbD_setWidth, BitVec.getLsbD_allOnes]
  by_cases h1 : i < 16 <;> simp [h1] ; omega

theorem getLsbD_ffffffff (i : Nat) : (0xffffffff#64).getLsbD i = decide (i < 32) := by
  have h : 0xffffffff#64 = (BitVec.allOnes 32).setWidth 64 := by decide
  rw [h, BitVec.getLsbD_setWidth, BitVec.getLsbD_allOnes]
  by_cases h1 : i < 32 <;> simp [h1] ; omega

/-- A value below 2^16 has no bits from 16 on. -/
theorem high_bits_zero (x : BitVec 32) (h : x.toNat < 2 ^ 16) (i : Nat) (hi : 16 ≤ i) :
    x.getLsbD i = false := by
  rw [BitVec.getLsbD]
  exact Nat.testBit_lt_two_pow (Nat.lt_of_lt_of_le h (Nat.pow_le_pow_right (by decide) hi))

/-- Bits of a packed key: low 32 the discriminator, high 32 the line. -/
theorem getLsbD_generateOffset (line disc : BitVec 32) (i : Nat) (hi : i < 64) :
    (generateOffset line disc).getLsbD i =
      if i < 32 then disc.getLsbD i else line.getLsbD (i - 32) := by
  unfold generateOffset
  rw [BitVec.getLsbD_or, BitVec.getLsbD_shiftLeft, BitVec.getLsbD_setWidth,
    BitVec.getLsbD_setWidth]
  by_cases h : i < 32
  · simp [h, hi]
  · have hz : disc.getLsbD i = false := BitVec.getLsbD_of_ge _ _ (by omega)
    have : i - 32 < 64 := by omega
    simp [h, hi, hz, this]

/-- **C10 (discriminator).** The packed discriminator is recovered for all 2^64 pairs. -/
theorem discriminator_roundtrip (line disc : BitVec 32) :
    getDiscriminatorFromOffset (generateOffset line disc) = disc := by
  apply BitVec.eq_of_getLsbD_eq
  intro i hi
  unfold getDiscriminatorFromOffset
  rw [BitVec.getLsbD_setWidth, BitVec.getLsbD_and, getLsbD_generateOffset _ _ _ (by omega),
    getLsbD_ffffffff]
  simp [hi]

/-- **C10 (injectivity).** Distinct (line, discriminator) pairs have distinct location keys. -/
theorem generateOffset_injective (l₁ d₁ l₂ d₂ : BitVec 32)
    (h : generateOffset l₁ d₁ = generateOffset l₂ d₂) : l₁ = l₂ ∧ d₁ = d₂ := by
  constructor
  · apply BitVec.eq_of_getLsbD_eq
    intro i hi
    have h' := congrArg (fun x => BitVec.getLsbD x (i + 32)) h
    simp only [getLsbD_generateOffset _ _ (i + 32) (by omega)] at h'
    simpa using h'
  · have := congrArg getDiscriminatorFromOffset h
    simpa [discriminator_roundtrip] using this

/-- The line accessor returns the low 16 bits of the line… -/
theorem getLine_eq (line disc : BitVec 32) :
    getLineNumberFromOffset (generateOffset line disc) = line &&& 0xffff#32 := by
  apply BitVec.eq_of_getLsbD_eq
  intro i hi
  unfold getLineNumberFromOffset
  rw [BitVec.getLsbD_setWidth, BitVec.getLsbD_and, BitVec.getLsbD_ushiftRight, getLsbD_ffff,
    BitVec.getLsbD_and, getLsbD_ffff32, getLsbD_generateOffset _ _ _ (by omega)]
  simp [hi]

/-- **C10 (line), partial:** lines below 2^16 are recovered. -/
theorem line_roundtrip_partial (line disc : BitVec 32) (h : line.toNat < 2 ^ 16) :
    getLineNumberFromOffset (generateOffset line disc) = line := by
  rw [getLine_eq]
  apply BitVec.eq_of_getLsbD_eq
  intro i hi
  rw [BitVec.getLsbD_and, getLsbD_ffff32]
  by_cases h16 : i < 16
  · simp [h16]
  · simp [h16, high_bits_zero line h i (by omega)]

/-- The full claim (all 32-bit lines) is false of the code: line 65536 reads back as 0. -/
theorem line_roundtrip_violated :
    ∃ line disc, getLineNumberFromOffset (generateOffset line disc) ≠ line :=
  ⟨65536#32, 0#32, by decide⟩

/-- **C10 (stored form).** A location whose line and discriminator fit in 16 bits survives the
32-bit on-disk form: the reader rebuilds the very same location key. -/
theorem compressed_roundtrip (line disc : BitVec 32)
    (hl : line.toNat < 2 ^ 16) (hd : disc.toNat < 2 ^ 16) :
    readerOffset (generateCompressedOffset (generateOffset line disc))
      = generateOffset line disc := by
  have hw : ∀ i, i < 32 → (generateCompressedOffset (generateOffset line disc)).getLsbD i
      = if i < 16 then disc.getLsbD i else line.getLsbD (i - 16) := by
    intro i hi
    unfold generateCompressedOffset
    rw [BitVec.getLsbD_setWidth, BitVec.getLsbD_or, BitVec.getLsbD_ushiftRight, BitVec.getLsbD_and,
      getLsbD_ffff, getLsbD_generateOffset _ _ _ (by omega), getLsbD_generateOffset _ _ _ (by omega)]
    by_cases h16 : i < 16
    · have hz := high_bits_zero disc hd (16 + i) (by omega)
      have : 16 + i < 32 := by omega
      rw [if_pos this, if_pos (by omega), hz, if_pos h16]
      simp [hi, h16]
    · have h1 : ¬ 16 + i < 32 := by omega
      have h2 : 16 + i - 32 = i - 16 := by omega
      simp [hi, h16, h1, h2]
  have hline : readerLine (generateCompressedOffset (generateOffset line disc)) = line := by
    apply BitVec.eq_of_getLsbD_eq
    intro i hi
    unfold readerLine
    rw [BitVec.getLsbD_ushiftRight]
    by_cases h16 : i < 16
    · rw [hw _ (by omega), if_neg (by omega)]
      congr 1; omega
    · rw [high_bits_zero line hl i (by omega)]
      exact BitVec.getLsbD_of_ge _ _ (by omega)
  have hdisc : readerDisc (generateCompressedOffset (generateOffset line disc)) = disc := by
    apply BitVec.eq_of_getLsbD_eq
    intro i hi
    unfold readerDisc
    rw [BitVec.getLsbD_and, getLsbD_ffff32, hw _ hi]
    by_cases h16 : i < 16
    · simp [h16]
    · simp [h16, high_bits_zero disc hd i (by omega)]
  unfold readerOffset offset
  rw [hline, hdisc]
  congr 1
  simp

example : ∃ line disc : BitVec 32, line ≠ 0 ∧ disc ≠ 0 ∧ line.toNat < 2 ^ 16 ∧ disc.toNat < 2 ^ 16 :=
  ⟨1234#32, 7#32, by decide⟩

/-- Outside that region the on-disk form is not faithful: the high half of the discriminator is
or-ed into its low half, so discriminator 65536 is stored as discriminator 1 and collides with that
genuine location. -/
theorem compressed_roundtrip_violated :
    ∃ l₁ d₁ l₂ d₂ : BitVec 32, (l₁, d₁) ≠ (l₂, d₂) ∧
      generateCompressedOffset (generateOffset l₁ d₁)
        = generateCompressedOffset (generateOffset l₂ d₂) :=
  ⟨0#32, 65536#32, 0#32, 1#32, by decide, by decide⟩

/-- Numeric reading of the packing: the key is `line * 2^32 + disc`, so keys are ordered by line
first, then discriminator (the order in which `std::map` iterates locations). -/
theorem generateOffset_toNat (line disc : BitVec 32) :
    (generateOffset line disc).toNat = line.toNat * 2 ^ 32 + disc.toNat := by
  unfold generateOffset
  have hl := line.isLt
  have hd := disc.isLt
  rw [BitVec.toNat_or, BitVec.toNat_shiftLeft, BitVec.toNat_setWidth, BitVec.toNat_setWidth,
    Nat.shiftLeft_eq, Nat.mod_eq_of_lt (a := line.toNat) (by omega),
    Nat.mod_eq_of_lt (a := disc.toNat) (by omega), Nat.mod_eq_of_lt (by omega),
    ← Nat.shiftLeft_eq, Nat.shiftLeft_add_eq_or_of_lt hd]

/-- The stored word of a location within 16 bits: `line * 2^16 + disc`. -/
theorem compressed_toNat (line disc : BitVec 32)
    (hl : line.toNat < 2 ^ 16) (hd : disc.toNat < 2 ^ 16) :
    (generateCompressedOffset (generateOffset line disc)).toNat
      = line.toNat * 2 ^ 16 + disc.toNat := by
  unfold generateCompressedOffset
  rw [BitVec.toNat_setWidth, BitVec.toNat_or, BitVec.toNat_ushiftRight, BitVec.toNat_and,
    generateOffset_toNat]
  have h1 : (0xffff#64).toNat = 2 ^ 16 - 1 := by decide
  rw [h1, Nat.and_two_pow_sub_one_eq_mod, Nat.shiftRight_eq_div_pow]
  have h2 : (line.toNat * 2 ^ 32 + disc.toNat) / 2 ^ 16 = line.toNat * 2 ^ 16 := by omega
  have h3 : (line.toNat * 2 ^ 32 + disc.toNat) % 2 ^ 16 = disc.toNat := by omega
  rw [h2, h3, ← Nat.shiftLeft_eq, ← Nat.shiftLeft_add_eq_or_of_lt hd]
  have h4 : line.toNat <<< 16 + disc.toNat = line.toNat * 65536 + disc.toNat := by
    rw [Nat.shiftLeft_eq]
  rw [h4, Nat.mod_eq_of_lt (by omega)]

end Verif.SourceOffset

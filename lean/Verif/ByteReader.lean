import Mathlib.Tactic.Ring
import Mathlib.Tactic.ByContra
import Mathlib.Tactic.Linarith
import Mathlib.Data.Nat.Bitwise
import Mathlib.Algebra.Order.Ring.Int

/-! # C39: DWARF byte reader (util/symbolize/bytereader-inl.h, bytereader.cc)

Bytes are natural numbers below 256; machine words are natural numbers below 2^64 with explicit
truncation.  `none` stands for undefined behaviour: reading past the given bytes, or a shift by 64 or
more. -/
namespace Verif.ByteReader

/-- The loop shared by `ReadUnsignedLEB128` (bytereader-inl.h:84-103) and `ReadSignedLEB128`
(bytereader-inl.h:108-127): returns the accumulated word, the final shift, the number of bytes read and
the last byte. -/
def lebLoop : List Nat → Nat → Nat → Nat → Option (Nat × Nat × Nat × Nat)
  | [], _, _, _ => none
  | b :: bs, result, shift, num =>
    if 64 ≤ shift then none
    else
      let result' := result ||| (((b &&& 0x7f) <<< shift) % 2 ^ 64)
      if b &&& 0x80 ≠ 0 then lebLoop bs result' (shift + 7) (num + 1)
      else some (result', shift + 7, num + 1, b)

/-- `ReadUnsignedLEB128` (bytereader-inl.h:84-103). -/
def readU (bs : List Nat) : Option (Nat × Nat) :=
  (lebLoop bs 0 0 0).map fun r => (r.1, r.2.2.1)

/-- Two's complement reading of a 64-bit word. -/
def toInt64 (w : Nat) : Int := if w < 2 ^ 63 then w else (w : Int) - 2 ^ 64

/-- `ReadSignedLEB128` (bytereader-inl.h:108-127).  `-(int64(1) << shift)` is the word `2^64 - 2^shift`
(for `shift = 63` the negation overflows `int64`; the wrapped value every compiler produces is used). -/
def readS (bs : List Nat) : Option (Int × Nat) :=
  (lebLoop bs 0 0 0).map fun r =>
    let (result, shift, num, byte) := r
    let w := if shift < 64 ∧ byte &&& 0x40 ≠ 0 then result ||| (2 ^ 64 - 2 ^ shift) else result
    (toInt64 w, num)

/-! ## Specification of LEB128 -/

/-- An encoding: a list of 7-bit digits, least significant first; all bytes but the last carry the
continuation bit. -/
def encodeDigits : List Nat → List Nat
  | [] => []
  | [d] => [d]
  | d :: d' :: ds => (d + 128) :: encodeDigits (d' :: ds)

/-- Unsigned value of a digit string. -/
def value : List Nat → Nat
  | [] => 0
  | d :: ds => d + 128 * value ds

/-- Signed value: two's complement of `7·length` bits. -/
def signedValue (ds : List Nat) : Int :=
  if 64 ≤ ds.getLast?.getD 0 then (value ds : Int) - 2 ^ (7 * ds.length) else value ds

/-- Canonical unsigned encoding. -/
def digitsU (v : Nat) : List Nat := if v < 128 then [v] else v % 128 :: digitsU (v / 128)
decreasing_by omega

/-- Canonical signed encoding. -/
def digitsS (v : Int) : List Nat :=
  if -64 ≤ v ∧ v < 64 then [(v % 128).toNat] else (v % 128).toNat :: digitsS (v / 128)
termination_by v.natAbs
decreasing_by omega

/-! ## Proofs -/

theorem and7f (b : Nat) : b &&& 0x7f = b % 128 := Nat.and_two_pow_sub_one_eq_mod b 7

theorem and80 (b : Nat) (h : b < 256) : (b &&& 0x80 ≠ 0) ↔ 128 ≤ b := by
  have : ∀ b : Fin 256, (b.val &&& 0x80 ≠ 0) ↔ 128 ≤ b.val := by decide +kernel
  exact this ⟨b, h⟩

theorem and40 (b : Nat) (h : b < 128) : (b &&& 0x40 ≠ 0) ↔ 64 ≤ b := by
  have : ∀ b : Fin 128, (b.val &&& 0x40 ≠ 0) ↔ 64 ≤ b.val := by decide +kernel
  exact this ⟨b, h⟩

theorem or_shift (r d s : Nat) (h : r < 2 ^ s) : r ||| (d <<< s) = r + d * 2 ^ s := by
  rw [Nat.lor_comm, ← Nat.shiftLeft_add_eq_or_of_lt h, Nat.shiftLeft_eq, Nat.add_comm]

theorem value_lt (ds : List Nat) (h : ∀ d ∈ ds, d < 128) : value ds < 2 ^ (7 * ds.length) := by
  induction ds with
  | nil => simp [value]
  | cons d ds ih =>
    have h1 := ih (fun x hx => h x (List.mem_cons_of_mem _ hx))
    have h2 := h d List.mem_cons_self
    rw [List.length_cons, Nat.mul_add, Nat.mul_one, Nat.pow_add]
    simp only [value]
    omega

theorem or_step (r d i : Nat) (hr : r < 2 ^ (7 * i)) (hi : 7 * i < 64) :
    r ||| ((d <<< (7 * i)) % 2 ^ 64) = (r + d * 2 ^ (7 * i)) % 2 ^ 64 := by
  have h64 : r < 2 ^ 64 := Nat.lt_of_lt_of_le hr (Nat.pow_le_pow_right (by omega) (by omega))
  rw [← or_shift r d _ hr, Nat.or_mod_two_pow, Nat.mod_eq_of_lt h64]

/-- The loop on a well-formed encoding of at most ten bytes. -/
theorem lebLoop_spec (ds rest : List Nat) (hne : ds ≠ []) (hd : ∀ d ∈ ds, d < 128) (i r : Nat)
    (hr : r < 2 ^ (7 * i)) (hlen : i + ds.length ≤ 10) (num : Nat) :
    lebLoop (encodeDigits ds ++ rest) r (7 * i) num =
      some ((r + value ds * 2 ^ (7 * i)) % 2 ^ 64, 7 * (i + ds.length), num + ds.length,
        ds.getLast hne) := by
  induction ds generalizing i r num with
  | nil => exact absurd rfl hne
  | cons d ds ih =>
    have hd0 := hd d List.mem_cons_self
    simp only [List.length_cons] at hlen
    cases ds with
    | nil =>
      simp only [encodeDigits, List.cons_append, List.nil_append, lebLoop]
      rw [if_neg (by omega), if_neg (by rw [and80 d (by omega)]; omega), and7f, Nat.mod_eq_of_lt hd0,
        or_step r d i hr (by simp at hlen; omega)]
      simp only [value, List.length_singleton, List.getLast_singleton]
      rw [Nat.mul_zero, Nat.add_zero]
      rfl
    | cons d' ds =>
      simp only [encodeDigits, List.cons_append, lebLoop]
      simp only [List.length_cons] at hlen
      rw [if_neg (by omega), if_pos (by rw [and80 _ (by omega)]; omega), and7f,
        show (d + 128) % 128 = d by omega, or_step r d i hr (by omega)]
      have hlt : r + d * 2 ^ (7 * i) < 2 ^ (7 * (i + 1)) := by
        have : 2 ^ (7 * (i + 1)) = 128 * 2 ^ (7 * i) := by
          rw [Nat.mul_add, Nat.pow_add]; ring
        rw [this]
        have : d * 2 ^ (7 * i) ≤ 127 * 2 ^ (7 * i) := Nat.mul_le_mul_right _ (by omega)
        omega
      have h64 : r + d * 2 ^ (7 * i) < 2 ^ 64 :=
        Nat.lt_of_lt_of_le hlt (Nat.pow_le_pow_right (by omega) (by omega))
      rw [Nat.mod_eq_of_lt h64, show 7 * i + 7 = 7 * (i + 1) by ring]
      have := ih (by simp) (fun x hx => hd x (List.mem_cons_of_mem _ hx)) (i + 1) _ hlt
        (by simp only [List.length_cons]; omega) (num + 1)
      rw [this]
      simp only [List.length_cons, List.getLast_cons_cons, value]
      congr 1
      refine Prod.ext ?_ (Prod.ext (by simp only; ring) (Prod.ext (by simp only; ring) rfl))
      simp only
      congr 1
      rw [show 7 * (i + 1) = 7 * i + 7 by ring, Nat.pow_add]
      ring

/-- **C39, unsigned.** Any encoding of at most ten bytes, canonical or padded, whatever follows it, is
decoded to its value modulo 2^64 (its value, if it fits 64 bits) and its exact length. -/
theorem uleb_decode (ds rest : List Nat) (hne : ds ≠ []) (hd : ∀ d ∈ ds, d < 128) (hlen : ds.length ≤ 10) :
    readU (encodeDigits ds ++ rest) = some (value ds % 2 ^ 64, ds.length) := by
  unfold readU
  have := lebLoop_spec ds rest hne hd 0 0 (by simp) (by omega) 0
  rw [Nat.mul_zero] at this
  rw [this]
  simp

theorem digitsU_spec (v : Nat) : digitsU v ≠ [] ∧ (∀ d ∈ digitsU v, d < 128) ∧ value (digitsU v) = v := by
  induction v using Nat.strongRecOn with
  | _ v ih =>
    unfold digitsU
    split
    · rename_i h
      exact ⟨by simp, by simpa using h, by simp [value]⟩
    · obtain ⟨h1, h2, h3⟩ := ih (v / 128) (by omega)
      refine ⟨by simp, ?_, ?_⟩
      · intro d hd
        rcases List.mem_cons.1 hd with rfl | hd'
        · omega
        · exact h2 d hd'
      · simp only [value, h3]; omega

theorem digitsU_length (v n : Nat) (h : v < 2 ^ (7 * (n + 1))) : (digitsU v).length ≤ n + 1 := by
  induction n generalizing v with
  | zero =>
    unfold digitsU
    rw [if_pos (by simpa using h)]
    simp
  | succ n ih =>
    unfold digitsU
    split
    · simp
    · rw [List.length_cons]
      have : v / 128 < 2 ^ (7 * (n + 1)) := by
        rw [Nat.div_lt_iff_lt_mul (by omega)]
        have e : 2 ^ (7 * (n + 1 + 1)) = 2 ^ (7 * (n + 1)) * 128 := by
          rw [show 7 * (n + 1 + 1) = 7 * (n + 1) + 7 by ring, Nat.pow_add]
        omega
      have := ih _ this
      omega

/-- **C39, unsigned round trip** for every 64-bit value. -/
theorem uleb_roundtrip (v : Nat) (h : v < 2 ^ 64) (rest : List Nat) :
    readU (encodeDigits (digitsU v) ++ rest) = some (v, (digitsU v).length) := by
  obtain ⟨h1, h2, h3⟩ := digitsU_spec v
  have hl := digitsU_length v 9 (Nat.lt_trans h (by norm_num))
  rw [uleb_decode _ rest h1 h2 hl, h3, Nat.mod_eq_of_lt h]

theorem toInt64_eq (w : Nat) (x : Int) (hw : w < 2 ^ 64) (h1 : -2 ^ 63 ≤ x) (h2 : x < 2 ^ 63)
    (h : ∃ k : Int, (w : Int) = x + k * 2 ^ 64) : toInt64 w = x := by
  obtain ⟨k, hk⟩ := h
  unfold toInt64
  norm_num at *
  split <;> omega

/-- **C39, signed.** Any encoding of at most ten bytes whose value fits a signed 64-bit integer, canonical
or padded, is decoded to its value and its exact length. -/
theorem sleb_decode (ds rest : List Nat) (hne : ds ≠ []) (hd : ∀ d ∈ ds, d < 128) (hlen : ds.length ≤ 10)
    (h1 : -2 ^ 63 ≤ signedValue ds) (h2 : signedValue ds < 2 ^ 63) :
    readS (encodeDigits ds ++ rest) = some (signedValue ds, ds.length) := by
  unfold readS
  have hloop := lebLoop_spec ds rest hne hd 0 0 (by simp) (by omega) 0
  rw [Nat.mul_zero] at hloop
  rw [hloop]
  simp only [Option.map_some, Nat.zero_add, Nat.pow_zero, Nat.mul_one, Option.some.injEq, Prod.mk.injEq,
    and_true]
  have hlast : ds.getLast?.getD 0 = ds.getLast hne := by rw [List.getLast?_eq_some_getLast hne]; rfl
  have hl128 : ds.getLast hne < 128 := hd _ (List.getLast_mem hne)
  have hv := value_lt ds hd
  unfold signedValue at h1 h2 ⊢
  rw [hlast] at h1 h2 ⊢
  by_cases hs : 64 ≤ ds.getLast hne
  · simp only [hs, if_true] at h1 h2 ⊢
    by_cases hsh : 7 * ds.length < 64
    · rw [if_pos ⟨hsh, (and40 _ hl128).2 hs⟩]
      have h64 : value ds < 2 ^ 64 :=
        Nat.lt_of_lt_of_le hv (Nat.pow_le_pow_right (by omega) (by omega))
      rw [Nat.mod_eq_of_lt h64]
      have e : 2 ^ 64 - 2 ^ (7 * ds.length) = (2 ^ (64 - 7 * ds.length) - 1) <<< (7 * ds.length) := by
        rw [Nat.shiftLeft_eq, Nat.sub_mul, ← Nat.pow_add]
        congr 2 <;> omega
      have hle : 2 ^ (7 * ds.length) ≤ 2 ^ 64 := Nat.pow_le_pow_right (by omega) (by omega)
      rw [e, or_shift _ _ _ hv, ← Nat.shiftLeft_eq, ← e]
      have hc : ((2 ^ (7 * ds.length) : Nat) : Int) = 2 ^ (7 * ds.length) := by push_cast; rfl
      apply toInt64_eq _ _ (by omega) h1 h2
      refine ⟨1, ?_⟩
      rw [Nat.cast_add, Nat.cast_sub hle]
      push_cast
      ring
    · rw [if_neg (fun h => hsh h.1)]
      apply toInt64_eq _ _ (Nat.mod_lt _ (by norm_num)) h1 h2
      have hlen10 : ds.length = 10 := by omega
      rw [hlen10]
      refine ⟨2 ^ 6 - (value ds / 2 ^ 64 : Nat), ?_⟩
      have := Nat.mod_add_div (value ds) (2 ^ 64)
      have hc : ((value ds % 2 ^ 64 : Nat) : Int) + 2 ^ 64 * ((value ds / 2 ^ 64 : Nat) : Int) = value ds := by
        exact_mod_cast this
      norm_num at hc ⊢
      omega
  · simp only [hs, if_false] at h1 h2 ⊢
    rw [if_neg (fun h => hs ((and40 _ hl128).1 h.2))]
    have h64 : value ds < 2 ^ 64 := by
      norm_num at h2 ⊢; omega
    rw [Nat.mod_eq_of_lt h64]
    exact toInt64_eq _ _ h64 h1 h2 ⟨0, by simp⟩

theorem digitsS_spec (v : Int) :
    digitsS v ≠ [] ∧ (∀ d ∈ digitsS v, d < 128) ∧ signedValue (digitsS v) = v := by
  induction hn : v.natAbs using Nat.strongRecOn generalizing v with
  | _ n ih =>
    subst hn
    unfold digitsS
    split
    · rename_i h
      refine ⟨by simp, by simp; omega, ?_⟩
      have hg : [(v % 128).toNat].getLast?.getD 0 = (v % 128).toNat := rfl
      unfold signedValue
      rw [hg]
      simp only [value, List.length_singleton]
      by_cases hc : 64 ≤ (v % 128).toNat
      · rw [if_pos hc]; push_cast; omega
      · rw [if_neg hc]; push_cast; omega
    · rename_i h
      obtain ⟨h1, h2, h3⟩ := ih (v / 128).natAbs (by omega) (v / 128) rfl
      refine ⟨by simp, ?_, ?_⟩
      · intro d hd
        rcases List.mem_cons.1 hd with rfl | hd'
        · omega
        · exact h2 d hd'
      · unfold signedValue at h3 ⊢
        have hl : ((v % 128).toNat :: digitsS (v / 128)).getLast? = (digitsS (v / 128)).getLast? := by
          rw [List.getLast?_cons]
          cases hh : (digitsS (v / 128)).getLast? with
          | none => rw [List.getLast?_eq_none_iff] at hh; exact absurd hh h1
          | some x => rfl
        rw [hl]
        have hv : (value ((v % 128).toNat :: digitsS (v / 128)) : Int) = v % 128 + 128 * value (digitsS (v / 128)) := by
          simp only [value]
          push_cast
          omega
        rw [hv, List.length_cons]
        have hp : (2 : Int) ^ (7 * ((digitsS (v / 128)).length + 1)) =
            128 * 2 ^ (7 * (digitsS (v / 128)).length) := by
          rw [Nat.mul_add, pow_add]; ring
        rw [hp]
        generalize (2 : Int) ^ (7 * (digitsS (v / 128)).length) = P at *
        split at h3 <;> rename_i hc
        · rw [if_pos hc]; omega
        · rw [if_neg hc]; omega

theorem digitsS_length (v : Int) (n : Nat) (h1 : -2 ^ (7 * n + 6) ≤ v) (h2 : v < 2 ^ (7 * n + 6)) :
    (digitsS v).length ≤ n + 1 := by
  induction n generalizing v with
  | zero =>
    unfold digitsS
    norm_num at h1 h2
    rw [if_pos ⟨h1, h2⟩]
    simp
  | succ n ih =>
    unfold digitsS
    split
    · simp
    · rw [List.length_cons]
      have hp : (2 : Int) ^ (7 * (n + 1) + 6) = 128 * 2 ^ (7 * n + 6) := by
        rw [show 7 * (n + 1) + 6 = (7 * n + 6) + 7 by ring, pow_add]; ring
      rw [hp] at h1 h2
      have := ih (v / 128) (by omega) (by omega)
      omega

/-- **C39, signed round trip** for every signed 64-bit value. -/
theorem sleb_roundtrip (v : Int) (h1 : -2 ^ 63 ≤ v) (h2 : v < 2 ^ 63) (rest : List Nat) :
    readS (encodeDigits (digitsS v) ++ rest) = some (v, (digitsS v).length) := by
  obtain ⟨e1, e2, e3⟩ := digitsS_spec v
  have hl := digitsS_length v 9 (by norm_num at h1 ⊢; omega) (by norm_num at h2 ⊢; omega)
  rw [sleb_decode _ rest e1 e2 hl (by rw [e3]; exact h1) (by rw [e3]; exact h2), e3]

/-- The limit of the decoder: an encoding padded beyond ten bytes makes the code shift a 64-bit word by 70
(undefined behaviour), although the format allows the padding. -/
theorem uleb_overlong_undefined : readU (encodeDigits [1, 0, 0, 0, 0, 0, 0, 0, 0, 0, 0]) = none := by
  decide +kernel

/-! ## Fixed-width reads -/

/-- `endian_`. -/
inductive Endian where
  | little
  | big
deriving DecidableEq

/-- `ReadTwoBytes` (bytereader-inl.h:29-37). -/
def read2 (e : Endian) (b0 b1 : Nat) : Nat :=
  match e with
  | .little => b0 ||| b1 <<< 8
  | .big => b1 ||| b0 <<< 8

/-- `ReadThreeBytes` (bytereader-inl.h:39-48). -/
def read3 (e : Endian) (b0 b1 b2 : Nat) : Nat :=
  match e with
  | .little => b0 ||| b1 <<< 8 ||| b2 <<< 16
  | .big => b2 ||| b1 <<< 8 ||| b0 <<< 16

/-- `ReadFourBytes` (bytereader-inl.h:50-60). -/
def read4 (e : Endian) (b0 b1 b2 b3 : Nat) : Nat :=
  match e with
  | .little => b0 ||| b1 <<< 8 ||| b2 <<< 16 ||| b3 <<< 24
  | .big => b3 ||| b2 <<< 8 ||| b1 <<< 16 ||| b0 <<< 24

/-- `ReadEightBytes` (bytereader-inl.h:62-78). -/
def read8 (e : Endian) (b0 b1 b2 b3 b4 b5 b6 b7 : Nat) : Nat :=
  match e with
  | .little => b0 ||| b1 <<< 8 ||| b2 <<< 16 ||| b3 <<< 24 ||| b4 <<< 32 ||| b5 <<< 40 ||| b6 <<< 48 ||| b7 <<< 56
  | .big => b7 ||| b6 <<< 8 ||| b5 <<< 16 ||| b4 <<< 24 ||| b3 <<< 32 ||| b2 <<< 40 ||| b1 <<< 48 ||| b0 <<< 56

/-- Reading `n` bytes from a buffer (`none`: out of bounds or unsupported width). -/
def readFixed (e : Endian) (n : Nat) (buf : List Nat) : Option Nat :=
  match n, buf with
  | 1, b0 :: _ => some b0
  | 2, b0 :: b1 :: _ => some (read2 e b0 b1)
  | 3, b0 :: b1 :: b2 :: _ => some (read3 e b0 b1 b2)
  | 4, b0 :: b1 :: b2 :: b3 :: _ => some (read4 e b0 b1 b2 b3)
  | 8, b0 :: b1 :: b2 :: b3 :: b4 :: b5 :: b6 :: b7 :: _ => some (read8 e b0 b1 b2 b3 b4 b5 b6 b7)
  | _, _ => none

/-- Specification: the `n` bytes of `v`, least significant first. -/
def leBytes : Nat → Nat → List Nat
  | 0, _ => []
  | n + 1, v => v % 256 :: leBytes n (v / 256)

/-- Specification: the `n` bytes of `v` in the given order. -/
def encodeFixed (e : Endian) (n v : Nat) : List Nat :=
  match e with
  | .little => leBytes n v
  | .big => (leBytes n v).reverse

/-- **C39, fixed width.** Reading back the `n`-byte encoding of any value below `256^n`, in either byte
order and whatever follows it, returns the value. -/
theorem fixed_roundtrip (e : Endian) (n v : Nat) (hn : n = 1 ∨ n = 2 ∨ n = 3 ∨ n = 4 ∨ n = 8)
    (hv : v < 256 ^ n) (rest : List Nat) : readFixed e n (encodeFixed e n v ++ rest) = some v := by
  rcases hn with rfl | rfl | rfl | rfl | rfl <;> cases e <;>
    simp only [encodeFixed, leBytes, List.reverse_cons, List.reverse_nil, List.nil_append, List.cons_append,
      readFixed, read2, read3, read4, read8, Option.some.injEq] <;>
    norm_num at hv
  · omega
  · omega
  all_goals
    rw [or_shift _ _ 8 (by omega)]
    try rw [or_shift _ _ 16 (by omega)]
    try rw [or_shift _ _ 24 (by omega)]
    try rw [or_shift _ _ 32 (by omega)]
    try rw [or_shift _ _ 40 (by omega)]
    try rw [or_shift _ _ 48 (by omega)]
    try rw [or_shift _ _ 56 (by omega)]
    omega

/-- `ReadInitialLength` (bytereader.cc:49-65): the length, the number of bytes read, and the offset size
selected. -/
def readInitialLength (e : Endian) (buf : List Nat) : Option (Nat × Nat × Nat) := do
  let l ← readFixed e 4 buf
  if l = 0xffffffff then
    let l' ← readFixed e 8 (buf.drop 4)
    some (l', 12, 8)
  else some (l, 4, 4)

/-- C39, unit lengths: a 32-bit length below the escape value is read as such; the 64-bit form (escape
followed by 8 bytes) is read for every 64-bit length. -/
theorem initial_length_roundtrip (e : Endian) (rest : List Nat) :
    (∀ v, v < 0xffffffff → readInitialLength e (encodeFixed e 4 v ++ rest) = some (v, 4, 4)) ∧
    (∀ v, v < 2 ^ 64 → readInitialLength e (encodeFixed e 4 0xffffffff ++ (encodeFixed e 8 v ++ rest)) =
      some (v, 12, 8)) := by
  constructor
  · intro v hv
    unfold readInitialLength
    rw [fixed_roundtrip e 4 v (by omega) (by norm_num; omega)]
    simp only [Option.bind_eq_bind, Option.bind_some]
    rw [if_neg (by omega)]
  · intro v hv
    unfold readInitialLength
    rw [fixed_roundtrip e 4 0xffffffff (by omega) (by norm_num)]
    simp only [Option.bind_eq_bind, Option.bind_some, if_true]
    have : (encodeFixed e 4 0xffffffff ++ (encodeFixed e 8 v ++ rest)).drop 4 = encodeFixed e 8 v ++ rest := by
      cases e <;> rfl
    rw [this, fixed_roundtrip e 8 v (by omega) (by norm_num; omega)]
    rfl

example : readU [0xe5, 0x8e, 0x26] = some (624485, 3) ∧ readS [0xc0, 0xbb, 0x78] = some (-123456, 3) ∧
    readS [0x80, 0x80, 0x80, 0x80, 0x80, 0x80, 0x80, 0x80, 0x80, 0x7f] = some (-2 ^ 63, 10) ∧
    readFixed .big 4 [0x12, 0x34, 0x56, 0x78] = some 0x12345678 := by decide +kernel

end Verif.ByteReader

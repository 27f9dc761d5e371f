import Verif.Gcov

namespace Verif.Gcov
open Verif

theorem readBytes_append {n : Nat} (h : n < blockByteSize) (a r : List UInt8) (ha : a.length = n) :
    readBytes n (a ++ r) = some (some a, r) := by
  unfold readBytes
  rw [if_pos h, if_neg (by simp [ha])]
  rw [List.take_append_of_le_length (by omega), List.drop_append_of_le_length (by omega)]
  rw [List.take_of_length_le (by omega), List.drop_of_length_le (by omega)]
  simp

theorem readUnsigned_le32 (v : Nat) (r : List UInt8) :
    readUnsigned (le32 v ++ r) = some (v % 4294967296, r) := by
  unfold readUnsigned
  rw [readBytes_append (by decide) _ _ (le32_length v)]
  simp [ofLe32_le32]

theorem readCounter_writeCounter (v : Nat) (r : List UInt8) :
    readCounter (writeCounter v ++ r) = some (v % 18446744073709551616, r) := by
  unfold readCounter
  rw [readBytes_append (by decide) _ _ (by simp [writeCounter])]
  have h1 : (writeCounter v).take 4 = le32 v := by
    unfold writeCounter; rw [List.take_append_of_le_length (by simp)]; rfl
  have h2 : (writeCounter v).drop 4 = le32 (v / 4294967296) := by
    unfold writeCounter; rw [List.drop_append_of_le_length (by simp)]; rfl
  simp only [Option.bind_eq_bind, Option.bind_some, h1, h2, ofLe32_le32]
  congr 2
  omega

/-- All the padding written by the v1 string writer lies in the single word the code clears. -/
theorem pad_lt_four (n : Nat) : 1 ≤ 4 * ((n + 4) / 4) - n ∧ 4 * ((n + 4) / 4) - n ≤ 4 := by omega

theorem takeWhile_nul (s : Name) (hs : (0 : UInt8) ∉ s) (k : Nat) (hk : 0 < k) :
    (s ++ List.replicate k (0 : UInt8)).takeWhile (· ≠ 0) = s := by
  induction s with
  | nil =>
    obtain ⟨k, rfl⟩ : ∃ j, k = j + 1 := ⟨k - 1, by omega⟩
    simp [List.replicate_succ]
  | cons a t ih =>
    have ha : a ≠ 0 := fun h => hs (by rw [h]; exact List.mem_cons_self)
    have ht : (0 : UInt8) ∉ t := fun h => hs (List.mem_cons_of_mem _ h)
    rw [List.cons_append, List.takeWhile_cons_of_pos (by simpa using ha), ih ht]

theorem readString_writeString (version : Nat) (s : Name) (hs : (0 : UInt8) ∉ s)
    (hl : s.length + 4 < blockByteSize) (r : List UInt8) :
    readString version (writeString version s ++ r) = some (s, r) := by
  unfold blockByteSize at hl
  unfold writeString
  by_cases hv : version ≥ 2
  · rw [if_pos hv]
    unfold readString
    rw [List.append_assoc, List.append_assoc, readUnsigned_le32]
    have e : (s.length + 1) % 4294967296 = s.length + 1 := Nat.mod_eq_of_lt (by omega)
    simp only [Option.bind_eq_bind, Option.bind_some, e, if_pos hv]
    rw [if_neg (by omega), ← List.append_assoc,
      readBytes_append (by unfold blockByteSize; omega) (s ++ [0]) r (by simp)]
    simp only [Option.bind_some]
    rw [if_pos (by simp)]
    have := takeWhile_nul s hs 1 (by omega)
    simp only [List.replicate_one] at this
    rw [this]
  · rw [if_neg hv]
    unfold readString
    simp only []
    rw [List.append_assoc, List.append_assoc, readUnsigned_le32]
    have e : ((s.length + 4) / 4) % 4294967296 = (s.length + 4) / 4 := Nat.mod_eq_of_lt (by omega)
    have e2 : (4 * ((s.length + 4) / 4)) % 4294967296 = 4 * ((s.length + 4) / 4) :=
      Nat.mod_eq_of_lt (by omega)
    have hp := pad_lt_four s.length
    simp only [Option.bind_eq_bind, Option.bind_some, e, if_neg hv, e2]
    rw [if_neg (by omega), ← List.append_assoc,
      readBytes_append (by unfold blockByteSize; omega) _ r (by simp; omega)]
    simp only [Option.bind_some]
    rw [if_pos (by
      apply List.mem_append_right
      apply List.mem_replicate.2
      exact ⟨by omega, rfl⟩)]
    rw [takeWhile_nul s hs _ (by omega)]

/-- The stream a buffer state stands for. -/
def RState.abs (st : RState) : List UInt8 := st.buffer.drop st.offset ++ st.file

end Verif.Gcov

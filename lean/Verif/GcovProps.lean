import Verif.GcovLemmas

/-!
# C05, C06: gcov primitives
-/
namespace Verif.Gcov
open Verif

/-- Values that fit the on-disk fields: 32-bit words, 64-bit counters, strings without NUL that the
reader's `CHECK(bytes < GCOV_BLOCK_BYTE_SIZE)` admits. -/
def Item.Fits : Item → Prop
  | .u32 v => v < 2 ^ 32
  | .counter v => v < 2 ^ 64
  | .str s => (0 : UInt8) ∉ s ∧ s.length + 4 < 2 ^ 14

/-- **C05.** Any sequence of values written is read back unchanged, in order, in either string
encoding, and the reader stops exactly at the end of what was written (`rest` untouched). -/
theorem gcov_roundtrip (version : Nat) (items : List Item) (h : ∀ i ∈ items, i.Fits)
    (rest : List UInt8) :
    readKinds version (items.map Item.kind) (writeItems version items ++ rest)
      = some (items, rest) := by
  induction items with
  | nil => simp [writeItems, readKinds]
  | cons i is ih =>
    have hi := h i List.mem_cons_self
    have his := ih (fun j hj => h j (List.mem_cons_of_mem _ hj))
    have e : writeItems version (i :: is) ++ rest
        = writeItem version i ++ (writeItems version is ++ rest) := by
      simp [writeItems]
    rw [e]
    have hk : readKind version i.kind (writeItem version i ++ (writeItems version is ++ rest))
        = some (i, writeItems version is ++ rest) := by
      cases i with
      | u32 v =>
        have : v % 4294967296 = v := Nat.mod_eq_of_lt hi
        simp [readKind, Item.kind, writeItem, writeUnsigned, readUnsigned_le32, this]
      | counter v =>
        have : v % 18446744073709551616 = v := Nat.mod_eq_of_lt hi
        simp [readKind, Item.kind, writeItem, readCounter_writeCounter, this]
      | str s =>
        have := readString_writeString version s hi.1 hi.2 (writeItems version is ++ rest)
        simp [readKind, Item.kind, writeItem, this]
    simp only [List.map_cons, readKinds, hk, Option.bind_eq_bind, Option.bind_some, his]

/-- Non-vacuity: a sequence mixing all kinds fits. -/
example : ∀ i ∈ [Item.u32 7, .str [65, 66], .counter (2 ^ 40)], i.Fits := by
  intro i hi
  simp at hi
  rcases hi with rfl | rfl | rfl <;> simp [Item.Fits]

/-- What the round trip excludes is real: the writer accepts a string the reader dies on
(`CHECK(bytes < GCOV_BLOCK_BYTE_SIZE)`), for every NUL-free string of 16383 bytes or more
(below 4 GiB). -/
theorem gcov_long_string_aborts (s : Name)
    (hl : 2 ^ 14 ≤ s.length + 1) (hu : s.length + 1 < 2 ^ 32) (rest : List UInt8) :
    readString 2 (writeString 2 s ++ rest) = none := by
  unfold writeString readString
  rw [if_pos (by decide), List.append_assoc, List.append_assoc, readUnsigned_le32]
  have e : (s.length + 1) % 4294967296 = s.length + 1 := Nat.mod_eq_of_lt (by omega)
  simp only [Option.bind_eq_bind, Option.bind_some, e]
  rw [if_neg (by omega), if_pos (by decide)]
  unfold readBytes
  rw [if_neg (by unfold blockByteSize; omega)]
  rfl

example : ∃ s : Name, (0 : UInt8) ∉ s ∧ 2 ^ 14 ≤ s.length + 1 ∧ s.length + 1 < 2 ^ 32 := by
  refine ⟨List.replicate 20000 65, ?_, by rw [List.length_replicate]; decide,
    by rw [List.length_replicate]; decide⟩
  intro h
  have := (List.mem_replicate.1 h).2
  revert this; decide

/-- A buffer state is coherent when the read position lies inside the buffered bytes. -/
def RState.Ok (st : RState) : Prop := st.offset ≤ st.buffer.length

/-- **C06 (one read).** A buffered read returns what a read from the unread bytes of the file
(buffered remainder followed by the rest of the file) returns, leaves a coherent state standing for
the same remaining bytes — whatever the buffer fill level, position and capacity. When the request
cannot be satisfied both report null and both are left with nothing but bytes that no later
non-empty read can deliver. -/
theorem buffered_read_refines (n : Nat) (st : RState) (hok : st.Ok) :
    match st.readBytes n, readBytes n st.abs with
    | none, none => True
    | some (some a, st'), some (some b, s') => a = b ∧ st'.Ok ∧ st'.abs = s'
    | some (none, st'), some (none, s') => st'.Ok ∧ st'.abs = s'
    | _, _ => False := by
  unfold RState.readBytes readBytes
  by_cases hn : n < blockByteSize
  · rw [if_pos hn, if_pos hn]
    simp only []
    have hd : (st.buffer.drop st.offset).length = st.buffer.length - st.offset := by simp
    by_cases hx : st.buffer.length - st.offset < n
    · rw [if_pos hx]
      generalize ha : (if st.buffer.length - st.offset + n > st.alloc then
        allocate st.alloc (st.buffer.length - st.offset + n) else st.alloc) = al
      have hal : st.buffer.length - st.offset + n ≤ al := by
        subst ha
        split
        · unfold allocate; split <;> omega
        · omega
      generalize hroom : al - (st.buffer.length - st.offset) = room
      have hr : n ≤ room := by omega
      have habs : st.abs.length = (st.buffer.length - st.offset) + st.file.length := by
        simp [RState.abs]
      by_cases hs : (st.buffer.drop st.offset ++ st.file.take room).length < n
      · rw [if_pos hs]
        have hfl : st.file.length < room := by
          simp only [List.length_append, List.length_drop, List.length_take] at hs
          omega
        have hlt : st.abs.length < n := by
          simp only [List.length_append, List.length_drop, List.length_take] at hs
          rw [habs]; omega
        rw [if_pos hlt]
        refine ⟨by simp [RState.Ok], ?_⟩
        simp only [RState.abs, List.drop_nil, List.nil_append]
        exact List.drop_of_length_le (by omega)
      · rw [if_neg hs]
        have hge : ¬ st.abs.length < n := by
          simp only [List.length_append, List.length_drop, List.length_take] at hs
          rw [habs]; omega
        rw [if_neg hge]
        have hsplit : st.abs = (st.buffer.drop st.offset ++ st.file.take room)
            ++ st.file.drop room := by
          simp [RState.abs]
        rw [hsplit]
        generalize st.buffer.drop st.offset ++ st.file.take room = B at hs
        refine ⟨?_, ?_, ?_⟩
        · rw [List.take_append_of_le_length (by omega)]
        · simp only [RState.Ok]; omega
        · simp only [RState.abs]
          rw [List.drop_append_of_le_length (by omega)]
    · rw [if_neg hx]
      have hge : ¬ st.abs.length < n := by simp [RState.abs]; omega
      rw [if_neg hge]
      refine ⟨?_, ?_, ?_⟩
      · unfold RState.abs
        rw [List.take_append_of_le_length (by omega)]
      · simp only [RState.Ok] at *; omega
      · simp only [RState.abs]
        rw [List.drop_append_of_le_length (by omega), List.drop_drop]
  · rw [if_neg hn, if_neg hn]; trivial

/-- Run a sequence of raw reads on the buffered reader: the list of results. -/
def RState.run : List Nat → RState → Option (List (Option (List UInt8)))
  | [], _ => some []
  | n :: ns, st => do
    let (r, st) ← st.readBytes n
    let rs ← RState.run ns st
    some (r :: rs)

/-- The same sequence of reads directly on the bytes. -/
def runFlat : List Nat → List UInt8 → Option (List (Option (List UInt8)))
  | [], _ => some []
  | n :: ns, s => do
    let (r, s) ← readBytes n s
    let rs ← runFlat ns s
    some (r :: rs)

/-- **C06.** From a freshly opened file (empty buffer, any previously allocated capacity), every
sequence of reads of any sizes returns exactly what reading the file's bytes directly returns. -/
theorem buffered_run_eq (ns : List Nat) (st : RState) (hok : st.Ok) :
    st.run ns = runFlat ns st.abs := by
  induction ns generalizing st with
  | nil => rfl
  | cons n ns ih =>
    have h := buffered_read_refines n st hok
    unfold RState.run runFlat
    revert h
    cases h1 : st.readBytes n with
    | none =>
      cases h2 : readBytes n st.abs with
      | none => intro _; rfl
      | some q => obtain ⟨b, s'⟩ := q; cases b <;> (intro h; exact h.elim)
    | some p =>
      obtain ⟨a, st'⟩ := p
      cases h2 : readBytes n st.abs with
      | none => intro h; cases a <;> exact h.elim
      | some q =>
        obtain ⟨b, s'⟩ := q
        cases a with
        | none =>
          cases b with
          | none =>
            intro h
            simp only [Option.bind_eq_bind, Option.bind_some]
            rw [ih st' h.1, h.2]
          | some b => intro h; exact h.elim
        | some a =>
          cases b with
          | none => intro h; exact h.elim
          | some b =>
            intro h
            obtain ⟨rfl, h2', h3⟩ := h
            simp only [Option.bind_eq_bind, Option.bind_some]
            rw [ih st' h2', h3]

/-- **C06** from `gcov_open`: empty buffer, arbitrary leftover capacity. -/
theorem buffered_open_eq (ns : List Nat) (alloc : Nat) (file : List UInt8) :
    (RState.mk [] 0 alloc file).run ns = runFlat ns file := by
  rw [buffered_run_eq ns _ (by simp [RState.Ok])]
  rfl

/-- **C06, end of file.** Once a read has come up short, every later word or counter read yields
zero: nothing of the file is left. -/
theorem reads_after_eof_are_zero (n : Nat) (s s' : List UInt8)
    (h : readBytes n s = some (none, s')) :
    readUnsigned s' = some (0, []) ∧ readCounter s' = some (0, []) := by
  unfold readBytes at h
  split at h
  · split at h
    · simp only [Option.some.injEq, Prod.mk.injEq, true_and] at h
      subst h
      exact ⟨by decide, by decide⟩
    · simp at h
  · simp at h

example : ∃ s', readBytes 8 [1, 2, 3] = some (none, s') := ⟨[], by decide⟩

example : (RState.mk [1, 2, 3] 1 16384 [4, 5, 6, 7]).Ok ∧
    (RState.mk [1, 2, 3] 1 16384 [4, 5, 6, 7]).run [4, 4] = some [some [2, 3, 4, 5], none] := by
  constructor
  · simp [RState.Ok]
  · decide

end Verif.Gcov

import Verif.Dwp
import Mathlib.Data.List.Basic
import Mathlib.Data.Finset.Card
import Mathlib.Data.Fintype.Card
import Mathlib.Data.Fintype.EquivFin
import Mathlib.Tactic.Ring
import Mathlib.Data.Nat.Prime.Basic
import Mathlib.Tactic.Linarith
import Mathlib.Algebra.Order.Ring.Nat

namespace Verif.Dwp
open Verif.ByteReader

/-! ## The sequence of slots -/

theorem mask_eq {k : Nat} (hk : k < 32) (x : Nat) : mask (2 ^ k) x = x % 2 ^ k := by
  unfold mask
  have h1 : (2 : Nat) ^ k < 2 ^ 32 := Nat.pow_lt_pow_right (by norm_num) hk
  have h0 : 0 < (2 : Nat) ^ k := Nat.two_pow_pos k
  have : (2 ^ k + 2 ^ 32 - 1) % 2 ^ 32 = 2 ^ k - 1 := by omega
  rw [this, Nat.and_two_pow_sub_one_eq_mod]

theorem dvd32 {k : Nat} (hk : k < 32) : (2 : Nat) ^ k ∣ 2 ^ 32 := pow_dvd_pow 2 (by omega)

theorem first_eq {k : Nat} (hk : k < 32) (id : Nat) : first (2 ^ k) id = slotOf k id 0 := by
  unfold first slotOf
  rw [mask_eq hk, Nat.mod_mod_of_dvd _ (dvd32 hk)]
  simp

theorem step_eq {k : Nat} (hk : k < 32) (id : Nat) : step (2 ^ k) id = ((id / 2 ^ 32) % 2 ^ k ||| 1) := by
  unfold step
  rw [mask_eq hk, Nat.mod_mod_of_dvd _ (dvd32 hk)]

theorem next_eq {k : Nat} (hk : k < 32) (id i : Nat) :
    mask (2 ^ k) ((slotOf k id i + step (2 ^ k) id) % 2 ^ 32) = slotOf k id (i + 1) := by
  rw [mask_eq hk, Nat.mod_mod_of_dvd _ (dvd32 hk), step_eq hk]
  unfold slotOf
  rw [Nat.mod_add_mod]
  congr 1
  ring

theorem odd_or_one (x : Nat) : (x ||| 1) % 2 = 1 := by
  have h : (x ||| 1).testBit 0 = true := by simp
  rw [Nat.testBit_zero] at h
  simpa using h

/-- Every slot is in the sequence. -/
theorem slot_surj (k id t : Nat) (ht : t < 2 ^ k) : ∃ i, slotOf k id i = t := by
  have hodd := odd_or_one ((id / 2 ^ 32) % 2 ^ k)
  unfold slotOf
  generalize ((id / 2 ^ 32) % 2 ^ k ||| 1) = s at hodd ⊢
  have hc : Nat.Coprime s (2 ^ k) := by
    apply Nat.Coprime.pow_right
    exact (Nat.coprime_two_right.2 (Nat.odd_iff.2 hodd))
  have hp : 0 < 2 ^ k := Nat.two_pow_pos k
  have hinj : Function.Injective (fun i : Fin (2 ^ k) => (⟨(id + i.1 * s) % 2 ^ k, Nat.mod_lt _ hp⟩ : Fin (2 ^ k))) := by
    intro a b hab
    have h1 : id + a.1 * s ≡ id + b.1 * s [MOD 2 ^ k] := congrArg Fin.val hab
    have h2 : a.1 * s ≡ b.1 * s [MOD 2 ^ k] := Nat.ModEq.add_left_cancel' id h1
    have h3 : a.1 ≡ b.1 [MOD 2 ^ k] := Nat.ModEq.cancel_right_of_coprime (by rw [Nat.coprime_comm] at hc; exact hc) h2
    apply Fin.ext
    rwa [Nat.ModEq, Nat.mod_eq_of_lt a.2, Nat.mod_eq_of_lt b.2] at h3
  obtain ⟨i, hi⟩ := (Finite.injective_iff_surjective.1 hinj) ⟨t, ht⟩
  exact ⟨i.1, by simpa using congrArg Fin.val hi⟩

theorem slot_lt (k id i : Nat) : slotOf k id i < 2 ^ k := Nat.mod_lt _ (Nat.two_pow_pos k)

/-- The loop ends at the first slot of the sequence that stops it. -/
theorem walk_at {k : Nat} (hk : k < 32) (stop : Nat → Option Bool) (id i : Nat)
    (hi : stop (slotOf k id i) = some true) (hj : ∀ j < i, stop (slotOf k id j) = some false) :
    walk stop (2 ^ k) (step (2 ^ k) id) (first (2 ^ k) id) = some (slotOf k id i) := by
  rw [first_eq hk]
  suffices H : ∀ d j, j + d = i → walk stop (2 ^ k) (step (2 ^ k) id) (slotOf k id j) = some (slotOf k id i) from H i 0 (by omega)
  intro d
  induction d with
  | zero =>
    intro j h
    obtain rfl : j = i := by omega
    rw [walk, hi]; rfl
  | succ d ih =>
    intro j h
    rw [walk, hj j (by omega)]
    simp only [Option.bind_eq_bind, Option.bind_some]
    rw [next_eq hk]
    exact ih (j + 1) (by omega)

/-- The loop ends only at a slot that stops it. -/
theorem walk_stop (stop : Nat → Option Bool) (n st slot r : Nat) (h : walk stop n st slot = some r) : stop r = some true := by
  revert h
  refine walk.partial_correctness stop n st (fun _ r => stop r = some true) ?_ slot r
  intro walk ih s r h
  cases hs : stop s with
  | none => rw [hs] at h; cases h
  | some b =>
    rw [hs] at h
    cases b with
    | true => simp at h; subst h; exact hs
    | false => exact ih _ _ (by simpa using h)

/-! ## The table -/

theorem built_mem {k : Nat} {us : List (Nat × Nat)} {T : Table} (h : Built k us T) : ∀ s u, T s = some u → u ∈ us := by
  induction h with
  | nil => intro s u h; cases h
  | cons _ hi ih =>
    obtain ⟨i, _, _, rfl⟩ := hi
    intro s u h
    dsimp only at h
    split at h
    · cases h; simp
    · exact List.mem_cons_of_mem _ (ih _ _ h)

theorem built_at {k : Nat} {us : List (Nat × Nat)} {T : Table} (h : Built k us T) :
    ∀ u ∈ us, ∃ i, T (slotOf k u.1 i) = some u ∧ ∀ j < i, T (slotOf k u.1 j) ≠ none := by
  induction h with
  | nil => simp
  | @cons us T v T' _ hi ih =>
    obtain ⟨i, h1, h2, rfl⟩ := hi
    intro u hu
    rcases List.mem_cons.1 hu with rfl | hu
    · refine ⟨i, by simp, fun j hj => ?_⟩
      dsimp only
      split
      · simp
      · exact h1 j hj
    · obtain ⟨a, ha, hb⟩ := ih u hu
      refine ⟨a, ?_, fun j hj => ?_⟩
      · dsimp only
        rw [if_neg]
        · exact ha
        · intro he; rw [he] at ha; rw [ha] at h2; cases h2
      · dsimp only
        split
        · simp
        · exact hb j hj

theorem built_filled {k : Nat} {us : List (Nat × Nat)} {T : Table} (h : Built k us T) :
    ∃ L : List Nat, L.length = us.length ∧ ∀ s, T s ≠ none → s ∈ L := by
  induction h with
  | nil => exact ⟨[], rfl, by simp⟩
  | @cons us T v T' _ hi ih =>
    obtain ⟨i, _, _, rfl⟩ := hi
    obtain ⟨L, h1, h2⟩ := ih
    refine ⟨slotOf k v.1 i :: L, by simp [h1], fun s hs => ?_⟩
    dsimp only at hs
    split at hs
    · simp [*]
    · exact List.mem_cons_of_mem _ (h2 s hs)

theorem built_free {k : Nat} {us : List (Nat × Nat)} {T : Table} (h : Built k us T) (hf : us.length < 2 ^ k) : ∃ s < 2 ^ k, T s = none := by
  obtain ⟨L, h1, h2⟩ := built_filled h
  by_contra hc
  push Not at hc
  have : Finset.range (2 ^ k) ⊆ L.toFinset := fun s hs => by
    rw [List.mem_toFinset]
    exact h2 s (hc s (Finset.mem_range.1 hs))
  have := (Finset.card_le_card this).trans L.toFinset_card_le
  rw [Finset.card_range] at this
  omega

/-- The slot at which the lookup of `id` ends: the one of the unit, or a free one if there is none. -/
theorem lookup_slot {k : Nat} {us : List (Nat × Nat)} {T : Table} (h : Built k us T) (hf : us.length < 2 ^ k)
    (id : Nat) :
    ∃ i, (∀ j < i, ∃ u, T (slotOf k id j) = some u ∧ u.1 ≠ id) ∧
      ((T (slotOf k id i) = none ∧ id ∉ us.map Prod.fst) ∨ ∃ u ∈ us, u.1 = id ∧ T (slotOf k id i) = some u) := by
  obtain ⟨s, hs, hn⟩ := built_free h hf
  obtain ⟨i0, hi0⟩ := slot_surj k id s hs
  have hex : ∃ i, T (slotOf k id i) = none ∨ ∃ u, T (slotOf k id i) = some u ∧ u.1 = id := ⟨i0, by rw [hi0]; exact Or.inl hn⟩
  classical
  refine ⟨Nat.find hex, fun j hj => ?_, ?_⟩
  · have := Nat.find_min hex hj
    push Not at this
    obtain ⟨h1, h2⟩ := this
    obtain ⟨u, hu⟩ := Option.ne_none_iff_exists'.1 h1
    exact ⟨u, hu, h2 u hu⟩
  · rcases Nat.find_spec hex with h1 | ⟨u, h1, h2⟩
    · left
      refine ⟨h1, fun hm => ?_⟩
      obtain ⟨u, hu, rfl⟩ := List.mem_map.1 hm
      obtain ⟨a, ha, hb⟩ := built_at h u hu
      rcases Nat.lt_trichotomy (Nat.find hex) a with hlt | he | hgt
      · exact hb _ hlt h1
      · rw [he, ha] at h1; cases h1
      · exact Nat.find_min hex hgt (Or.inr ⟨u, ha, rfl⟩)
    · exact Or.inr ⟨u, built_mem h _ _ h1, h2, h1⟩

/-! ## Reading -/

theorem leBytes_length (n v : Nat) : (leBytes n v).length = n := by
  induction n generalizing v with
  | zero => rfl
  | succ n ih => simp [leBytes, ih]

theorem u32_length (e : Endian) (v : Nat) : (u32 e v).length = 4 := by cases e <;> simp [u32, encodeFixed, leBytes_length]
theorem u64_length (e : Endian) (v : Nat) : (u64 e v).length = 8 := by cases e <;> simp [u64, encodeFixed, leBytes_length]

theorem flat_length {α : Type} (f : α → List Nat) (c : Nat) (hf : ∀ x, (f x).length = c) (l : List α) : (l.flatMap f).length = l.length * c := by
  induction l with
  | nil => simp
  | cons a t ih => simp [ih, hf, Nat.add_mul, Nat.add_comm]

theorem drop_flat {α : Type} (f : α → List Nat) (c : Nat) (hf : ∀ x, (f x).length = c) (l : List α) (i : Nat) (hi : i < l.length) (post : List Nat) :
    (l.flatMap f ++ post).drop (i * c) = f l[i] ++ ((l.drop (i + 1)).flatMap f ++ post) := by
  induction l generalizing i with
  | nil => cases hi
  | cons a t ih =>
    cases i with
    | zero => simp
    | succ i =>
      have hi' : i < t.length := by simpa using hi
      have : (i + 1) * c = (f a).length + i * c := by rw [hf]; ring
      rw [this, List.flatMap_cons, List.append_assoc, ← List.drop_drop, List.drop_left, ih i hi']
      simp

/-- A number in a table of 4-byte numbers. -/
theorem at4_flat {α : Type} (e : Endian) (g : α → Nat) (l : List α) (pre post : List Nat) (i off : Nat) (hi : i < l.length)
    (ho : off = pre.length + i * 4) (hv : g l[i] < 2 ^ 32) :
    at4 e (pre ++ (l.flatMap (fun x => u32 e (g x)) ++ post)) off = some (g l[i]) := by
  unfold at4
  rw [ho, ← List.drop_drop, List.drop_left, drop_flat _ 4 (fun x => u32_length e _) l i hi post]
  exact fixed_roundtrip e 4 _ (by simp) (by norm_num at hv ⊢; exact hv) _

theorem at8_flat {α : Type} (e : Endian) (g : α → Nat) (l : List α) (pre post : List Nat) (i off : Nat) (hi : i < l.length)
    (ho : off = pre.length + i * 8) (hv : g l[i] < 2 ^ 64) :
    at8 e (pre ++ (l.flatMap (fun x => u64 e (g x)) ++ post)) off = some (g l[i]) := by
  unfold at8
  rw [ho, ← List.drop_drop, List.drop_left, drop_flat _ 8 (fun x => u64_length e _) l i hi post]
  exact fixed_roundtrip e 8 _ (by simp) (by norm_num at hv ⊢; exact hv) _

/-- What can be read of the hash table. -/
structure TableAt (e : Endian) (idx : List Nat) (k : Nat) (T : Table) : Prop where
  sig : ∀ s < 2 ^ k, at8 e idx (16 + s * 8) = some ((T s).elim 0 Prod.fst)
  row : ∀ s < 2 ^ k, at4 e idx (16 + 2 ^ k * 8 + s * 4) = some ((T s).elim 0 Prod.snd)

theorem tableAt (e : Endian) (hdr post : List Nat) (hh : hdr.length = 16) (k : Nat) (T : Table)
    (hT : ∀ s u, T s = some u → u.1 < 2 ^ 64 ∧ u.2 < 2 ^ 32) : TableAt e (hdr ++ (encodeTable e k T ++ post)) k T := by
  constructor
  · intro s hs
    have := at8_flat e (fun s => (T s).elim 0 Prod.fst) (List.range (2 ^ k)) hdr
      ((List.range (2 ^ k)).flatMap (fun s => u32 e ((T s).elim 0 Prod.snd)) ++ post) s (16 + s * 8) (by simpa using hs) (by rw [hh])
      (by
        rw [List.getElem_range]
        cases h : T s with
        | none => simp
        | some u => exact (hT s u h).1)
    rw [List.getElem_range] at this
    unfold encodeTable
    rw [List.append_assoc]
    exact this
  · intro s hs
    have := at4_flat e (fun s => (T s).elim 0 Prod.snd) (List.range (2 ^ k))
      (hdr ++ (List.range (2 ^ k)).flatMap (fun s => u64 e ((T s).elim 0 Prod.fst))) post s (16 + 2 ^ k * 8 + s * 4) (by simpa using hs)
      (by rw [List.length_append, hh, flat_length _ 8 (fun x => u64_length e _), List.length_range])
      (by
        rw [List.getElem_range]
        cases h : T s with
        | none => simp
        | some u => exact (hT s u h).2)
    rw [List.getElem_range] at this
    unfold encodeTable
    rw [List.append_assoc]
    rw [List.append_assoc] at this
    exact this

/-- The lookup of version 2 gives the row of the unit, or 0. -/
theorem lookup2 {e : Endian} {idx : List Nat} {k : Nat} {T : Table} (hk : k < 32) (hT : TableAt e idx k T) {us : List (Nat × Nat)}
    (h : Built k us T) (hf : us.length < 2 ^ k) (hr : ∀ u ∈ us, 1 ≤ u.2) (r : Reader) (h1 : r.nslots = 2 ^ k) (h2 : r.phash = 16)
    (h3 : r.pindex = 16 + 2 ^ k * 8) (id : Nat) :
    (id ∉ us.map Prod.fst ∧ lookupCUv2 e idx r id = some 0) ∨ ∃ u ∈ us, u.1 = id ∧ lookupCUv2 e idx r id = some u.2 := by
  obtain ⟨i, hj, hi⟩ := lookup_slot h hf id
  have hw : walk (fun s => do
      let p ← at8 e idx (r.phash + s * 8)
      let i ← at4 e idx (r.pindex + s * 4)
      some (decide (i = 0 ∨ p = id))) r.nslots (step r.nslots id) (first r.nslots id) = some (slotOf k id i) := by
    rw [h1]
    apply walk_at hk
    · rw [h2, h3, hT.sig _ (slot_lt k id i), hT.row _ (slot_lt k id i)]
      rcases hi with ⟨hi, _⟩ | ⟨u, _, hu, hi⟩
      · rw [hi]; simp
      · rw [hi]; simp [hu]
    · intro j hlt
      obtain ⟨u, hu, hne⟩ := hj j hlt
      rw [h2, h3, hT.sig _ (slot_lt k id j), hT.row _ (slot_lt k id j), hu]
      have := hr u (built_mem h _ _ hu)
      simp [hne]
      omega
  unfold lookupCUv2
  rw [hw]
  simp only [Option.bind_eq_bind, Option.bind_some]
  rw [h3, hT.row _ (slot_lt k id i)]
  rcases hi with ⟨hi, hn⟩ | ⟨u, hm, hu, hi⟩
  · left; rw [hi]; exact ⟨hn, rfl⟩
  · right; rw [hi]; exact ⟨u, hm, hu, rfl⟩

/-- The lookup of version 1 gives a slot of the unit, or none. -/
theorem lookup1 {e : Endian} {idx : List Nat} {k : Nat} {T : Table} (hk : k < 32) (hT : TableAt e idx k T) {us : List (Nat × Nat)}
    (h : Built k us T) (hf : us.length < 2 ^ k) (hr : ∀ u ∈ us, u.1 ≠ 0) (r : Reader) (h1 : r.nslots = 2 ^ k) (h2 : r.phash = 16)
    (id : Nat) :
    (id ∉ us.map Prod.fst ∧ lookupCU e idx r id = some none) ∨
    ∃ u ∈ us, u.1 = id ∧ ∃ s < 2 ^ k, lookupCU e idx r id = some (some s) ∧ T s = some u := by
  obtain ⟨i, hj, hi⟩ := lookup_slot h hf id
  have hw : walk (fun s => (at8 e idx (r.phash + s * 8)).map fun p => decide (p = 0 ∨ p = id)) r.nslots (step r.nslots id)
      (first r.nslots id) = some (slotOf k id i) := by
    rw [h1]
    apply walk_at hk
    · rw [h2, hT.sig _ (slot_lt k id i)]
      rcases hi with ⟨hi, _⟩ | ⟨u, _, hu, hi⟩
      · rw [hi]; simp
      · rw [hi]; simp [hu]
    · intro j hlt
      obtain ⟨u, hu, hne⟩ := hj j hlt
      rw [h2, hT.sig _ (slot_lt k id j), hu]
      have := hr u (built_mem h _ _ hu)
      simp [hne, this]
  unfold lookupCU
  rw [hw]
  simp only [Option.bind_eq_bind, Option.bind_some]
  rw [h2, hT.sig _ (slot_lt k id i)]
  rcases hi with ⟨hi, hn⟩ | ⟨u, hm, hu, hi⟩
  · left; rw [hi]; exact ⟨hn, rfl⟩
  · right
    refine ⟨u, hm, hu, _, slot_lt k id i, ?_, hi⟩
    rw [hi]
    simp [hr u hm]

/-! ## The sections of a unit -/

theorem lookup_insert (m : List (Sect × Contrib)) (s t : Sect) (c : Contrib) :
    (insert m s c).lookup t = (m.lookup t).or (if t = s then some c else none) := by
  unfold insert
  split
  · rename_i h
    by_cases ht : t = s
    · subst ht
      rw [Option.or_of_isSome h]
    · simp [ht]
  · rename_i h
    rw [List.lookup_append]
    by_cases ht : t = s
    · subst ht
      simp
    · simp [List.lookup_cons, beq_false_of_ne ht, ht]

theorem columns_fold {e : Endian} {idx : List Nat} {a b c : Nat} (ids : List Nat) (row : List (Nat × Nat)) (hl : row.length = ids.length)
    (h1 : ∀ i (h : i < ids.length), at4 e idx (a + i * 4) = some ids[i])
    (h2 : ∀ i (h : i < row.length), at4 e idx (b + i * 4) = some row[i].1)
    (h3 : ∀ i (h : i < row.length), at4 e idx (c + i * 4) = some row[i].2) (n : Nat) (hn : n ≤ ids.length) :
    ∃ m, (List.range n).foldlM (columns e idx a b c) [] = some m ∧
      ∀ s, m.lookup s = (((ids.take n).zip (row.take n)).find? fun x => decide (sectOf x.1 = some s)).map fun x => .part x.2.1 x.2.2 := by
  induction n with
  | zero => exact ⟨[], rfl, fun s => by simp⟩
  | succ n ih =>
    obtain ⟨m, hm, hs⟩ := ih (by omega)
    have hn1 : n < ids.length := by omega
    have hn2 : n < row.length := by omega
    refine ⟨_, by
      rw [List.range_succ, List.foldlM_append, hm]
      simp only [List.foldlM_cons, List.foldlM_nil, Option.bind_eq_bind, Option.bind_some, columns, h1 n hn1, h2 n hn2, h3 n hn2]
      rfl, fun s => ?_⟩
    have ht : (ids.take (n + 1)).zip (row.take (n + 1)) = (ids.take n).zip (row.take n) ++ [(ids[n], row[n])] := by
      rw [List.take_succ_eq_append_getElem hn1, List.take_succ_eq_append_getElem hn2, List.zip_append (by simp; omega)]
      rfl
    rw [ht, List.find?_append]
    cases hk : sectOf ids[n] with
    | none => simp [hs s, hk]
    | some t =>
      rw [lookup_insert, hs s]
      by_cases hst : s = t
      · subst hst
        simp [hk]
        cases List.find? _ _ <;> simp
      · have : ¬ t = s := fun h => hst h.symm
        simp [hk, hst, this]

theorem flatten_get {α : Type} (rows : List (List α)) (c r i : Nat) (hc : ∀ x ∈ rows, x.length = c) (hr : r < rows.length) (hi : i < c) :
    ∃ (h : r * c + i < (rows.flatMap id).length) (h2 : i < (rows[r]).length), (rows.flatMap id)[r * c + i] = (rows[r])[i] := by
  induction rows generalizing r with
  | nil => cases hr
  | cons x t ih =>
    have hx : x.length = c := hc x (by simp)
    cases r with
    | zero =>
      refine ⟨by simp [hx]; omega, by simpa [hx] using hi, ?_⟩
      simp only [Nat.zero_mul, Nat.zero_add, List.flatMap_cons, id, List.getElem_cons_zero]
      rw [List.getElem_append_left (by omega)]
    | succ r =>
      obtain ⟨h1, h2, h3⟩ := ih r (fun y hy => hc y (by simp [hy])) (by simpa using hr)
      have hlen : (r + 1) * c + i = x.length + (r * c + i) := by rw [hx]; ring
      refine ⟨by rw [hlen]; simpa using h1, by simpa using h2, ?_⟩
      simp only [hlen, List.flatMap_cons, id, List.getElem_cons_succ]
      rw [List.getElem_append_right (by omega)]
      simp only [Nat.add_sub_cancel_left]
      exact h3

/-! ## Packages of version 2 -/

theorem at4_hdr (e : Endian) (a b c d : Nat) (rest : List Nat) (ha : a < 2 ^ 32) (hb : b < 2 ^ 32) (hc : c < 2 ^ 32) (hd : d < 2 ^ 32) :
    at4 e (u32 e a ++ u32 e b ++ u32 e c ++ u32 e d ++ rest) 0 = some a ∧ at4 e (u32 e a ++ u32 e b ++ u32 e c ++ u32 e d ++ rest) 4 = some b ∧
    at4 e (u32 e a ++ u32 e b ++ u32 e c ++ u32 e d ++ rest) 8 = some c ∧ at4 e (u32 e a ++ u32 e b ++ u32 e c ++ u32 e d ++ rest) 12 = some d := by
  have key : ∀ i off (hi : i < 4), off = i * 4 → ∀ v, [a, b, c, d][i]'(by simpa using hi) = v → v < 2 ^ 32 →
      at4 e (u32 e a ++ u32 e b ++ u32 e c ++ u32 e d ++ rest) off = some v := by
    intro i off hi ho v hv hlt
    have := at4_flat e (fun x => x) [a, b, c, d] [] rest i off (by simpa using hi) (by simpa using ho) (by rw [hv]; exact hlt)
    simp only [List.flatMap_cons, List.flatMap_nil, List.append_nil, List.nil_append, List.append_assoc] at this
    simp only [List.append_assoc]
    rw [this, hv]
  exact ⟨key 0 0 (by omega) rfl _ rfl ha, key 1 4 (by omega) rfl _ rfl hb, key 2 8 (by omega) rfl _ rfl hc, key 3 12 (by omega) rfl _ rfl hd⟩

theorem table_length (e : Endian) (k : Nat) (T : Table) : (encodeTable e k T).length = 2 ^ k * 8 + 2 ^ k * 4 := by
  unfold encodeTable
  rw [List.length_append, flat_length _ 8 (fun x => u64_length e _), flat_length _ 4 (fun x => u32_length e _), List.length_range]

theorem rows_flat {α : Type} (rows : List (List α)) (f : α → List Nat) : rows.flatMap (fun r => r.flatMap f) = (rows.flatMap id).flatMap f := by
  induction rows with
  | nil => rfl
  | cons a t ih => simp [ih]

theorem flatten_length {α : Type} (rows : List (List α)) (c : Nat) (hc : ∀ x ∈ rows, x.length = c) : (rows.flatMap id).length = rows.length * c := by
  induction rows with
  | nil => simp
  | cons a t ih =>
    rw [List.flatMap_cons, List.length_append, ih (fun x hx => hc x (by simp [hx])), List.length_cons, id, hc a (by simp)]
    ring

theorem find_sect (l : List (Nat × Nat × Nat)) (s : Sect) (n : Nat) (h : ∀ x, sectOf x = some s ↔ x = n) :
    (l.find? fun x => decide (sectOf x.1 = some s)) = l.find? fun x => x.1 == n := by
  congr 1
  funext x
  by_cases hx : x.1 = n
  · simp [hx, (h n).2 rfl]
  · have : ¬ sectOf x.1 = some s := fun hh => hx ((h _).1 hh)
    simp [hx, this]

theorem sect_info (x : Nat) : sectOf x = some .info ↔ x = 1 := by unfold sectOf; split <;> [simp; (split <;> [simp [*]; (split <;> simp [*])])]; omega
theorem sect_abbrev (x : Nat) : sectOf x = some .abbrev ↔ x = 3 := by unfold sectOf; split <;> [simp [*]; (split <;> [simp [*]; (split <;> simp [*])])]
theorem sect_str (x : Nat) : sectOf x = some .strOffsets ↔ x = 6 := by
  unfold sectOf; split <;> [simp; (split <;> [simp; (split <;> simp [*])])] <;> omega

/-- **C81, packages of version 2.** For every package whose table was built by the rules of the format and is not full: a unit that is in the
package is found with exactly its contributions to `.debug_info`, `.debug_abbrev` and `.debug_str_offsets`; any other one is missing. -/
theorem find_package (e : Endian) (p : Package) (us : List (Nat × Nat)) (h : p.Holds us) (name : Nat → String) :
    (∀ u (_ : u ∈ us) (hr : u.2 - 1 < p.rows.length), ∃ m, find e (p.encode e) name u.1 = some (.found m) ∧ IsRow p.ids (p.rows[u.2 - 1]) m) ∧
    (∀ id, id ∉ us.map Prod.fst → find e (p.encode e) name id = some .missing) := by
  obtain ⟨k, T, ids, rows⟩ := p
  obtain ⟨hb, hfree, hk, hdist, hunits, ⟨hne, hids⟩, hrows, hsize⟩ := h
  dsimp only at *
  have h32 : (2 : Nat) ^ k < 2 ^ 32 := Nat.pow_lt_pow_right (by norm_num) hk
  have hcpos : 0 < ids.length := List.length_pos_of_ne_nil hne
  have hcl : ids.length < 2 ^ 32 := by nlinarith
  have hrl : rows.length < 2 ^ 32 := by nlinarith
  have hrl1 : rows.length + 1 < 2 ^ 32 ∨ rows.length + 1 = 2 ^ 32 := by omega
  have hrl2 : rows.length + 1 < 2 ^ 32 := by nlinarith
  have hlen : ∀ r ∈ rows, r.length = ids.length := fun r hr => (hrows r hr).1
  set hdr := u32 e 2 ++ u32 e ids.length ++ u32 e rows.length ++ u32 e (2 ^ k) with hhdr
  set offs := (rows.flatMap id).flatMap (fun x : Nat × Nat => u32 e x.1) with hoffs
  set sizes := (rows.flatMap id).flatMap (fun x : Nat × Nat => u32 e x.2) with hsizes
  have henc : Package.encode e ⟨k, T, ids, rows⟩ = hdr ++ (encodeTable e k T ++ (ids.flatMap (u32 e) ++ (offs ++ sizes))) := by
    simp only [Package.encode, hhdr, rows_flat, hoffs, hsizes, List.append_assoc]
  have hh : hdr.length = 16 := by simp [hhdr, u32_length]
  have hoL : offs.length = rows.length * ids.length * 4 := by rw [hoffs, flat_length _ 4 (fun x => u32_length e _), flatten_length _ _ hlen]
  have hsL : sizes.length = rows.length * ids.length * 4 := by rw [hsizes, flat_length _ 4 (fun x => u32_length e _), flatten_length _ _ hlen]
  have hiL : (ids.flatMap (u32 e)).length = ids.length * 4 := flat_length _ 4 (u32_length e) ids
  have hT := tableAt e hdr (ids.flatMap (u32 e) ++ (offs ++ sizes)) hh k T (fun s u hs => by
    have hu := hunits u (built_mem hb s u hs)
    exact ⟨hu.1, by omega⟩)
  rw [henc]
  set idx := hdr ++ (encodeTable e k T ++ (ids.flatMap (u32 e) ++ (offs ++ sizes))) with hidx
  have hL : idx.length = 16 + (2 ^ k * 8 + 2 ^ k * 4) + ids.length * 4 + rows.length * ids.length * 4 + rows.length * ids.length * 4 := by
    have : idx.length = hdr.length + ((encodeTable e k T).length + ((ids.flatMap (u32 e)).length + (offs.length + sizes.length))) := by
      simp only [hidx, List.length_append]
    rw [this, hh, table_length, hiL, hoL, hsL]
    ring
  obtain ⟨a1, a2, a3, a4⟩ := at4_hdr e 2 ids.length rows.length (2 ^ k) (encodeTable e k T ++ (ids.flatMap (u32 e) ++ (offs ++ sizes)))
    (by norm_num) hcl hrl h32
  rw [← hhdr, ← hidx] at a1 a2 a3 a4
  have hmul : (ids.length * ((rows.length + 1) % 2 ^ 32)) % 2 ^ 32 = ids.length * (rows.length + 1) := by
    rw [Nat.mod_eq_of_lt hrl2, Nat.mod_eq_of_lt hsize]
  have hinit : init e (some idx) = some ⟨if rows = [] then 0 else 2, ids.length, rows.length, 2 ^ k, 16, 16 + 2 ^ k * 8, 0,
      16 + 2 ^ k * 8 + 2 ^ k * 4, 16 + 2 ^ k * 8 + 2 ^ k * 4 + ids.length * (rows.length + 1) * 4⟩ := by
    unfold init
    simp only [a1, a2, a3, a4, Option.bind_eq_bind, Option.bind_some, hmul]
    norm_num
    by_cases hr : rows = []
    · subst hr
      rw [if_pos rfl, if_pos]
      rw [hL]; simp; omega
    · rw [if_neg hr, if_neg]
      rw [hL]
      have : 0 < rows.length * ids.length := Nat.mul_pos (List.length_pos_of_ne_nil hr) hcpos
      nlinarith
  by_cases hr0 : rows = []
  · subst hr0
    refine ⟨fun u _ hr => absurd hr (by simp), fun id _ => ?_⟩
    unfold find
    rw [hinit]
    simp [readSections]
  have hread : ∀ id, find e idx name id = readSections e idx name ⟨2, ids.length, rows.length, 2 ^ k, 16, 16 + 2 ^ k * 8, 0,
      16 + 2 ^ k * 8 + 2 ^ k * 4, 16 + 2 ^ k * 8 + 2 ^ k * 4 + ids.length * (rows.length + 1) * 4⟩ id := by
    intro id
    unfold find
    rw [hinit, if_neg hr0]
    rfl
  have hlook := fun id => lookup2 hk hT hb hfree (fun u hu => (hunits u hu).2.1) ⟨2, ids.length, rows.length, 2 ^ k, 16, 16 + 2 ^ k * 8, 0,
      16 + 2 ^ k * 8 + 2 ^ k * 4, 16 + 2 ^ k * 8 + 2 ^ k * 4 + ids.length * (rows.length + 1) * 4⟩ rfl rfl rfl id
  constructor
  · intro u hu hr
    rcases hlook u.1 with ⟨hn, _⟩ | ⟨v, hv, hvu, hl⟩
    · exact absurd (List.mem_map_of_mem hu) hn
    have : v = u := List.inj_on_of_nodup_map hdist hv hu hvu
    subst this
    obtain ⟨hid, h1, h2⟩ := hunits v hu
    have hrow := hrows (rows[v.2 - 1]) (List.getElem_mem hr)
    have hle : v.2 * ids.length ≤ ids.length * (rows.length + 1) := by nlinarith
    have hle2 : (v.2 - 1) * ids.length ≤ v.2 * ids.length := Nat.mul_le_mul_right _ (by omega)
    have hexp : (v.2 - 1) * ids.length + ids.length ≤ rows.length * ids.length := by
      have : (v.2 - 1) * ids.length + ids.length = (v.2 - 1 + 1) * ids.length := by ring
      rw [this]
      exact Nat.mul_le_mul_right _ (by omega)
    have hv2 : v.2 * ids.length = ids.length + (v.2 - 1) * ids.length := by
      obtain ⟨w, hw⟩ : ∃ w, v.2 = w + 1 := ⟨v.2 - 1, by omega⟩
      rw [hw]; simp; ring
    obtain ⟨m, hm, hs⟩ := columns_fold (e := e) (idx := idx) (a := 16 + 2 ^ k * 8 + 2 ^ k * 4)
      (b := 16 + 2 ^ k * 8 + 2 ^ k * 4 + v.2 * ids.length * 4)
      (c := 16 + 2 ^ k * 8 + 2 ^ k * 4 + ids.length * (rows.length + 1) * 4 + (v.2 - 1) * ids.length * 4) ids (rows[v.2 - 1]) hrow.1
      (fun i hi => by
        have := at4_flat e (fun x => x) ids (hdr ++ encodeTable e k T) (offs ++ sizes) i (16 + 2 ^ k * 8 + 2 ^ k * 4 + i * 4) hi
          (by rw [List.length_append, hh, table_length]; ring) (hids _ (List.getElem_mem hi))
        rw [hidx]
        simpa only [List.append_assoc] using this)
      (fun i hi => by
        obtain ⟨g1, g2, g3⟩ := flatten_get rows ids.length (v.2 - 1) i hlen hr (by omega)
        have := at4_flat e (fun x : Nat × Nat => x.1) (rows.flatMap id) (hdr ++ encodeTable e k T ++ ids.flatMap (u32 e)) sizes _
          (16 + 2 ^ k * 8 + 2 ^ k * 4 + v.2 * ids.length * 4 + i * 4) g1
          (by rw [List.length_append, List.length_append, hh, table_length, hiL, hv2]; ring)
          (by rw [g3]; exact (hrow.2 _ (List.getElem_mem hi)).1)
        rw [g3] at this
        rw [hidx]
        simpa only [List.append_assoc, hoffs] using this)
      (fun i hi => by
        obtain ⟨g1, g2, g3⟩ := flatten_get rows ids.length (v.2 - 1) i hlen hr (by omega)
        have := at4_flat e (fun x : Nat × Nat => x.2) (rows.flatMap id) (hdr ++ encodeTable e k T ++ ids.flatMap (u32 e) ++ offs) [] _
          (16 + 2 ^ k * 8 + 2 ^ k * 4 + ids.length * (rows.length + 1) * 4 + (v.2 - 1) * ids.length * 4 + i * 4) g1
          (by rw [List.length_append, List.length_append, List.length_append, hh, table_length, hiL, hoL]; ring)
          (by rw [g3]; exact (hrow.2 _ (List.getElem_mem hi)).2)
        rw [g3] at this
        rw [hidx]
        simpa only [List.append_assoc, List.append_nil, hsizes] using this)
      ids.length (le_refl _)
    refine ⟨m, ?_, ?_⟩
    · rw [hread]
      unfold readSections
      simp only [hl, Option.bind_eq_bind, Option.bind_some]
      rw [if_neg (by decide), if_pos trivial, if_neg (by omega), if_neg]
      · rw [Nat.mod_eq_of_lt (by omega), Nat.mod_eq_of_lt (by omega), hm]
        rfl
      · rw [Nat.mod_eq_of_lt (by omega), hL]
        nlinarith
    · have ht : (ids.take ids.length).zip ((rows[v.2 - 1]).take ids.length) = ids.zip (rows[v.2 - 1]) := by
        rw [List.take_length, ← hrow.1, List.take_length]
      refine ⟨?_, ?_, ?_⟩
      · rw [hs, ht, find_sect _ _ _ sect_info]; rfl
      · rw [hs, ht, find_sect _ _ _ sect_abbrev]; rfl
      · rw [hs, ht, find_sect _ _ _ sect_str]; rfl
  · intro id hid
    rcases hlook id with ⟨_, hl⟩ | ⟨v, hv, rfl, _⟩
    · rw [hread]
      unfold readSections
      simp only [hl, Option.bind_eq_bind, Option.bind_some]
      rfl
    · exact absurd (List.mem_map_of_mem hv) hid

/-! ## Packages of version 1 -/

theorem pool_loop (e : Endian) (pre : List Nat) (name : Nat → String) (pool0 : List Nat) (hp : ∀ x ∈ pool0, x < 2 ^ 32) (l : List Nat) (i : Nat)
    (h : PoolAt pool0 i l) (m : List (Sect × Contrib)) :
    ∃ m', pool e (pre ++ pool0.flatMap (u32 e)) name (pre.length + i * 4) m = some (.found m') ∧
      ∀ s, m'.lookup s = (m.lookup s).or ((l.find? fun x => decide (sectOfName (name x) = some s)).map .elf) := by
  induction l generalizing i m with
  | nil =>
    obtain ⟨a, b, rfl, hi, -⟩ := h
    have hlt : i < (a ++ [] ++ 0 :: b).length := by simp; omega
    have h4 := at4_flat e (fun x => x) (a ++ [] ++ 0 :: b) pre [] i (pre.length + i * 4) hlt rfl (hp _ (List.getElem_mem hlt))
    have hget : (a ++ [] ++ 0 :: b)[i] = 0 := by simp [← hi]
    rw [hget, List.append_nil] at h4
    refine ⟨m, ?_, fun s => by simp⟩
    rw [pool]
    rw [dif_neg]
    · rw [h4]
    · rw [List.length_append, flat_length _ 4 (u32_length e)]
      omega
  | cons x l ih =>
    obtain ⟨a, b, rfl, hi, h0⟩ := h
    have hlt : i < (a ++ x :: l ++ 0 :: b).length := by simp; omega
    have h4 := at4_flat e (fun x => x) (a ++ x :: l ++ 0 :: b) pre [] i (pre.length + i * 4) hlt rfl (hp _ (List.getElem_mem hlt))
    have hget : (a ++ x :: l ++ 0 :: b)[i] = x := by
      subst hi
      simp
    rw [hget, List.append_nil] at h4
    obtain ⟨y, rfl⟩ : ∃ y, x = y + 1 := ⟨x - 1, by have : x ≠ 0 := fun h => h0 (by simp [h]); omega⟩
    obtain ⟨m', h1, h2⟩ := ih (i + 1) ⟨a ++ [y + 1], b, by simp, by simp [hi], fun h => h0 (by simp [h])⟩
      (match sectOfName (name (y + 1)) with
        | none => m
        | some s => insert m s (.elf (y + 1)))
    refine ⟨m', ?_, fun s => ?_⟩
    · rw [pool]
      rw [dif_neg]
      · rw [h4]
        have : pre.length + i * 4 + 4 = pre.length + (i + 1) * 4 := by ring
        simp only [this]
        exact h1
      · rw [List.length_append, flat_length _ 4 (u32_length e)]
        omega
    · rw [h2 s, List.find?_cons]
      cases hk : sectOfName (name (y + 1)) with
      | none => simp
      | some t =>
        rw [lookup_insert]
        by_cases hst : s = t
        · subst hst; cases m.lookup s <;> simp
        · have : ¬ t = s := fun h => hst h.symm
          simp [hst, this]

theorem prefix_excl {a b n : List Char} (h : ¬ a <+: b) (h' : ¬ b <+: a) (ha : a <+: n) : ¬ b <+: n := fun hb => by
  rcases List.prefix_or_prefix_of_prefix ha hb with h1 | h1
  · exact h h1
  · exact h' h1

theorem name_info (n : String) : sectOfName n = some .info ↔ ".debug_info".toList <+: n.toList := by
  unfold sectOfName
  by_cases h1 : ".debug_abbrev".toList <+: n.toList
  · have := prefix_excl (b := ".debug_info".toList) (by decide) (by decide) h1
    rw [if_pos h1]; simp only [this, iff_false]; simp
  · rw [if_neg h1]
    by_cases h2 : ".debug_info".toList <+: n.toList
    · rw [if_pos h2]; simp only [h2]
    · rw [if_neg h2]; simp only [h2, iff_false]
      split <;> simp

theorem name_abbrev (n : String) : sectOfName n = some .abbrev ↔ ".debug_abbrev".toList <+: n.toList := by
  unfold sectOfName
  by_cases h1 : ".debug_abbrev".toList <+: n.toList
  · rw [if_pos h1]; simp only [h1]
  · rw [if_neg h1]; simp only [h1, iff_false]
    split <;> [simp; (split <;> simp)]

theorem name_str (n : String) : sectOfName n = some .strOffsets ↔ ".debug_str_offsets".toList <+: n.toList := by
  unfold sectOfName
  by_cases h1 : ".debug_abbrev".toList <+: n.toList
  · have := prefix_excl (b := ".debug_str_offsets".toList) (by decide) (by decide) h1
    rw [if_pos h1]; simp only [this, iff_false]; simp
  · rw [if_neg h1]
    by_cases h2 : ".debug_info".toList <+: n.toList
    · have := prefix_excl (b := ".debug_str_offsets".toList) (by decide) (by decide) h2
      rw [if_pos h2]; simp only [this, iff_false]; simp
    · rw [if_neg h2]
      by_cases h3 : ".debug_str_offsets".toList <+: n.toList
      · rw [if_pos h3]; simp only [h3]
      · rw [if_neg h3]; simp only [h3, iff_false]; simp

theorem find_name (l : List Nat) (name : Nat → String) (s : Sect) (pre : String) (h : ∀ n, sectOfName n = some s ↔ pre.toList <+: n.toList) :
    ((l.find? fun x => decide (sectOfName (name x) = some s)).map Contrib.elf) = named name l pre := by
  unfold named
  congr 2
  funext x
  exact decide_eq_decide.2 (h _)

/-- **C81, packages of version 1.** A unit that is in the package is found with its sections, the first one of each kind in its list; any other
one is missing. -/
theorem find_package1 (e : Endian) (p : Package1) (us : List (Nat × Nat)) (h : p.Holds us) (name : Nat → String) (hn : p.nunits < 2 ^ 32) :
    (∀ u ∈ us, ∀ l, PoolAt p.pool u.2 l → ∃ m, find e (p.encode e) name u.1 = some (.found m) ∧ IsUnit1 name l m) ∧
    (∀ id, id ∉ us.map Prod.fst → find e (p.encode e) name id = some .missing) := by
  obtain ⟨k, nu, T, pl⟩ := p
  obtain ⟨hb, hfree, hk, hdist, hunits, hpool⟩ := h
  dsimp only at *
  have h32 : (2 : Nat) ^ k < 2 ^ 32 := Nat.pow_lt_pow_right (by norm_num) hk
  set hdr := u32 e 1 ++ u32 e 0 ++ u32 e nu ++ u32 e (2 ^ k) with hhdr
  have henc : Package1.encode e ⟨k, nu, T, pl⟩ = hdr ++ (encodeTable e k T ++ pl.flatMap (u32 e)) := by
    simp only [Package1.encode, hhdr, List.append_assoc]
  have hh : hdr.length = 16 := by simp [hhdr, u32_length]
  have hT := tableAt e hdr (pl.flatMap (u32 e)) hh k T (fun s u hs => by
    have hu := hunits u (built_mem hb s u hs)
    exact ⟨hu.1, hu.2.2⟩)
  rw [henc]
  obtain ⟨a1, _, _, a4⟩ := at4_hdr e 1 0 nu (2 ^ k) (encodeTable e k T ++ pl.flatMap (u32 e)) (by norm_num) (by norm_num) hn h32
  rw [← hhdr] at a1 a4
  have hL : (hdr ++ (encodeTable e k T ++ pl.flatMap (u32 e))).length = 16 + (2 ^ k * 8 + 2 ^ k * 4) + pl.length * 4 := by
    have : (hdr ++ (encodeTable e k T ++ pl.flatMap (u32 e))).length = hdr.length + ((encodeTable e k T).length + (pl.flatMap (u32 e)).length) := by
      simp only [List.length_append]
    rw [this, hh, table_length, flat_length _ 4 (u32_length e)]
    ring
  have hinit : init e (some (hdr ++ (encodeTable e k T ++ pl.flatMap (u32 e)))) = some ⟨if pl = [] then 0 else 1, 0, 0, 2 ^ k, 16, 16 + 2 ^ k * 8,
      16 + 2 ^ k * 8 + 2 ^ k * 4, 0, 0⟩ := by
    unfold init
    simp only [a1, a4, Option.bind_eq_bind, Option.bind_some]
    rw [if_pos trivial]
    by_cases hr : pl = []
    · subst hr
      rw [if_pos rfl, if_pos]
      rw [hL]; simp; omega
    · rw [if_neg hr, if_neg]
      rw [hL]
      have := List.length_pos_of_ne_nil hr
      omega
  have hlook := fun id => lookup1 hk hT hb hfree (fun u hu => (hunits u hu).2.1) ⟨1, 0, 0, 2 ^ k, 16, 16 + 2 ^ k * 8,
      16 + 2 ^ k * 8 + 2 ^ k * 4, 0, 0⟩ rfl rfl id
  constructor
  · intro u hu l hl
    have hpne : pl ≠ [] := by
      obtain ⟨a, b, rfl, -, -⟩ := hl
      simp
    rcases hlook u.1 with ⟨hn, _⟩ | ⟨v, hv, hvu, s, hs, hlk, hTs⟩
    · exact absurd (List.mem_map_of_mem hu) hn
    have : v = u := List.inj_on_of_nodup_map hdist hv hu hvu
    subst this
    obtain ⟨m, h1, h2⟩ := pool_loop e (hdr ++ encodeTable e k T) name pl hpool l v.2 hl []
    refine ⟨m, ?_, ?_⟩
    · unfold find
      rw [hinit, if_neg hpne]
      simp only [Option.bind_eq_bind, Option.bind_some]
      unfold readSections
      simp only [hlk, Option.bind_eq_bind, Option.bind_some, hT.row s hs, hTs, Option.elim_some]
      rw [if_pos trivial, ← List.append_assoc]
      rw [show 16 + 2 ^ k * 8 + 2 ^ k * 4 + v.2 * 4 = (hdr ++ encodeTable e k T).length + v.2 * 4 by
        rw [List.length_append, hh, table_length]; ring]
      exact h1
    · refine ⟨?_, ?_, ?_⟩
      · rw [h2, find_name _ _ _ _ name_info]; simp
      · rw [h2, find_name _ _ _ _ name_abbrev]; simp
      · rw [h2, find_name _ _ _ _ name_str]; simp
  · intro id hid
    unfold find
    rw [hinit]
    simp only [Option.bind_eq_bind, Option.bind_some]
    by_cases hr : pl = []
    · rw [if_pos hr]; rfl
    · rw [if_neg hr]
      rcases hlook id with ⟨_, hl⟩ | ⟨v, hv, rfl, _⟩
      · unfold readSections
        simp only [hl, Option.bind_eq_bind, Option.bind_some]
        rfl
      · exact absurd (List.mem_map_of_mem hv) hid

/-! ## Other packages, and examples -/

/-- **C81, other versions**: nothing is found in a package of the format of DWARF 5 (or of any other unknown version), and it is not read any further. -/
theorem find_version (e : Endian) (idx : List Nat) (name : Nat → String) (id v : Nat) (h : at4 e idx 0 = some v) (h1 : v ≠ 1) (h2 : v ≠ 2) :
    find e idx name id = some .missing := by
  unfold find init
  simp only [h, Option.bind_eq_bind, Option.bind_some, if_neg h1, if_neg h2]
  unfold readSections
  simp only [if_neg h1, if_neg h2]

theorem walk_lt {k : Nat} (hk : k < 32) (stop : Nat → Option Bool) (st slot r : Nat) (h : walk stop (2 ^ k) st slot = some r) (hs : slot < 2 ^ k) :
    r < 2 ^ k := by
  revert hs
  refine walk.partial_correctness stop (2 ^ k) st (fun s r => s < 2 ^ k → r < 2 ^ k) ?_ slot r h
  intro walk ih s r h hs
  cases hq : stop s with
  | none => rw [hq] at h; cases h
  | some b =>
    rw [hq] at h
    cases b with
    | true => simp at h; subst h; exact hs
    | false =>
      refine ih _ _ (by simpa using h) ?_
      rw [mask_eq hk]
      exact Nat.mod_lt _ (Nat.two_pow_pos k)

/-- The units 5 and 9 of four slots: 9 collides with 5 and goes one slot further. -/
def exPackage : Package := ⟨2, fun s => if s = 2 then some (9, 2) else if s = 1 then some (5, 1) else none, [1, 3, 4, 6],
  [[(0, 100), (0, 40), (0, 8), (0, 16)], [(100, 60), (40, 50), (8, 8), (16, 32)]]⟩

theorem exPackage_holds : exPackage.Holds [(9, 2), (5, 1)] where
  built := by
    refine .cons (T := fun s => if s = 1 then some (5, 1) else none) (.cons .nil ⟨0, by simp, rfl, ?_⟩) ⟨1, ?_, ?_, ?_⟩
    · simp [slotOf, exPackage]
    · intro j hj
      obtain rfl : j = 0 := by omega
      simp [slotOf, exPackage]
    · simp [slotOf, exPackage]
    · simp [slotOf, exPackage]
  free := by simp [exPackage]
  slots := by simp [exPackage]
  distinct := by simp
  units := by simp [exPackage]
  columns := by simp [exPackage]
  rows := by unfold exPackage; decide
  size := by simp [exPackage]

/-- The unit 9 is found behind the unit 5. -/
theorem exPackage_find (e : Endian) (name : Nat → String) : ∃ m, find e (exPackage.encode e) name 9 = some (.found m) ∧
    m.lookup .info = some (.part 100 60) ∧ m.lookup .abbrev = some (.part 40 50) ∧ m.lookup .strOffsets = some (.part 16 32) :=
  (find_package e exPackage _ exPackage_holds name).1 (9, 2) (by simp) (by simp [exPackage])

/-- A version 1 package. -/
def exPackage1 : Package1 := ⟨1, 1, fun s => if s = 1 then some (7, 0) else none, [3, 4, 0]⟩

theorem exPackage1_holds : exPackage1.Holds [(7, 0)] ∧ PoolAt exPackage1.pool 0 [3, 4] where
  left :=
  { built := .cons .nil ⟨0, by simp, rfl, by simp [slotOf, exPackage1]⟩
    free := by simp [exPackage1]
    slots := by simp [exPackage1]
    distinct := by simp
    units := by simp
    pool := by simp [exPackage1] }
  right := ⟨[], [], by simp [exPackage1], rfl, by simp⟩

/-- The claim without the condition that a slot is free. -/
def FullClaim : Prop := ∀ (e : Endian) (p : Package) (us : List (Nat × Nat)) (name : Nat → String) (id : Nat), Built p.k us p.table → p.k < 32 →
  (us.map Prod.fst).Nodup → (∀ u ∈ us, u.1 < 2 ^ 64 ∧ 1 ≤ u.2 ∧ u.2 ≤ p.rows.length) → p.ids ≠ [] → id ∉ us.map Prod.fst →
  find e (p.encode e) name id = some .missing

/-- A package with one unit in one slot. -/
def fullPackage : Package := ⟨0, fun s => if s = 0 then some (5, 1) else none, [1], [[(0, 4)]]⟩

/-- **C81, violated for full tables**: the lookup of a unit that is missing in a full table does not end. -/
theorem full_violated : ¬ FullClaim := by
  intro h
  have h := h .little fullPackage [(5, 1)] (fun _ => "") 7 (.cons .nil ⟨0, by simp, rfl, by simp [slotOf, fullPackage]⟩) (by simp [fullPackage]) (by simp)
    (by simp [fullPackage]) (by simp [fullPackage]) (by simp)
  unfold find at h
  rw [show init .little (some (fullPackage.encode .little)) = some ⟨2, 1, 1, 1, 16, 24, 0, 28, 36⟩ by decide +kernel] at h
  simp only [Option.bind_eq_bind, Option.bind_some] at h
  unfold readSections lookupCUv2 at h
  dsimp only at h
  rw [if_neg (by decide), if_pos rfl] at h
  have hw : ∀ r, walk (fun s => do
      let p ← at8 .little (fullPackage.encode .little) (16 + s * 8)
      let i ← at4 .little (fullPackage.encode .little) (24 + s * 4)
      some (decide (i = 0 ∨ p = 7))) 1 (step 1 7) (first 1 7) ≠ some r := by
    intro r hr
    have hlt := walk_lt (k := 0) (by omega) _ _ _ _ hr (by decide)
    obtain rfl : r = 0 := by omega
    have := walk_stop _ _ _ _ _ hr
    revert this
    decide +kernel
  rw [Option.eq_none_iff_forall_ne_some.2 hw] at h
  cases h

end Verif.Dwp

import Verif.OMap
import Verif.Bytes

/-! # C19, C20: address lookups of `SymbolMap` (symbol_map.cc:393-425, symbol_map.h:331-353, 594-613)

Addresses are natural numbers below 2^64; `get_static_vaddr` wraps like `uint64_t`. -/
namespace Verif.AddrLookup
open Verif

/-- `address_symbol_map_`: start address to (name, size) (symbol_map.h:619). -/
abbrev AddrMap := OMap Nat (Name × Nat)

/-- `GetSymbolInfoByAddr` (symbol_map.cc:393-416): name, start and end of the symbol found. -/
def symbolInfo (m : AddrMap) (addr : Nat) : Option (Name × Nat × Nat) :=
  match OMap.floor? m addr with
  | none => none
  | some (start, name, size) =>
    if addr ≥ start ∧ addr < start + size then some (name, start, start + size) else none

/-- `GetSymbolNameByStartAddr` (symbol_map.cc:418-425). -/
def nameByStart (m : AddrMap) (addr : Nat) : Option Name := (OMap.find? m addr).map Prod.fst

/-- Symbols do not overlap. -/
def NonOverlapping (m : AddrMap) : Prop :=
  ∀ a ∈ m, ∀ b ∈ m, a.1 < b.1 → a.1 + a.2.2 ≤ b.1

/-- **C19.** For a non-overlapping symbol table, the lookup returns exactly the symbol whose interval
`[start, start + size)` contains the address. -/
theorem symbol_lookup_iff (m : AddrMap) (hm : OMap.Sorted m) (hn : NonOverlapping m) (addr : Nat)
    (name : Name) (start stop : Nat) :
    symbolInfo m addr = some (name, start, stop) ↔
      ∃ size, (start, name, size) ∈ m ∧ stop = start + size ∧ start ≤ addr ∧ addr < stop := by
  unfold symbolInfo
  constructor
  · intro h
    cases hf : OMap.floor? m addr with
    | none => rw [hf] at h; cases h
    | some e =>
      obtain ⟨s, n, size⟩ := e
      rw [hf] at h
      simp only at h
      by_cases hc : addr ≥ s ∧ addr < s + size
      · rw [if_pos hc] at h
        cases h
        exact ⟨size, (OMap.floor?_mem hf).1, rfl, hc.1, hc.2⟩
      · rw [if_neg hc] at h; cases h
  · rintro ⟨size, hmem, rfl, h1, h2⟩
    have hf : OMap.floor? m addr = some (start, name, size) := by
      rw [OMap.floor?_iff hm]
      refine ⟨hmem, h1, ?_⟩
      intro x hx hk
      by_contra hlt
      have : start + size ≤ x.1 := hn _ hmem _ hx (by simpa using hlt)
      omega
    rw [hf]
    simp only
    rw [if_pos ⟨h1, h2⟩]

/-- C19, failure: nothing is reported iff no symbol covers the address. -/
theorem symbol_lookup_none (m : AddrMap) (hm : OMap.Sorted m) (hn : NonOverlapping m) (addr : Nat) :
    symbolInfo m addr = none ↔ ∀ e ∈ m, ¬ (e.1 ≤ addr ∧ addr < e.1 + e.2.2) := by
  constructor
  · rintro h ⟨s, n, size⟩ he ⟨h1, h2⟩
    have := (symbol_lookup_iff m hm hn addr n s (s + size)).2 ⟨size, he, rfl, h1, h2⟩
    rw [h] at this; cases this
  · intro h
    cases hs : symbolInfo m addr with
    | none => rfl
    | some r =>
      obtain ⟨n, s, t⟩ := r
      obtain ⟨size, he, rfl, h1, h2⟩ := (symbol_lookup_iff m hm hn addr n s t).1 hs
      exact absurd ⟨h1, h2⟩ (h _ he)

/-- C19 without the hypothesis: with an overlapping table the enclosing symbol is missed. -/
theorem symbol_lookup_overlap_misses :
    symbolInfo [(10, [1], 100), (20, [2], 5)] 50 = none := by decide

example : symbolInfo [(10, [1], 10), (20, [2], 5), (40, [3], 8)] 22 = some ([2], 20, 25) ∧
    symbolInfo [(10, [1], 10), (20, [2], 5), (40, [3], 8)] 30 = none := by decide

/-! ## C20 -/

/-- `segmentinfo`: file offset and virtual address (symbol_map.h:610-613). -/
structure Seg where
  offset : Nat
  vaddr : Nat

/-- 2^64. -/
def W : Nat := 18446744073709551616

/-- The loop of `get_static_vaddr` (symbol_map.h:334-337); `none` is `unset_addr`. -/
def baseAddr : List Seg → Nat → Option Nat → Option Nat
  | [], _, b => b
  | s :: t, off, b =>
    if off < s.offset then b else baseAddr t off (some ((s.vaddr + W - s.offset) % W))

/-- `get_static_vaddr` (symbol_map.h:331-340); `none`: the assertion fails. -/
def staticVaddr (segs : List Seg) (off : Nat) : Option Nat :=
  (baseAddr segs off none).map (fun b => (off + b) % W)

/-- `GetFileOffsetFromStaticVaddr` (symbol_map.h:345-353): the segment before the first one with a
larger `vaddr`; `none`: the `CHECK` fails. -/
def fileOffset : List Seg → Nat → Option Seg → Option Nat
  | [], va, prev => prev.map (fun s => (s.offset + va + W - s.vaddr) % W)
  | s :: t, va, prev =>
    if s.vaddr > va then prev.map (fun p => (p.offset + va + W - p.vaddr) % W)
    else fileOffset t va (some s)

/-- A loaded segment with its size. -/
structure Loaded where
  seg : Seg
  size : Nat

/-- Loaded segments as laid out by a linker: increasing and disjoint both in the file and in memory. -/
def Layout : List Loaded → Prop
  | [] => True
  | a :: t => a.seg.offset + a.size < W ∧ a.seg.vaddr + a.size < W ∧
      (∀ b ∈ t, a.seg.offset + a.size ≤ b.seg.offset ∧ a.seg.vaddr + a.size ≤ b.seg.vaddr) ∧ Layout t

theorem baseAddr_spec (ls : List Loaded) (h : Layout ls) (l : Loaded) (hl : l ∈ ls) (off : Nat)
    (h1 : l.seg.offset ≤ off) (h2 : off < l.seg.offset + l.size) (b : Option Nat) :
    baseAddr (ls.map Loaded.seg) off b = some ((l.seg.vaddr + W - l.seg.offset) % W) := by
  induction ls generalizing b with
  | nil => cases hl
  | cons a t ih =>
    simp only [Layout] at h
    obtain ⟨_, _, h3, h4⟩ := h
    rw [List.map_cons]
    simp only [baseAddr]
    rcases List.mem_cons.1 hl with rfl | hl
    · rw [if_neg (by omega)]
      cases t with
      | nil => rfl
      | cons c t =>
        rw [List.map_cons]
        simp only [baseAddr]
        have := (h3 c List.mem_cons_self).1
        rw [if_pos (by omega)]
    · have := (h3 l hl).1
      rw [if_neg (by omega)]
      exact ih h4 hl _

theorem fileOffset_spec (ls : List Loaded) (h : Layout ls) (l : Loaded) (hl : l ∈ ls) (va : Nat)
    (h1 : l.seg.vaddr ≤ va) (h2 : va < l.seg.vaddr + l.size) (b : Option Seg) :
    fileOffset (ls.map Loaded.seg) va b = some ((l.seg.offset + va + W - l.seg.vaddr) % W) := by
  induction ls generalizing b with
  | nil => cases hl
  | cons a t ih =>
    simp only [Layout] at h
    obtain ⟨_, _, h3, h4⟩ := h
    rw [List.map_cons]
    simp only [fileOffset]
    rcases List.mem_cons.1 hl with rfl | hl
    · rw [if_neg (by omega)]
      cases t with
      | nil => rfl
      | cons c t =>
        rw [List.map_cons]
        simp only [fileOffset]
        have := (h3 c List.mem_cons_self).2
        rw [if_pos (by omega)]
        rfl
    · have := (h3 l hl).2
      rw [if_neg (by omega)]
      exact ih h4 hl _

theorem layout_bounds (ls : List Loaded) (h : Layout ls) (l : Loaded) (hl : l ∈ ls) :
    l.seg.offset + l.size < W ∧ l.seg.vaddr + l.size < W := by
  induction ls with
  | nil => cases hl
  | cons a t ih =>
    simp only [Layout] at h
    rcases List.mem_cons.1 hl with rfl | hl
    · exact ⟨h.1, h.2.1⟩
    · exact ih h.2.2.2 hl

/-- C20, one direction: a file offset inside a loaded segment is mapped to the corresponding address
of that segment and back. -/
theorem offset_vaddr_offset (ls : List Loaded) (h : Layout ls) (l : Loaded) (hl : l ∈ ls) (k : Nat)
    (hk : k < l.size) :
    staticVaddr (ls.map Loaded.seg) (l.seg.offset + k) = some (l.seg.vaddr + k) ∧
    fileOffset (ls.map Loaded.seg) (l.seg.vaddr + k) none = some (l.seg.offset + k) := by
  obtain ⟨b1, b2⟩ := layout_bounds ls h l hl
  constructor
  · unfold staticVaddr
    rw [baseAddr_spec ls h l hl _ (by omega) (by omega)]
    simp only [Option.map_some, Option.some.injEq]
    unfold W at *
    omega
  · rw [fileOffset_spec ls h l hl _ (by omega) (by omega)]
    simp only [Option.some.injEq]
    unfold W at *
    omega

/-- **C20** (partial: segments whose order in the file is also their order in memory).  The two
translations are inverse to each other on all loaded bytes. -/
theorem translations_inverse_partial (ls : List Loaded) (h : Layout ls) :
    (∀ l ∈ ls, ∀ off, l.seg.offset ≤ off → off < l.seg.offset + l.size →
      (staticVaddr (ls.map Loaded.seg) off).bind (fileOffset (ls.map Loaded.seg) · none) = some off) ∧
    (∀ l ∈ ls, ∀ va, l.seg.vaddr ≤ va → va < l.seg.vaddr + l.size →
      (fileOffset (ls.map Loaded.seg) va none).bind (staticVaddr (ls.map Loaded.seg)) = some va) := by
  constructor
  · intro l hl off h1 h2
    obtain ⟨e1, e2⟩ := offset_vaddr_offset ls h l hl (off - l.seg.offset) (by omega)
    rw [show l.seg.offset + (off - l.seg.offset) = off by omega] at e1 e2
    rw [e1]; exact e2
  · intro l hl va h1 h2
    obtain ⟨e1, e2⟩ := offset_vaddr_offset ls h l hl (va - l.seg.vaddr) (by omega)
    rw [show l.seg.vaddr + (va - l.seg.vaddr) = va by omega] at e1 e2
    rw [e2]; exact e1

/-- C20 fails when the segments, sorted by file offset, are not sorted by address: file offset 2 is
mapped to address 502, which is not mapped back at all. -/
theorem translations_inverse_violated :
    staticVaddr [⟨0, 5000⟩, ⟨100, 500⟩] 102 = some 502 ∧
    fileOffset [⟨0, 5000⟩, ⟨100, 500⟩] 502 none = none := by decide

example : Layout [⟨⟨0, 4096⟩, 100⟩, ⟨⟨256, 8448⟩, 300⟩] := by
  simp [Layout, W]

end Verif.AddrLookup

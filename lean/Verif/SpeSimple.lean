import Verif.SpeRanges
import Verif.LbrProps
import Verif.PerfRead

/-!
# C80: reading ARM SPE samples without LLVM
Model of `SimpleSpeDataSampleReader` (simple_spe_sample_reader.cc:14-233).  The events of the perf file and the decoded SPE records are
inputs (quipper).  `SynthesizeRanges` is the model of C42.
-/
namespace Verif.SpeSimple
open Verif Verif.Sample Verif.SpeRanges
open Verif.PerfRead (Name str)

/-- What is used of `ArmSpeDecoder::Record` (simple_spe_sample_reader.cc:182-205); an absent address is 0. -/
structure Record where
  retired : Bool
  /-- `op.is_br_eret` -/
  branch : Bool
  /-- `op.br_eret.br_cond` -/
  cond : Bool
  /-- `event.cond_not_taken` -/
  notTaken : Bool
  ip : Nat
  target : Nat
deriving DecidableEq

/-- `MMapInfo` (simple_spe_sample_reader.cc:16-32). -/
structure MMap where
  start : Nat
  len : Nat
  pgoff : Nat
  filename : Name
deriving DecidableEq

/-- The events that are looked at: mappings and SPE buffers. -/
inductive Ev where
  | mmap (m : MMap)
  | aux (l : List Record)
  | other
deriving DecidableEq

/-- `std::filesystem::path::filename()`: what follows the last '/'. -/
def baseName (n : Name) : Name := (n.reverse.takeWhile fun c => decide (c ≠ 47)).reverse

/-- `Contains` (simple_spe_sample_reader.cc:23-25), in 64-bit arithmetic. -/
def MMap.contains (m : MMap) (a : Nat) : Bool := decide (m.start ≤ a) && decide (a < add64 m.start m.len)

/-- `VaToBinaryOffset` (simple_spe_sample_reader.cc:28-31). -/
def MMap.offset (m : MMap) (a : Nat) : Nat := if m.contains a then add64 (sub64 a m.start) m.pgoff else 0

/-- `FindBinaryMMap` (simple_spe_sample_reader.cc:35-60): the first mapping of a file with the same base name. -/
def findMMap (binary : Name) : List Ev → Option MMap
  | [] => none
  | .mmap m :: t => if baseName m.filename = baseName binary then some m else findMMap binary t
  | _ :: t => findMMap binary t

/-- `address_count_map_`, `branch_count_map_`, `branch_records`, `total_count_`. -/
structure Counts where
  addr : OMap Nat Nat
  branch : OMap Pair Nat
  records : Nat
  total : Nat
deriving DecidableEq

/-- The loop over the records (simple_spe_sample_reader.cc:180-208). -/
def record (m : MMap) (s : Counts) (r : Record) : Counts :=
  if !r.retired || !r.branch then s
  else
    let s := { s with records := s.records + 1 }
    if r.ip = 0 then s
    else
      let o := m.offset r.ip
      if o = 0 then s
      else if r.cond && r.notTaken then { s with addr := OMap.add s.addr (o, 1), total := s.total + 1 }
      else if r.target ≠ 0 then
        let t := m.offset r.target
        if t ≠ 0 then { s with branch := OMap.add s.branch (toLex (o, t), 1), total := s.total + 1 } else s
      else s

/-- The records of all SPE buffers, in order. -/
def records (evs : List Ev) : List Record := evs.flatMap fun
  | .aux l => l
  | _ => []

/-- `spe_event_count` (simple_spe_sample_reader.cc:168-174). -/
def buffers (evs : List Ev) : Nat := evs.countP fun
  | .aux _ => true
  | _ => false

/-- The counts before the ranges are synthesised. -/
def collect (m : MMap) (evs : List Ev) : Counts := (records evs).foldl (record m) ⟨[], [], 0, 0⟩

/-- A reader that has read a file: its maps and `total_count_`. -/
structure Reader where
  maps : Maps
  total : Nat
deriving DecidableEq

/-- The branch counts as `SynthesizeRanges` takes them. -/
def pairs (l : OMap Pair Nat) : BranchCounts := l.map fun e => (ofLex e.1, e.2)

/-- `Read` (simple_spe_sample_reader.cc:150-231) of a fresh reader; `some none`: it returns false; `none`: the synthesis did not end within
the fuel of C42.  An event list of `none` is a file that cannot be read. -/
def read (binary : Name) : Option (List Ev) → Option (Option Reader)
  | none => some none
  | some evs =>
    match findMMap binary evs with
    | none => some none
    | some m =>
      if buffers evs = 0 then some none
      else if (collect m evs).records = 0 ∨ (collect m evs).total = 0 then some none
      else
        -- `if (incoming_weights.empty()) return;` (line 80) is the case of no targets
        (synthesize (pairs (collect m evs).branch) (collect m evs).addr).map fun l =>
          some ⟨⟨rangeCounts l, (collect m evs).addr, (collect m evs).branch⟩, (collect m evs).total⟩

/-- `ReadAndSetTotalCount` (sample_reader.cc:142-155) of this reader: the total is added to the one of `Read`. -/
def readTotal (r : Reader) : Nat := r.maps.totalCountFrom r.total

/-- `Append` (simple_spe_sample_reader.cc:120-148). -/
def append (binary : Name) (r : Reader) (evs : Option (List Ev)) : Option (Reader × Bool) :=
  (read binary evs).map fun
    | none => (r, false)
    | some t => (⟨r.maps.merge t.maps, r.total + t.total⟩, true)

/-! ## Specification -/

/-- The mapping is in the address space and the file offsets fit in 64 bits. -/
def MMap.Fits (m : MMap) : Prop := m.start + m.len < 2 ^ 64 ∧ m.pgoff + m.len < 2 ^ 64

/-- The address `a` is the byte `o` of the binary, mapped by `m`. -/
def MMap.At (m : MMap) (a o : Nat) : Prop := m.start ≤ a ∧ a < m.start + m.len ∧ o = a - m.start + m.pgoff

/-- A conditional branch at the offset `o` of the binary that was not taken. -/
def NotTaken (m : MMap) (r : Record) (o : Nat) : Prop :=
  r.retired = true ∧ r.branch = true ∧ r.cond = true ∧ r.notTaken = true ∧ m.At r.ip o

/-- A branch from `o` to `t` that was taken. -/
def Taken (m : MMap) (r : Record) (o t : Nat) : Prop :=
  r.retired = true ∧ r.branch = true ∧ ¬ (r.cond = true ∧ r.notTaken = true) ∧ m.At r.ip o ∧ m.At r.target t

/-- The record is counted: a retired branch in the mapping that was not taken or whose target is in the mapping, too. -/
def Counted (m : MMap) (r : Record) : Prop :=
  r.retired = true ∧ r.branch = true ∧ (m.start ≤ r.ip ∧ r.ip < m.start + m.len) ∧
    ((r.cond = true ∧ r.notTaken = true) ∨ (m.start ≤ r.target ∧ r.target < m.start + m.len))

instance (m : MMap) (r : Record) : Decidable (Counted m r) := by unfold Counted; infer_instance
instance (m : MMap) (a o : Nat) : Decidable (m.At a o) := by unfold MMap.At; infer_instance
instance (m : MMap) (r : Record) (o : Nat) : Decidable (NotTaken m r o) := by unfold NotTaken; infer_instance
instance (m : MMap) (r : Record) (o t : Nat) : Decidable (Taken m r o t) := by unfold Taken; infer_instance

/-- The mapping used: the first one of a file of the same base name. -/
def IsFirst (binary : Name) (evs : List Ev) (m : MMap) : Prop :=
  ∃ pre post, evs = pre ++ Ev.mmap m :: post ∧ baseName m.filename = baseName binary ∧
    ∀ m', Ev.mmap m' ∈ pre → baseName m'.filename ≠ baseName binary

/-- Instructions are 4 bytes long and aligned, and neither code nor the file offset 0 is at the address 0. -/
structure Arm (m : MMap) (evs : List Ev) : Prop where
  fits : m.Fits
  map : m.start % 4 = 0 ∧ m.pgoff % 4 = 0
  recs : ∀ r ∈ records evs, r.ip % 4 = 0 ∧ r.target % 4 = 0
  zero : m.start ≠ 0
  header : ∀ r ∈ records evs, ¬ m.At r.ip 0 ∧ ¬ m.At r.target 0

/-! ## Proof -/

theorem findMMap_some (binary : Name) (evs : List Ev) (m : MMap) : findMMap binary evs = some m ↔ IsFirst binary evs m := by
  induction evs with
  | nil => simp [findMMap, IsFirst]
  | cons e t ih =>
    have skip : (∀ m', e = Ev.mmap m' → baseName m'.filename ≠ baseName binary) → (IsFirst binary (e :: t) m ↔ IsFirst binary t m) := by
      intro he
      constructor
      · rintro ⟨pre, post, h1, h2, h3⟩
        cases pre with
        | nil =>
          simp only [List.nil_append, List.cons.injEq] at h1
          exact absurd h2 (he m h1.1)
        | cons x pre =>
          simp only [List.cons_append, List.cons.injEq] at h1
          exact ⟨pre, post, h1.2, h2, fun m' hm => h3 m' (by simp [hm])⟩
      · rintro ⟨pre, post, h1, h2, h3⟩
        refine ⟨e :: pre, post, by rw [h1]; rfl, h2, fun m' hm => ?_⟩
        rcases List.mem_cons.1 hm with hm | hm
        · exact he m' hm.symm
        · exact h3 m' hm
    cases e with
    | mmap m' =>
      unfold findMMap
      by_cases hb : baseName m'.filename = baseName binary
      · rw [if_pos hb]
        constructor
        · intro h
          cases h
          exact ⟨[], t, rfl, hb, by simp⟩
        · rintro ⟨pre, post, h1, h2, h3⟩
          cases pre with
          | nil =>
            simp only [List.nil_append, List.cons.injEq, Ev.mmap.injEq] at h1
            rw [h1.1]
          | cons x pre =>
            simp only [List.cons_append, List.cons.injEq] at h1
            exact absurd hb (h3 m' (by simp [← h1.1]))
      · rw [if_neg hb, ih, skip]
        rintro _ h
        cases h
        exact hb
    | aux l =>
      unfold findMMap
      rw [ih, skip]
      rintro _ h; cases h
    | other =>
      unfold findMMap
      rw [ih, skip]
      rintro _ h; cases h

theorem findMMap_none (binary : Name) (evs : List Ev) :
    findMMap binary evs = none ↔ ∀ m, Ev.mmap m ∈ evs → baseName m.filename ≠ baseName binary := by
  induction evs with
  | nil => simp [findMMap]
  | cons e t ih =>
    cases e with
    | mmap m' =>
      unfold findMMap
      by_cases hb : baseName m'.filename = baseName binary
      · simp [hb]
      · rw [if_neg hb, ih]
        simp [hb]
    | aux l => unfold findMMap; rw [ih]; simp
    | other => unfold findMMap; rw [ih]; simp

theorem offset_eq {m : MMap} (h : m.Fits) (a o : Nat) (ho : o ≠ 0) : m.offset a = o ↔ m.At a o := by
  unfold MMap.offset MMap.contains MMap.At
  obtain ⟨h1, h2⟩ := h
  rw [add64_eq h1]
  by_cases hc : m.start ≤ a ∧ a < m.start + m.len
  · rw [if_pos (by simp [hc]), sub64_eq hc.1, add64_eq (by omega)]
    constructor
    · intro h; exact ⟨hc.1, hc.2, h.symm⟩
    · rintro ⟨_, _, h⟩; exact h.symm
  · rw [if_neg (by simpa using hc)]
    constructor
    · intro h; exact absurd h.symm ho
    · rintro ⟨h3, h4, _⟩; exact absurd ⟨h3, h4⟩ hc

theorem offset_ne {m : MMap} (h : m.Fits) (a : Nat) (hz : ¬ m.At a 0) : m.offset a ≠ 0 ↔ ∃ o, m.At a o := by
  constructor
  · intro hn
    exact ⟨m.offset a, (offset_eq h a _ hn).1 rfl⟩
  · rintro ⟨o, ho⟩ h0
    have hne : o ≠ 0 := by rintro rfl; exact hz ho
    rw [(offset_eq h a o hne).2 ho] at h0
    exact hne h0

/-- The offsets counted so far are aligned and fit in 64 bits. -/
def KeysOk (s : Counts) : Prop := Aligned (pairs s.branch) s.addr

theorem counted_iff (m : MMap) (r : Record) : Counted m r ↔ (∃ o, NotTaken m r o) ∨ ∃ o t, Taken m r o t := by
  unfold Counted NotTaken Taken MMap.At
  constructor
  · rintro ⟨h1, h2, h3, h4⟩
    by_cases hc : r.cond = true ∧ r.notTaken = true
    · exact Or.inl ⟨_, h1, h2, hc.1, hc.2, h3.1, h3.2, rfl⟩
    · rcases h4 with h4 | h4
      · exact absurd h4 hc
      · exact Or.inr ⟨_, _, h1, h2, hc, ⟨h3.1, h3.2, rfl⟩, h4.1, h4.2, rfl⟩
  · rintro (⟨o, h1, h2, h3, h4, h5⟩ | ⟨o, t, h1, h2, h3, h4, h5⟩)
    · exact ⟨h1, h2, ⟨h5.1, h5.2.1⟩, Or.inl ⟨h3, h4⟩⟩
    · exact ⟨h1, h2, ⟨h4.1, h4.2.1⟩, Or.inr ⟨h5.1, h5.2.1⟩⟩

theorem mem_add {K : Type} [LinearOrder K] {m : OMap K Nat} {kv e : K × Nat} (h : e ∈ OMap.add m kv) : e.1 = kv.1 ∨ e ∈ m := by
  unfold OMap.add at h
  exact OMap.mem_upsert_keys h

/-- The effect of one record on what can be observed. -/
theorem record_spec {m : MMap} {evs : List Ev} (h : Arm m evs) {r : Record} (hr : r ∈ records evs) (s : Counts)
    (hs : OMap.Sorted s.addr ∧ OMap.Sorted s.branch) :
    (∀ o, OMap.get0 (record m s r).addr o = OMap.get0 s.addr o + if NotTaken m r o then 1 else 0) ∧
    (∀ o t, OMap.get0 (record m s r).branch (toLex (o, t)) = OMap.get0 s.branch (toLex (o, t)) + if Taken m r o t then 1 else 0) ∧
    ((record m s r).total = s.total + if Counted m r then 1 else 0) ∧
    (s.total ≤ s.records → (record m s r).total ≤ (record m s r).records) ∧
    (OMap.Sorted (record m s r).addr ∧ OMap.Sorted (record m s r).branch) ∧
    (KeysOk s → KeysOk (record m s r)) := by
  have hz := h.header r hr
  have hadd : ∀ {K : Type} [LinearOrder K] (mp : OMap K Nat) (_ : OMap.Sorted mp) (k x : K),
      OMap.get0 (OMap.add mp (k, 1)) x = OMap.get0 mp x + if x = k then 1 else 0 := by
    intro K _ mp hm k x
    have := OMap.get0_addAll hm [(k, 1)] x
    unfold OMap.addAll OMap.sumAt at this
    simp only [List.foldl_cons, List.foldl_nil] at this
    rw [this]
    by_cases hx : x = k
    · subst hx; simp
    · simp [hx, Ne.symm hx]
  have hip0 : r.ip = 0 → ∀ o, ¬ m.At r.ip o := by
    rintro h0 o ⟨h1, _⟩
    have := h.zero
    omega
  have htg0 : r.target = 0 → ∀ o, ¬ m.At r.target o := by
    rintro h0 o ⟨h1, _⟩
    have := h.zero
    omega
  have hoff : ∀ a, ¬ m.At a 0 → m.offset a ≠ 0 → ∀ o, (m.At a o ↔ o = m.offset a) := by
    intro a hza hne o
    constructor
    · intro ho
      have : o ≠ 0 := by rintro rfl; exact hza ho
      exact ((offset_eq h.fits a o this).2 ho).symm
    · rintro rfl
      exact (offset_eq h.fits a _ hne).1 rfl
  have hnoff : ∀ a, ¬ m.At a 0 → m.offset a = 0 → ∀ o, ¬ m.At a o := by
    intro a hza he o ho
    exact (offset_ne h.fits a hza).2 ⟨o, ho⟩ he
  have halign : ∀ a, a % 4 = 0 → m.offset a ≠ 0 → m.offset a % 4 = 0 ∧ m.offset a < 2 ^ 64 := by
    intro a ha hne
    obtain ⟨h1, h2, h3⟩ := (offset_eq h.fits a _ hne).1 rfl
    obtain ⟨h4, h5⟩ := h.map
    obtain ⟨h6, h7⟩ := h.fits
    omega
  -- nothing is counted
  have hnone : ∀ s' : Counts, s'.addr = s.addr → s'.branch = s.branch → s'.total = s.total → s.records ≤ s'.records →
      (∀ o, ¬ NotTaken m r o) → (∀ o t, ¬ Taken m r o t) → record m s r = s' →
      (∀ o, OMap.get0 (record m s r).addr o = OMap.get0 s.addr o + if NotTaken m r o then 1 else 0) ∧
      (∀ o t, OMap.get0 (record m s r).branch (toLex (o, t)) = OMap.get0 s.branch (toLex (o, t)) + if Taken m r o t then 1 else 0) ∧
      ((record m s r).total = s.total + if Counted m r then 1 else 0) ∧
      (s.total ≤ s.records → (record m s r).total ≤ (record m s r).records) ∧
      (OMap.Sorted (record m s r).addr ∧ OMap.Sorted (record m s r).branch) ∧
      (KeysOk s → KeysOk (record m s r)) := by
    intro s' e1 e2 e3 e4 n1 n2 he
    rw [he, e1, e2, e3]
    have hnc : ¬ Counted m r := by
      rw [counted_iff]
      rintro (⟨o, ho⟩ | ⟨o, t, ht⟩)
      · exact n1 o ho
      · exact n2 o t ht
    exact ⟨fun o => by simp [n1], fun o t => by simp [n2], by simp [hnc], fun hh => by omega, hs,
      fun hk => by unfold KeysOk at *; rw [e1, e2]; exact hk⟩
  by_cases hb : r.retired = true ∧ r.branch = true
  swap
  · refine hnone s rfl rfl rfl (le_refl _) (fun o hn => hb ⟨hn.1, hn.2.1⟩) (fun o t ht => hb ⟨ht.1, ht.2.1⟩) ?_
    unfold record
    rw [if_pos]
    cases h1 : r.retired <;> cases h2 : r.branch <;> simp_all
  have hguard : (!r.retired || !r.branch) = false := by simp [hb.1, hb.2]
  by_cases h0 : r.ip = 0
  · refine hnone { s with records := s.records + 1 } rfl rfl rfl (by simp) (fun o hn => hip0 h0 o hn.2.2.2.2) (fun o t ht => hip0 h0 o ht.2.2.2.1) ?_
    unfold record
    simp [hguard, h0]
  by_cases ho : m.offset r.ip = 0
  · refine hnone { s with records := s.records + 1 } rfl rfl rfl (by simp) (fun o hn => hnoff _ hz.1 ho o hn.2.2.2.2)
      (fun o t ht => hnoff _ hz.1 ho o ht.2.2.2.1) ?_
    unfold record
    simp [hguard, h0, ho]
  have hat := hoff r.ip hz.1 ho
  by_cases hc : r.cond = true ∧ r.notTaken = true
  · have hrec : record m s r = { s with records := s.records + 1, addr := OMap.add s.addr (m.offset r.ip, 1), total := s.total + 1 } := by
      unfold record
      simp [hguard, h0, ho, hc.1, hc.2]
    have hnt : ∀ o, NotTaken m r o ↔ o = m.offset r.ip := fun o =>
      ⟨fun hn => (hat o).1 hn.2.2.2.2, fun e => ⟨hb.1, hb.2, hc.1, hc.2, (hat o).2 e⟩⟩
    have htk : ∀ o t, ¬ Taken m r o t := fun o t ht => ht.2.2.1 hc
    rw [hrec]
    refine ⟨fun o => ?_, fun o t => by simp [htk], ?_, fun hh => by simp only; omega, ⟨?_, hs.2⟩, fun hk => ⟨hk.1, fun e he => ?_⟩⟩
    · simp only [hnt]
      exact hadd s.addr hs.1 _ o
    · rw [if_pos ((counted_iff m r).2 (Or.inl ⟨_, (hnt _).2 rfl⟩))]
    · exact OMap.Sorted.addAll hs.1 [(m.offset r.ip, 1)]
    · rcases mem_add he with he | he
      · rw [he]; exact halign r.ip (h.recs r hr).1 ho
      · exact hk.2 e he
  have hnt : ∀ o, ¬ NotTaken m r o := fun o hn => hc ⟨hn.2.2.1, hn.2.2.2.1⟩
  have hcb : (r.cond && r.notTaken) = false := by
    cases h1 : r.cond <;> cases h2 : r.notTaken <;> simp_all
  by_cases ht0 : r.target = 0
  · refine hnone { s with records := s.records + 1 } rfl rfl rfl (by simp) hnt (fun o t ht => htg0 ht0 t ht.2.2.2.2) ?_
    unfold record
    simp [hguard, h0, ho, hcb, ht0]
  by_cases hto : m.offset r.target = 0
  · refine hnone { s with records := s.records + 1 } rfl rfl rfl (by simp) hnt (fun o t ht => hnoff _ hz.2 hto t ht.2.2.2.2) ?_
    unfold record
    simp [hguard, h0, ho, hcb, ht0, hto]
  have hrec : record m s r = { s with records := s.records + 1, branch := OMap.add s.branch (toLex (m.offset r.ip, m.offset r.target), 1), total := s.total + 1 } := by
    unfold record
    simp [hguard, h0, ho, hcb, ht0, hto]
  have htat := hoff r.target hz.2 hto
  have htk : ∀ o t, Taken m r o t ↔ o = m.offset r.ip ∧ t = m.offset r.target := fun o t =>
    ⟨fun ht => ⟨(hat o).1 ht.2.2.2.1, (htat t).1 ht.2.2.2.2⟩, fun e => ⟨hb.1, hb.2, hc, (hat o).2 e.1, (htat t).2 e.2⟩⟩
  rw [hrec]
  refine ⟨fun o => by simp [hnt], fun o t => ?_, ?_, fun hh => by simp only; omega, ⟨hs.1, ?_⟩, fun hk => ⟨fun e he => ?_, hk.2⟩⟩
  · simp only [htk]
    rw [hadd s.branch hs.2]
    congr 1
    simp
  · rw [if_pos ((counted_iff m r).2 (Or.inr ⟨_, _, (htk _ _).2 ⟨rfl, rfl⟩⟩))]
  · exact OMap.Sorted.addAll hs.2 [(toLex (m.offset r.ip, m.offset r.target), 1)]
  · obtain ⟨x, hx, rfl⟩ := List.mem_map.1 he
    rcases mem_add hx with hx | hx
    · simp only [hx]
      exact ⟨halign r.ip (h.recs r hr).1 ho, halign r.target (h.recs r hr).2 hto⟩
    · exact hk.1 _ (List.mem_map.2 ⟨x, hx, rfl⟩)

theorem fold_spec {m : MMap} {evs : List Ev} (h : Arm m evs) (l : List Record) (hl : ∀ r ∈ l, r ∈ records evs) (s : Counts)
    (hs : OMap.Sorted s.addr ∧ OMap.Sorted s.branch) (ht : s.total ≤ s.records) (hk : KeysOk s) :
    (∀ o, OMap.get0 (l.foldl (record m) s).addr o = OMap.get0 s.addr o + l.countP fun r => decide (NotTaken m r o)) ∧
    (∀ o t, OMap.get0 (l.foldl (record m) s).branch (toLex (o, t)) =
      OMap.get0 s.branch (toLex (o, t)) + l.countP fun r => decide (Taken m r o t)) ∧
    (l.foldl (record m) s).total = s.total + (l.countP fun r => decide (Counted m r)) ∧
    (l.foldl (record m) s).total ≤ (l.foldl (record m) s).records ∧
    (OMap.Sorted (l.foldl (record m) s).addr ∧ OMap.Sorted (l.foldl (record m) s).branch) ∧ KeysOk (l.foldl (record m) s) := by
  induction l generalizing s with
  | nil => exact ⟨fun o => by simp, fun o t => by simp, by simp, ht, hs, hk⟩
  | cons r l ih =>
    obtain ⟨h1, h2, h3, h4, h5, h6⟩ := record_spec h (hl r (by simp)) s hs
    obtain ⟨g1, g2, g3, g4, g5, g6⟩ := ih (fun x hx => hl x (by simp [hx])) (record m s r) h5 (h4 ht) (h6 hk)
    rw [List.foldl_cons]
    refine ⟨fun o => ?_, fun o t => ?_, ?_, g4, g5, g6⟩
    · rw [g1, h1, List.countP_cons]; simp only [decide_eq_true_eq]; omega
    · rw [g2, h2, List.countP_cons]; simp only [decide_eq_true_eq]; omega
    · rw [g3, h3, List.countP_cons]; simp only [decide_eq_true_eq]; omega

theorem collect_spec {m : MMap} {evs : List Ev} (h : Arm m evs) :
    (∀ o, OMap.get0 (collect m evs).addr o = (records evs).countP fun r => decide (NotTaken m r o)) ∧
    (∀ o t, OMap.get0 (collect m evs).branch (toLex (o, t)) = (records evs).countP fun r => decide (Taken m r o t)) ∧
    (collect m evs).total = ((records evs).countP fun r => decide (Counted m r)) ∧
    (collect m evs).total ≤ (collect m evs).records ∧
    (OMap.Sorted (collect m evs).addr ∧ OMap.Sorted (collect m evs).branch) ∧ KeysOk (collect m evs) := by
  obtain ⟨h1, h2, h3, h4, h5, h6⟩ := fold_spec h (records evs) (fun _ hr => hr) ⟨[], [], 0, 0⟩
    ⟨OMap.sorted_nil, OMap.sorted_nil⟩ (le_refl _) ⟨by simp [pairs], by simp⟩
  have e0 : ∀ {K : Type} [LinearOrder K] (k : K), OMap.get0 ([] : OMap K Nat) k = 0 := fun _ => rfl
  unfold collect
  refine ⟨fun o => by rw [h1]; simp [e0], fun o t => by rw [h2]; simp [e0], by rw [h3]; simp, h4, h5, h6⟩

/-- What a reader holds after a file whose first mapping of the binary is `m`. -/
structure Holds (m : MMap) (evs : List Ev) (R : Reader) : Prop where
  /-- branches that were not taken -/
  addr : ∀ o, OMap.get0 R.maps.addr o = (records evs).countP fun r => decide (NotTaken m r o)
  /-- branches that were taken -/
  branch : ∀ o t, OMap.get0 R.maps.branch (toLex (o, t)) = (records evs).countP fun r => decide (Taken m r o t)
  /-- the ranges between them, as in C42 -/
  range : ∃ l, (∀ r ∈ l, RangeOk (pairs R.maps.branch) R.maps.addr r) ∧ (l.Pairwise fun a b => a.stop < b.start) ∧
    R.maps.range = rangeCounts l ∧ ∀ s e w, OMap.find? R.maps.range (toLex (s, e)) = some w ↔ Rng.mk s e w ∈ l
  /-- the number of the records counted -/
  total : R.total = (records evs).countP fun r => decide (Counted m r)
  ok : R.maps.Ok

/-- **C80.** For every perf file: reading fails if no mapping of the binary or no branch in its first mapping was recorded; otherwise the
reader holds exactly the branches in that mapping, at their offsets in the file, and the ranges of C42. -/
theorem read_spec (binary : Name) (evs : List Ev) :
    ((∀ m, Ev.mmap m ∈ evs → baseName m.filename ≠ baseName binary) → read binary (some evs) = some none) ∧
    (∀ m, IsFirst binary evs m → Arm m evs → (∀ r ∈ records evs, ¬ Counted m r) → read binary (some evs) = some none) ∧
    (∀ m, IsFirst binary evs m → Arm m evs → (∃ r ∈ records evs, Counted m r) →
      ∃ R, read binary (some evs) = some (some R) ∧ Holds m evs R) := by
  refine ⟨fun h => ?_, fun m hm ha hn => ?_, fun m hm ha hc => ?_⟩
  · unfold read
    simp only [(findMMap_none binary evs).2 h]
  · obtain ⟨_, _, h3, _⟩ := collect_spec ha
    have h0 : (collect m evs).total = 0 := by
      rw [h3, List.countP_eq_zero]
      intro r hr
      simpa using hn r hr
    unfold read
    simp only [(findMMap_some binary evs m).2 hm]
    split
    · rfl
    · rw [if_pos (Or.inr h0)]
  · obtain ⟨h1, h2, h3, h4, h5, h6⟩ := collect_spec ha
    have hpos : 0 < (collect m evs).total := by
      rw [h3, List.countP_pos_iff]
      obtain ⟨r, hr, hcr⟩ := hc
      exact ⟨r, hr, by simpa using hcr⟩
    have hbuf : buffers evs ≠ 0 := by
      obtain ⟨r, hr, _⟩ := hc
      unfold records at hr
      rw [List.mem_flatMap] at hr
      obtain ⟨e, he, hr⟩ := hr
      unfold buffers
      rw [Ne, List.countP_eq_zero]
      intro hall
      have := hall e he
      cases e <;> simp_all
    obtain ⟨l, hl, hok, hdis⟩ := synthesize_ok (pairs (collect m evs).branch) (collect m evs).addr h6
    refine ⟨⟨⟨rangeCounts l, (collect m evs).addr, (collect m evs).branch⟩, (collect m evs).total⟩, ?_, ?_⟩
    · unfold read
      simp only [(findMMap_some binary evs m).2 hm]
      rw [if_neg hbuf, if_neg (by omega), hl]
      rfl
    · refine ⟨h1, h2, ⟨l, hok, hdis, rfl, fun s e w => ?_⟩, h3, ⟨?_, h5.1, h5.2⟩⟩
      · exact rangeCounts_spec hdis (fun r hr => ⟨(hok r hr).nonempty, (hok r hr).pos⟩) s e w
      · exact OMap.Sorted.addAll OMap.sorted_nil _

/-- **C80, appending**: the counts of the file are added; a file that cannot be read changes nothing. -/
theorem append_spec (binary : Name) (r : Reader) (hr : r.maps.Ok) (evs : List Ev) (m : MMap) (hm : IsFirst binary evs m) (ha : Arm m evs) :
    (∀ R, read binary (some evs) = some (some R) → ∃ r', append binary r (some evs) = some (r', true) ∧ r'.maps.Ok ∧
      (∀ o, OMap.get0 r'.maps.addr o = OMap.get0 r.maps.addr o + OMap.get0 R.maps.addr o) ∧
      (∀ p, OMap.get0 r'.maps.branch p = OMap.get0 r.maps.branch p + OMap.get0 R.maps.branch p) ∧
      (∀ p, OMap.get0 r'.maps.range p = OMap.get0 r.maps.range p + OMap.get0 R.maps.range p) ∧ r'.total = r.total + R.total) ∧
    (read binary (some evs) = some none → append binary r (some evs) = some (r, false)) ∧ append binary r none = some (r, false) := by
  refine ⟨fun R hR => ?_, fun h => by unfold append; rw [h]; rfl, rfl⟩
  have hok : R.maps.Ok := by
    by_cases hc : ∃ x ∈ records evs, Counted m x
    · obtain ⟨R', h1, h2⟩ := (read_spec binary evs).2.2 m hm ha hc
      rw [hR] at h1
      cases h1
      exact h2.ok
    · have := (read_spec binary evs).2.1 m hm ha (fun x hx hcx => hc ⟨x, hx, hcx⟩)
      rw [hR] at this
      cases this
  refine ⟨⟨r.maps.merge R.maps, r.total + R.total⟩, by unfold append; rw [hR]; rfl, ?_, fun o => ?_, fun p => ?_, fun p => ?_, rfl⟩
  · exact ⟨OMap.Sorted.addAll hr.1 _, OMap.Sorted.addAll hr.2.1 _, OMap.Sorted.addAll hr.2.2 _⟩
  · simp only [Maps.merge]
    rw [OMap.get0_addAll hr.2.1, OMap.sumAt_of_sorted hok.2.1]
  · simp only [Maps.merge]
    rw [OMap.get0_addAll hr.2.2, OMap.sumAt_of_sorted hok.2.2]
  · simp only [Maps.merge]
    rw [OMap.get0_addAll hr.1, OMap.sumAt_of_sorted hok.1]

/-! ## The total count -/

/-- **C80, the total count, as it is**: the number of the records is added to the covered bytes of C03. -/
theorem total_count_partial (m : MMap) (evs : List Ev) (R : Reader) (h : Holds m evs R) (hR : R.total < 2 ^ 64)
    (hr : ∀ p ∈ R.maps.range, (ofLex p.1).1 ≤ (ofLex p.1).2 ∧ (ofLex p.1).2 < 2 ^ 64 - 1) :
    readTotal R = (((records evs).countP fun r => decide (Counted m r)) +
      (if R.maps.range.isEmpty then (R.maps.addr.map Prod.snd).sum else coveredBytes R.maps.range)) % 2 ^ 64 := by
  rw [← h.total]
  unfold readTotal Maps.totalCountFrom
  cases hm : R.maps.range with
  | nil =>
    simp only [List.isEmpty_nil, if_true]
    rw [foldl_mod _ _ _ hR]
  | cons p t =>
    rw [if_neg (by simp)]
    simp only
    rw [foldl_mod _ _ _ hR, ← hm, coveredBytes]
    congr 2
    apply congrArg
    apply List.map_congr_left
    intro q hq
    have := hr q hq
    congr 1
    omega

/-! ## Example and violations -/

/-- A binary mapped at 0x400000 from the offset 0x1000, one branch taken and one not. -/
def exEvs : List Ev :=
  [.other, .mmap ⟨0x300000, 0x1000, 0, str "/lib/b"⟩, .mmap ⟨0x400000, 0x1000, 0x1000, str "/bin/a"⟩,
   .aux [⟨true, true, false, false, 0x400010, 0x400100⟩, ⟨true, true, true, true, 0x400110, 0⟩, ⟨true, false, false, false, 0x400020, 0⟩,
     ⟨true, true, false, false, 0x400120, 0x300000⟩]]

def exMMap : MMap := ⟨0x400000, 0x1000, 0x1000, str "/bin/a"⟩

theorem ex_arm : IsFirst (str "out/a") exEvs exMMap ∧ Arm exMMap exEvs ∧ ∃ r ∈ records exEvs, Counted exMMap r := by
  refine ⟨(findMMap_some _ _ _).1 (by decide +kernel), ⟨?_, ?_, ?_, ?_, ?_⟩, ?_⟩
  · unfold MMap.Fits; decide +kernel
  all_goals decide +kernel

theorem ex_read : read (str "out/a") (some exEvs) = some (some ⟨⟨[(toLex (0x1100, 0x1110), 1), (toLex (0x1114, 0x20fc), 1)], [(0x1110, 1)],
    [(toLex (0x1010, 0x1100), 1)]⟩, 2⟩) := by decide +kernel

/-- The claim of C03 for this reader: the total count is the number of covered bytes, weighted with the counts. -/
def TotalClaim : Prop := ∀ (binary : Name) (evs : List Ev) (m : MMap) (R : Reader), IsFirst binary evs m → Arm m evs →
  read binary (some evs) = some (some R) → R.maps.range ≠ [] → coveredBytes R.maps.range < 2 ^ 64 → readTotal R = coveredBytes R.maps.range

/-- **C80, violated: total count.** `Read` counts the records in `total_count_`, and `ReadAndSetTotalCount` adds the covered bytes to it. -/
theorem total_count_violated : ¬ TotalClaim := by
  intro h
  have := h (str "out/a") exEvs exMMap _ ex_arm.1 ex_arm.2.1 ex_read (by simp) (by decide +kernel)
  revert this
  decide +kernel

/-- Every mapping of the binary counts. -/
def MappingClaim : Prop := ∀ (binary : Name) (evs : List Ev) (m : MMap) (R : Reader), Ev.mmap m ∈ evs → baseName m.filename = baseName binary →
  Arm m evs → read binary (some evs) = some (some R) → ∀ o, ((records evs).countP fun r => decide (NotTaken m r o)) ≤ OMap.get0 R.maps.addr o

/-- **C80, violated: mappings.** A binary that is mapped twice (two segments, or two processes): the samples in the second mapping are lost. -/
theorem second_mapping_violated : ¬ MappingClaim := by
  intro h
  have := h (str "a") [.mmap ⟨0x400000, 0x1000, 0x1000, str "/bin/a"⟩, .mmap ⟨0x500000, 0x1000, 0x2000, str "/bin/a"⟩,
      .aux [⟨true, true, true, true, 0x400010, 0⟩, ⟨true, true, true, true, 0x500010, 0⟩]] ⟨0x500000, 0x1000, 0x2000, str "/bin/a"⟩
    ⟨⟨[], [(0x1010, 1)], []⟩, 1⟩ (by simp) (by decide +kernel)
    ⟨by unfold MMap.Fits; decide +kernel, by decide +kernel, by decide +kernel, by decide +kernel, by decide +kernel⟩ (by decide +kernel) 0x2010
  revert this
  decide +kernel

end Verif.SpeSimple

import Verif.OMap
import Verif.Bytes
import Verif.SpeRanges
import Mathlib.Tactic.Linarith

/-! # C22, C23: mappings selected from perf data and address translation (perfdata_reader.cc) -/
namespace Verif.PerfMMap
open Verif
open Verif.SpeRanges (add64 sub64 add64_eq sub64_eq add64_cases)

/-- Fields read from a `PERF_RECORD_MMAP` event; `none` is an absent protobuf field (perfdata_reader.cc:216-231). -/
structure Event where
  pid : Option Nat
  start : Option Nat
  len : Option Nat
  pgoff : Option Nat
  file : Option Name

/-- `MMapEntry` (perfdata_reader.h:29-62). -/
structure Entry where
  pid : Nat
  addr : Nat
  size : Nat
  pgoff : Nat
  file : Name
deriving DecidableEq

/-- `BinaryMMaps` (perfdata_reader.h:66): per process a set of entries, listed in iteration order. -/
abbrev MMaps := OMap Nat (List Entry)

/-- `MMapEntry::operator<` (perfdata_reader.h:44-51). -/
def Entry.lt (a b : Entry) : Bool :=
  if a.addr ≠ b.addr then decide (a.addr < b.addr)
  else if a.size ≠ b.size then decide (a.size < b.size)
  else if a.pgoff ≠ b.pgoff then decide (a.pgoff < b.pgoff)
  else if a.file ≠ b.file then decide (a.file < b.file)
  else false

/-- `std::set<MMapEntry>::emplace`. -/
def insertEntry (n : Entry) : List Entry → List Entry
  | [] => [n]
  | e :: es => if e.lt n then e :: insertEntry n es else if n.lt e then n :: e :: es else e :: es

/-- The event as an entry, when all needed fields are present and the file name is selected
(perfdata_reader.cc:211-231).  The file name filter is a parameter (see `Verif.MMapSelector`). -/
def toEntry (sel : Name → Bool) (ev : Event) : Option Entry :=
  match ev.file, ev.start, ev.len, ev.pid with
  | some f, some s, some l, some p => if f = [] then none else if sel f then some ⟨p, s, l, ev.pgoff.getD 0, f⟩ else none
  | _, _, _, _ => none

/-- Same load address, size and page offset (perfdata_reader.cc:237-238). -/
def sameMap (e n : Entry) : Bool := decide (e.addr = n.addr ∧ e.size = n.size ∧ e.pgoff = n.pgoff)

/-- The conflict test (perfdata_reader.cc:242-243), with 64-bit wrapping sums. -/
def conflict (n e : Entry) : Bool := !(decide (add64 n.addr n.size ≤ e.addr) || decide (add64 e.addr e.size ≤ n.addr))

/-- The loop over the existing mappings (perfdata_reader.cc:236-256): `none` is the error, otherwise `entry_exists`. -/
def scan (n : Entry) : List Entry → Bool → Option Bool
  | [], ex => some ex
  | e :: es, ex => if sameMap e n then scan n es true else if conflict n e then none else scan n es ex

/-- One mmap event (perfdata_reader.cc:233-264). -/
def addEntry (m : MMaps) (n : Entry) : Option MMaps :=
  match OMap.find? m n.pid with
  | some es => (scan n es false).map fun ex => if ex then m else OMap.set n.pid (insertEntry n es) m
  | none => some (OMap.set n.pid [n] m)

/-- `SelectMMaps` after the events are parsed (perfdata_reader.cc:209-272); `none` is an error status. -/
def select (sel : Name → Bool) (evs : List Event) : Option MMaps :=
  ((evs.filterMap (toEntry sel)).foldlM addEntry ([] : MMaps)).bind fun m => if m = [] then none else some m

/-! ### Specification -/

/-- Two mappings share an address. -/
def Overlap (a b : Entry) : Prop := ∃ x, (a.addr ≤ x ∧ x < a.addr + a.size) ∧ (b.addr ≤ x ∧ x < b.addr + b.size)

/-- The same mapping, whatever the file name. -/
def Same (a b : Entry) : Prop := a.addr = b.addr ∧ a.size = b.size ∧ a.pgoff = b.pgoff

/-- The mapping does not reach the end of the 64-bit address space. -/
def Fits (e : Entry) : Prop := e.addr + e.size < 2 ^ 64

/-- Two half-open ranges that are not one before the other. For non-empty ranges: they overlap. -/
def Clash (a b : Entry) : Prop := ¬ (a.addr + a.size ≤ b.addr) ∧ ¬ (b.addr + b.size ≤ a.addr)

theorem clash_of_overlap {a b : Entry} (h : Overlap a b) : Clash a b := by
  obtain ⟨x, h1, h2⟩ := h
  exact ⟨by omega, by omega⟩

/-- For non-empty mappings `Clash` is sharing an address. -/
theorem clash_iff_overlap {a b : Entry} (ha : 0 < a.size) (hb : 0 < b.size) : Clash a b ↔ Overlap a b := by
  refine ⟨fun h => ?_, clash_of_overlap⟩
  obtain ⟨h1, h2⟩ := h
  exact ⟨max a.addr b.addr, ⟨by omega, by omega⟩, ⟨by omega, by omega⟩⟩

/-! ### Proofs -/

theorem sameMap_iff {e n : Entry} : sameMap e n = true ↔ Same e n := by simp [sameMap, Same]

theorem conflict_iff {n e : Entry} (hn : Fits n) (he : Fits e) : conflict n e = true ↔ Clash n e := by
  unfold conflict Clash
  rw [add64_eq hn, add64_eq he]
  simp

theorem scan_spec (n : Entry) : ∀ (es : List Entry) (ex : Bool),
    (scan n es ex = none ↔ ∃ e ∈ es, ¬ Same e n ∧ conflict n e = true) ∧
    (∀ r, scan n es ex = some r → (r = true ↔ ex = true ∨ ∃ e ∈ es, Same e n)) := by
  intro es
  induction es with
  | nil =>
    intro ex
    refine ⟨by simp [scan], ?_⟩
    intro r hr
    rw [scan] at hr; cases hr; simp
  | cons e es ih =>
    intro ex
    rw [scan]
    by_cases h1 : Same e n
    · rw [if_pos (sameMap_iff.mpr h1)]
      obtain ⟨i1, i2⟩ := ih true
      refine ⟨by rw [i1]; simp [h1], ?_⟩
      intro r hr
      have := i2 r hr
      simp only [true_or, iff_true] at this
      simp [this, h1]
    · rw [if_neg (by rw [sameMap_iff]; exact h1)]
      by_cases h2 : conflict n e = true
      · rw [if_pos h2]
        exact ⟨by simp [h1, h2], by simp⟩
      · rw [if_neg h2]
        obtain ⟨i1, i2⟩ := ih ex
        refine ⟨by rw [i1]; simp [h2], ?_⟩
        intro r hr
        rw [i2 r hr]; simp [h1]

theorem Entry.lt_same {a b : Entry} (h : a.lt b = false) (h' : b.lt a = false) : Same a b := by
  unfold Entry.lt at h h'
  refine ⟨?_, ?_, ?_⟩
  · by_contra hc
    rw [if_pos hc] at h; rw [if_pos (Ne.symm hc)] at h'
    simp at h h'; omega
  all_goals
    by_cases h1 : a.addr = b.addr
    · rw [if_neg (by simp [h1])] at h; rw [if_neg (by simp [h1])] at h'
      by_cases h2 : a.size = b.size
      · rw [if_neg (by simp [h2])] at h; rw [if_neg (by simp [h2])] at h'
        by_cases h3 : a.pgoff = b.pgoff
        · first | exact h2 | exact h3
        · rw [if_pos h3] at h; rw [if_pos (Ne.symm h3)] at h'
          simp at h h'; omega
      · rw [if_pos h2] at h; rw [if_pos (Ne.symm h2)] at h'
        simp at h h'; omega
    · rw [if_pos h1] at h; rw [if_pos (Ne.symm h1)] at h'
      simp at h h'; omega

theorem insertEntry_perm (n : Entry) : ∀ (es : List Entry), (∀ e ∈ es, ¬ Same e n) → (insertEntry n es).Perm (n :: es) := by
  intro es
  induction es with
  | nil => intro _; exact List.Perm.refl _
  | cons e es ih =>
    intro h
    rw [insertEntry]
    split
    · exact ((ih (fun x hx => h x (by simp [hx]))).cons e).trans (List.Perm.swap _ _ _)
    · split
      · exact List.Perm.refl _
      · rename_i h1 h2
        exact absurd (Entry.lt_same (by simpa using h1) (by simpa using h2)) (h e (by simp))

/-- State after some of the entries: `hist`. -/
structure Inv (m : MMaps) (hist : List Entry) : Prop where
  sorted : OMap.Sorted m
  nonempty : ∀ pid es, OMap.find? m pid = some es → es ≠ []
  from_hist : ∀ pid es, OMap.find? m pid = some es → ∀ e ∈ es, e ∈ hist ∧ e.pid = pid
  distinct : ∀ pid es, OMap.find? m pid = some es → es.Pairwise fun a b => ¬ Same a b ∧ ¬ Same b a ∧ ¬ Clash a b ∧ ¬ Clash b a
  kept : ∀ n ∈ hist, ∃ es, OMap.find? m n.pid = some es ∧ ∃ e ∈ es, Same e n

theorem Same.symm {a b : Entry} (h : Same a b) : Same b a := ⟨h.1.symm, h.2.1.symm, h.2.2.symm⟩
theorem Clash.symm {a b : Entry} (h : Clash a b) : Clash b a := ⟨h.2, h.1⟩
theorem clash_same {a b c : Entry} (h : Same a b) : Clash c a ↔ Clash c b := by
  unfold Clash; rw [h.1, h.2.1]

theorem addEntry_none {m : MMaps} {hist : List Entry} (hI : Inv m hist) (hh : ∀ e ∈ hist, Fits e) {n : Entry} (hn : Fits n) :
    addEntry m n = none ↔ ∃ e ∈ hist, e.pid = n.pid ∧ ¬ Same e n ∧ Clash n e := by
  unfold addEntry
  cases h : OMap.find? m n.pid with
  | none =>
    simp only [reduceCtorEq, false_iff]
    rintro ⟨e, he, hp, _⟩
    obtain ⟨es, h1, _⟩ := hI.kept e he
    rw [hp, h] at h1; cases h1
  | some es =>
    simp only [Option.map_eq_none_iff]
    rw [(scan_spec n es false).1]
    constructor
    · rintro ⟨e, he, h1, h2⟩
      obtain ⟨h3, h4⟩ := hI.from_hist _ _ h e he
      exact ⟨e, h3, h4, h1, (conflict_iff hn (hh e h3)).mp h2⟩
    · rintro ⟨e, he, hp, h1, h2⟩
      obtain ⟨es', h3, e', he', h4⟩ := hI.kept e he
      rw [hp, h] at h3; cases h3
      refine ⟨e', he', ?_, (conflict_iff hn (hh e' (hI.from_hist _ _ h e' he').1)).mpr ((clash_same h4).mpr h2)⟩
      intro hc
      exact h1 ⟨by rw [← h4.1]; exact hc.1, by rw [← h4.2.1]; exact hc.2.1, by rw [← h4.2.2]; exact hc.2.2⟩

theorem addEntry_inv {m m' : MMaps} {hist : List Entry} (hI : Inv m hist) (hh : ∀ e ∈ hist, Fits e) {n : Entry} (hn : Fits n)
    (h : addEntry m n = some m') : Inv m' (hist ++ [n]) := by
  have key : ∀ m' : MMaps, ∀ es0 : List Entry, OMap.Sorted m' →
      (∀ pid, OMap.find? m' pid = if pid = n.pid then some es0 else OMap.find? m pid) →
      es0 ≠ [] → (∀ e ∈ es0, e ∈ hist ++ [n] ∧ e.pid = n.pid) →
      (es0.Pairwise fun a b => ¬ Same a b ∧ ¬ Same b a ∧ ¬ Clash a b ∧ ¬ Clash b a) →
      (∀ x, (∃ es, OMap.find? m n.pid = some es ∧ x ∈ es) → x ∈ es0) → (∃ e ∈ es0, Same e n) → Inv m' (hist ++ [n]) := by
    intro m' es0 hs hf h1 h2 h3 h4 h5
    refine ⟨hs, ?_, ?_, ?_, ?_⟩
    · intro pid es he
      rw [hf] at he
      split at he
      · cases he; exact h1
      · exact hI.nonempty pid es he
    · intro pid es he e hm
      rw [hf] at he
      split at he
      · rename_i hp; cases he; rw [hp]; exact h2 e hm
      · have := hI.from_hist pid es he e hm
        exact ⟨List.mem_append_left _ this.1, this.2⟩
    · intro pid es he
      rw [hf] at he
      split at he
      · cases he; exact h3
      · exact hI.distinct pid es he
    · intro x hx
      rcases List.mem_append.mp hx with hx | hx
      · obtain ⟨es, h6, e, h7, h8⟩ := hI.kept x hx
        by_cases hp : x.pid = n.pid
        · refine ⟨es0, by rw [hf, if_pos hp], e, h4 e ⟨es, by rw [← hp]; exact h6, h7⟩, h8⟩
        · exact ⟨es, by rw [hf, if_neg hp]; exact h6, e, h7, h8⟩
      · rcases List.mem_singleton.mp hx with rfl
        exact ⟨es0, by rw [hf, if_pos rfl], h5⟩
  unfold addEntry at h
  cases hf : OMap.find? m n.pid with
  | none =>
    rw [hf] at h
    simp only [Option.some.injEq] at h
    subst h
    apply key _ [n] (OMap.Sorted.upsert hI.sorted _ _)
    · intro pid; exact OMap.find?_upsert hI.sorted _ _ pid
    · simp
    · simp
    · simp
    · rintro x ⟨es, h1, _⟩; rw [hf] at h1; cases h1
    · exact ⟨n, by simp, rfl, rfl, rfl⟩
  | some es =>
    rw [hf] at h
    simp only [Option.map_eq_some_iff] at h
    obtain ⟨ex, hex, h⟩ := h
    have hs := (scan_spec n es false).2 ex hex
    simp only [Bool.false_eq_true, false_or] at hs
    split at h
    · rename_i hexx
      subst h
      apply key m es hI.sorted
      · intro pid; split
        · rename_i hp; rw [hp]; exact hf
        · rfl
      · exact hI.nonempty _ _ hf
      · intro e he
        have := hI.from_hist _ _ hf e he
        exact ⟨List.mem_append_left _ this.1, this.2⟩
      · exact hI.distinct _ _ hf
      · rintro x ⟨es', h1, h2⟩; rw [hf] at h1; cases h1; exact h2
      · exact hs.mp hexx
    · rename_i hexx
      subst h
      have hno : ∀ e ∈ es, ¬ Same e n := by
        intro e he hc; exact hexx (hs.mpr ⟨e, he, hc⟩)
      have hcl : ∀ e ∈ es, ¬ Clash n e := by
        intro e he hc
        have := (scan_spec n es false).1.mpr ⟨e, he, hno e he,
          (conflict_iff hn (hh e (hI.from_hist _ _ hf e he).1)).mpr hc⟩
        rw [this] at hex; cases hex
      have hperm := insertEntry_perm n es hno
      apply key _ (insertEntry n es) (OMap.Sorted.upsert hI.sorted _ _)
      · intro pid; exact OMap.find?_upsert hI.sorted _ _ pid
      · intro hc; rw [hc] at hperm; simpa using hperm.length_eq
      · intro e he
        rcases List.mem_cons.mp (hperm.mem_iff.mp he) with rfl | he
        · simp
        · have := hI.from_hist _ _ hf e he
          exact ⟨List.mem_append_left _ this.1, this.2⟩
      · apply (hperm.pairwise_iff (by
          intro a b hab; exact ⟨hab.2.1, hab.1, hab.2.2.2, hab.2.2.1⟩)).mpr
        refine List.pairwise_cons.mpr ⟨?_, hI.distinct _ _ hf⟩
        intro e he
        exact ⟨fun hc => hno e he hc.symm, hno e he, hcl e he, fun hc => hcl e he hc.symm⟩
      · rintro x ⟨es', h1, h2⟩; rw [hf] at h1; cases h1
        exact hperm.mem_iff.mpr (by simp [h2])
      · exact ⟨n, hperm.mem_iff.mpr (by simp), rfl, rfl, rfl⟩

theorem fold_spec : ∀ (l : List Entry) (m : MMaps) (hist : List Entry), Inv m hist → (∀ e ∈ hist ++ l, Fits e) →
    hist.Pairwise (fun a b => a.pid = b.pid → Same a b ∨ ¬ Clash b a) →
    (∀ m', l.foldlM addEntry m = some m' → Inv m' (hist ++ l)) ∧
    (l.foldlM addEntry m = none ↔ ¬ (hist ++ l).Pairwise (fun a b => a.pid = b.pid → Same a b ∨ ¬ Clash b a)) := by
  intro l
  induction l with
  | nil => intro m hist hI _ hp; simp [hI, hp]
  | cons n l ih =>
    intro m hist hI hf hp
    have hfh : ∀ e ∈ hist, Fits e := fun e he => hf e (by simp [he])
    have hfn : Fits n := hf n (by simp)
    rw [List.foldlM_cons]
    have hsplit : hist ++ n :: l = (hist ++ [n]) ++ l := by simp
    cases ha : addEntry m n with
    | none =>
      obtain ⟨e, he, h1, h2, h3⟩ := (addEntry_none hI hfh hfn).mp ha
      refine ⟨by intro m' h; simp at h, ?_⟩
      simp only [Option.bind_eq_bind, Option.bind_none, true_iff]
      intro hc
      rcases (List.pairwise_append.mp hc).2.2 e he n (by simp) h1 with h | h
      · exact h2 h
      · exact h h3
    | some m1 =>
      have hI1 := addEntry_inv hI hfh hfn ha
      have hp1 : (hist ++ [n]).Pairwise (fun a b => a.pid = b.pid → Same a b ∨ ¬ Clash b a) := by
        refine List.pairwise_append.mpr ⟨hp, by simp, ?_⟩
        intro e he x hx hpid
        rcases List.mem_singleton.mp hx with rfl
        by_contra hc
        have hc1 : ¬ Same e x := fun h => hc (Or.inl h)
        have hc2 : Clash x e := by by_contra h; exact hc (Or.inr h)
        have := (addEntry_none hI hfh hfn).mpr ⟨e, he, hpid, hc1, hc2⟩
        rw [ha] at this; cases this
      have := ih m1 (hist ++ [n]) hI1 (by rw [← hsplit]; exact hf) hp1
      rw [hsplit]
      simpa using this

theorem inv_nil : Inv [] [] := ⟨OMap.sorted_nil, by simp [OMap.find?], by simp [OMap.find?], by simp [OMap.find?], by simp⟩

/-- **C22**: the selected mappings of a process do not overlap; every selected event is represented exactly once and
nothing else is. -/
theorem select_ok (sel : Name → Bool) (evs : List Event) (m : MMaps)
    (hf : ∀ e ∈ evs.filterMap (toEntry sel), Fits e) (h : select sel evs = some m) :
    (∀ pid es, OMap.find? m pid = some es →
      es ≠ [] ∧ es.Pairwise (fun a b => ¬ Same a b ∧ ¬ Overlap a b) ∧
      ∀ e ∈ es, e.pid = pid ∧ e ∈ evs.filterMap (toEntry sel)) ∧
    (∀ n ∈ evs.filterMap (toEntry sel), ∃ es, OMap.find? m n.pid = some es ∧ ∃! e, e ∈ es ∧ Same e n) := by
  unfold select at h
  rw [Option.bind_eq_some_iff] at h
  obtain ⟨m', h1, h2⟩ := h
  split at h2
  · cases h2
  · cases h2
    have hI := (fold_spec _ [] [] inv_nil (by simpa using hf) List.Pairwise.nil).1 m h1
    rw [List.nil_append] at hI
    constructor
    · intro pid es he
      refine ⟨hI.nonempty pid es he, ?_, ?_⟩
      · exact (hI.distinct pid es he).imp fun hab => ⟨hab.1, fun hc => hab.2.2.1 (clash_of_overlap hc)⟩
      · intro e hm
        have := hI.from_hist pid es he e hm
        exact ⟨this.2, this.1⟩
    · intro n hn
      obtain ⟨es, h3, e, h4, h5⟩ := hI.kept n hn
      refine ⟨es, h3, e, ⟨h4, h5⟩, ?_⟩
      rintro e' ⟨h6, h7⟩
      by_contra hne
      have hs : Same e' e := ⟨h7.1.trans h5.1.symm, h7.2.1.trans h5.2.1.symm, h7.2.2.trans h5.2.2.symm⟩
      have hd := hI.distinct _ _ h3
      have hsym : ∀ ⦃a b : Entry⦄, (¬ Same a b ∧ ¬ Same b a ∧ ¬ Clash a b ∧ ¬ Clash b a) →
          (¬ Same b a ∧ ¬ Same a b ∧ ¬ Clash b a ∧ ¬ Clash a b) := fun a b hab => ⟨hab.2.1, hab.1, hab.2.2.2, hab.2.2.1⟩
      exact (List.Pairwise.forall_of_forall_of_flip (R := fun a b => a ≠ b → ¬ Same a b) (by simp)
        (hd.imp fun hab _ => hab.1) (hd.imp fun hab _ => hab.2.1) h6 h4) hne hs

/-- **C22**: selection fails exactly when no event is selected or two different selected mappings of one process
clash. -/
theorem select_none_iff (sel : Name → Bool) (evs : List Event) (hf : ∀ e ∈ evs.filterMap (toEntry sel), Fits e) :
    select sel evs = none ↔ evs.filterMap (toEntry sel) = [] ∨
      ∃ a ∈ evs.filterMap (toEntry sel), ∃ b ∈ evs.filterMap (toEntry sel), a.pid = b.pid ∧ ¬ Same a b ∧ Clash a b := by
  obtain ⟨f1, f2⟩ := fold_spec (evs.filterMap (toEntry sel)) [] [] inv_nil (by simpa using hf) List.Pairwise.nil
  rw [List.nil_append] at f1 f2
  unfold select
  generalize hl : evs.filterMap (toEntry sel) = l at *
  constructor
  · intro h
    cases hr : l.foldlM addEntry ([] : MMaps) with
    | none =>
      right
      have := f2.mp hr
      by_contra hc
      apply this
      rw [List.pairwise_iff_getElem]
      intro i j hi hj hij hp
      have ha := List.getElem_mem hi
      have hb := List.getElem_mem hj
      generalize l[i] = a at *
      generalize l[j] = b at *
      by_contra hcc
      apply hc
      refine ⟨a, ha, b, hb, hp, fun hs => hcc (Or.inl hs), ?_⟩
      by_contra hcl
      exact hcc (Or.inr fun h => hcl h.symm)
    | some m =>
      left
      rw [hr] at h
      simp only [Option.bind_some] at h
      split at h
      · rename_i hm
        have hI := f1 m hr
        cases l with
        | nil => rfl
        | cons n l =>
          obtain ⟨es, h1, _⟩ := hI.kept n (by simp)
          rw [hm] at h1; simp [OMap.find?] at h1
      · cases h
  · rintro (rfl | ⟨a, ha, b, hb, h1, h2, h3⟩)
    · rfl
    · have : l.foldlM addEntry ([] : MMaps) = none := by
        rw [f2]
        intro hp
        have := List.Pairwise.forall_of_forall_of_flip (R := fun a b => a.pid = b.pid → Same a b ∨ ¬ Clash a b) (l := l)
          (fun x _ _ => Or.inl ⟨rfl, rfl, rfl⟩)
          (hp.imp fun {a b} hab hpid => (hab hpid).imp id fun h hc => h hc.symm)
          (hp.imp fun {a b} hab hpid => (hab hpid.symm).imp Same.symm id) ha hb h1
        rcases this with h | h
        · exact h2 h
        · exact h h3
      rw [this]; rfl

/-- Concrete case: two processes, a duplicate event, adjacent mappings. -/
theorem select_example :
    select (fun _ => true) [⟨some 1, some 100, some 50, none, some [65]⟩, ⟨some 1, some 150, some 10, some 4, some [65]⟩,
        ⟨some 2, some 120, some 50, none, some [65]⟩, ⟨some 1, some 100, some 50, some 0, some [66]⟩, ⟨none, some 0, some 1, none, some [65]⟩] =
      some [(1, [⟨1, 100, 50, 0, [65]⟩, ⟨1, 150, 10, 4, [65]⟩]), (2, [⟨2, 120, 50, 0, [65]⟩])] ∧
    select (fun _ => true) [⟨some 1, some 100, some 50, none, some [65]⟩, ⟨some 1, some 149, some 10, some 4, some [65]⟩] = none := by
  constructor <;> decide +kernel

/-- The end of a mapping that reaches the end of the address space wraps to 0, and the overlap is not detected. -/
theorem select_wrap_violated :
    ∃ a b : Entry, Overlap a b ∧ select (fun _ => true)
      [⟨some 1, some a.addr, some a.size, none, some [65]⟩, ⟨some 1, some b.addr, some b.size, none, some [65]⟩] =
      some [(1, [a, b])] := by
  refine ⟨⟨1, 2 ^ 64 - 16, 16, 0, [65]⟩, ⟨1, 2 ^ 64 - 8, 4, 0, [65]⟩, ⟨2 ^ 64 - 8, by decide, by decide⟩, by decide +kernel⟩

/-! ### Address translation -/

/-- `BinaryContent::Segment` (llvm_propeller_binary_content.h:28-32). -/
structure Segment where
  offset : Nat
  vaddr : Nat
  memsz : Nat

/-- `kKernelPid` (perfdata_reader.h:95). -/
def kernelPid : Nat := 2 ^ 32 - 1

/-- `kInvalidBinaryAddress` (binary_address_branch.h:79). -/
def invalid : Nat := 2 ^ 64 - 1

/-- The mapping chosen for an address: the last covering one (perfdata_reader.cc:300-302). -/
def covering (es : List Entry) (addr : Nat) : Option Entry :=
  es.reverse.find? fun p => decide (p.addr ≤ addr) && decide (addr < add64 p.addr p.size)

/-- The segment loop (perfdata_reader.cc:317-346), given the file offset and the segments with the offset used for them. -/
def segLookup (fo : Nat) : List (Nat × Segment) → Nat
  | [] => invalid
  | (off, s) :: l =>
    if off ≤ fo ∧ fo < add64 off s.memsz then add64 (sub64 fo off) s.vaddr else segLookup fo l

/-- Offsets used for the segments: the file offsets, or for the kernel the offsets relative to the first segment
(perfdata_reader.cc:319-342). -/
def segOffsets (kernel : Bool) (segs : List Segment) : List (Nat × Segment) :=
  if kernel then
    match segs with
    | [] => []
    | s :: l => (0, s) :: l.map fun s' => (sub64 s'.offset s.offset, s')
  else segs.map fun s => (s.offset, s)

/-- `RuntimeAddressToBinaryAddress` (perfdata_reader.cc:296-352). -/
def toBinary (mm : MMaps) (pie : Bool) (segs : List Segment) (pid addr : Nat) : Nat :=
  match OMap.find? mm pid with
  | none => invalid
  | some es =>
    match covering es addr with
    | none => invalid
    | some p =>
      if pid ≠ kernelPid ∧ pie = false then addr
      else
        segLookup (if pid = kernelPid then sub64 addr p.addr else add64 (sub64 addr p.addr) p.pgoff)
          (segOffsets (decide (pid = kernelPid)) segs)

/-- The address lies in the mapping. -/
def InMap (e : Entry) (addr : Nat) : Prop := e.addr ≤ addr ∧ addr < e.addr + e.size

/-- The mappings of each process do not overlap and do not reach the end of the address space (what `select_ok` gives). -/
def GoodMaps (mm : MMaps) : Prop :=
  ∀ pid es, OMap.find? mm pid = some es → (∀ e ∈ es, Fits e) ∧ es.Pairwise fun a b => ¬ Overlap a b

theorem goodMaps_of_select (sel : Name → Bool) (evs : List Event) (m : MMaps)
    (hf : ∀ e ∈ evs.filterMap (toEntry sel), Fits e) (h : select sel evs = some m) : GoodMaps m := by
  intro pid es he
  obtain ⟨_, h2, h3⟩ := (select_ok sel evs m hf h).1 pid es he
  exact ⟨fun e hm => hf e (h3 e hm).2, h2.imp fun h => h.2⟩

theorem covering_spec {es : List Entry} (hf : ∀ e ∈ es, Fits e) (hd : es.Pairwise fun a b => ¬ Overlap a b) (addr : Nat) (e : Entry) :
    (covering es addr = some e ↔ e ∈ es ∧ InMap e addr) := by
  have hc : ∀ p ∈ es, ((decide (p.addr ≤ addr) && decide (addr < add64 p.addr p.size)) = true ↔ InMap p addr) := by
    intro p hp
    rw [add64_eq (hf p hp)]; simp [InMap]
  constructor
  · intro h
    have h1 := List.mem_reverse.mp (List.mem_of_find?_eq_some h)
    exact ⟨h1, (hc e h1).mp (by simpa using List.find?_some (l := es.reverse) h)⟩
  · rintro ⟨h1, h2⟩
    cases h : covering es addr with
    | none =>
      have := List.find?_eq_none.mp h e (List.mem_reverse.mpr h1)
      exact absurd ((hc e h1).mpr h2) this
    | some p =>
      have h3 := List.mem_reverse.mp (List.mem_of_find?_eq_some h)
      have h4 := (hc p h3).mp (by simpa using List.find?_some (l := es.reverse) h)
      by_contra hne
      have hne' : p ≠ e := fun hh => hne (by rw [hh])
      have hsym : es.Pairwise (fun a b => ¬ Overlap b a) := hd.imp fun {a b} hab hh => hab (by
        obtain ⟨x, hx1, hx2⟩ := hh; exact ⟨x, hx2, hx1⟩)
      have q1 : es.Pairwise (fun a b => a ≠ b → ¬ Overlap a b) := by
        apply hd.imp; intro a b hab _; exact hab
      have q2 : es.Pairwise (flip fun a b => a ≠ b → ¬ Overlap a b) := by
        apply hsym.imp; intro a b hab _; exact hab
      exact (List.Pairwise.forall_of_forall_of_flip (R := fun a b => a ≠ b → ¬ Overlap a b) (by simp)
        q1 q2 h3 h1) hne' ⟨addr, h4, h2⟩

/-- **C23**: an address in no mapping of the process is invalid. -/
theorem toBinary_unmapped (mm : MMaps) (pie : Bool) (segs : List Segment) (pid addr : Nat) (hm : GoodMaps mm)
    (h : ∀ es, OMap.find? mm pid = some es → ∀ e ∈ es, ¬ InMap e addr) : toBinary mm pie segs pid addr = invalid := by
  unfold toBinary
  cases h1 : OMap.find? mm pid with
  | none => rfl
  | some es =>
    obtain ⟨g1, g2⟩ := hm pid es h1
    cases h2 : covering es addr with
    | none => simp [h2]
    | some e =>
      obtain ⟨h3, h4⟩ := (covering_spec g1 g2 addr e).mp h2
      exact absurd h4 (h es h1 e h3)

/-- **C23**: in a non-PIE user binary mapped addresses are binary addresses. -/
theorem toBinary_nonpie (mm : MMaps) (segs : List Segment) (pid addr : Nat) (hm : GoodMaps mm) (hk : pid ≠ kernelPid)
    (es : List Entry) (h : OMap.find? mm pid = some es) (e : Entry) (he : e ∈ es) (ha : InMap e addr) :
    toBinary mm false segs pid addr = addr := by
  obtain ⟨g1, g2⟩ := hm pid es h
  unfold toBinary
  rw [h]; simp only
  rw [(covering_spec g1 g2 addr e).mpr ⟨he, ha⟩]
  simp [hk]

/-- The segment holds the file offset. -/
def InSeg (s : Segment) (fo : Nat) : Prop := s.offset ≤ fo ∧ fo < s.offset + s.memsz

/-- Executable loadable segments: within the 64-bit address space and disjoint in the file. -/
def GoodSegs (segs : List Segment) : Prop :=
  (∀ s ∈ segs, s.offset + s.memsz < 2 ^ 64 ∧ s.vaddr + s.memsz ≤ 2 ^ 64) ∧
  segs.Pairwise fun a b => ∀ x, ¬ (InSeg a x ∧ InSeg b x)

theorem segLookup_spec : ∀ (l : List (Nat × Segment)) (fo : Nat) (off : Nat) (s : Segment), (off, s) ∈ l →
    (∀ p ∈ l, p.1 + p.2.memsz < 2 ^ 64 ∧ p.2.vaddr + p.2.memsz ≤ 2 ^ 64) →
    (l.Pairwise fun a b => ∀ x, ¬ ((a.1 ≤ x ∧ x < a.1 + a.2.memsz) ∧ (b.1 ≤ x ∧ x < b.1 + b.2.memsz))) →
    off ≤ fo → fo < off + s.memsz → segLookup fo l = fo - off + s.vaddr := by
  intro l
  induction l with
  | nil => intro fo off s h; simp at h
  | cons p l ih =>
    intro fo off s hm hb hd h1 h2
    obtain ⟨o, t⟩ := p
    rw [segLookup]
    have hb0 := hb (o, t) (by simp)
    simp only at hb0
    rw [add64_eq hb0.1]
    rcases List.mem_cons.mp hm with h | h
    · cases h
      rw [if_pos ⟨h1, h2⟩, sub64_eq h1, add64_eq (by omega)]
    · rw [if_neg]
      · exact ih fo off s h (fun q hq => hb q (by simp [hq])) (List.pairwise_cons.mp hd).2 h1 h2
      · intro hc
        exact (List.pairwise_cons.mp hd).1 (off, s) h fo ⟨hc, h1, h2⟩

theorem segLookup_none : ∀ (l : List (Nat × Segment)) (fo : Nat),
    (∀ p ∈ l, p.1 + p.2.memsz < 2 ^ 64) → (∀ p ∈ l, ¬ (p.1 ≤ fo ∧ fo < p.1 + p.2.memsz)) → segLookup fo l = invalid := by
  intro l
  induction l with
  | nil => intro fo _ _; rfl
  | cons p l ih =>
    intro fo hb h
    obtain ⟨o, t⟩ := p
    rw [segLookup, add64_eq (hb (o, t) (by simp)), if_neg (h (o, t) (by simp))]
    exact ih fo (fun q hq => hb q (by simp [hq])) (fun q hq => h q (by simp [hq]))

/-- **C23**: in a PIE user binary an address at offset `addr - load` of its mapping translates to the virtual address of
the same file offset; if that file offset is in no segment, to the invalid address. -/
theorem toBinary_pie (mm : MMaps) (segs : List Segment) (pid addr : Nat) (hm : GoodMaps mm) (hs : GoodSegs segs)
    (hk : pid ≠ kernelPid) (es : List Entry) (h : OMap.find? mm pid = some es) (e : Entry) (he : e ∈ es)
    (ha : InMap e addr) (hfo : addr - e.addr + e.pgoff < 2 ^ 64) :
    (∀ s ∈ segs, InSeg s (addr - e.addr + e.pgoff) →
      toBinary mm true segs pid addr = addr - e.addr + e.pgoff - s.offset + s.vaddr) ∧
    ((∀ s ∈ segs, ¬ InSeg s (addr - e.addr + e.pgoff)) → toBinary mm true segs pid addr = invalid) := by
  obtain ⟨g1, g2⟩ := hm pid es h
  have hval : toBinary mm true segs pid addr = segLookup (addr - e.addr + e.pgoff) (segs.map fun s => (s.offset, s)) := by
    unfold toBinary
    rw [h]; simp only
    rw [(covering_spec g1 g2 addr e).mpr ⟨he, ha⟩]
    simp [hk, segOffsets, sub64_eq ha.1, add64_eq hfo]
  rw [hval]
  constructor
  · intro s hsm hin
    apply segLookup_spec (segs.map fun s => (s.offset, s)) _ s.offset s (List.mem_map.mpr ⟨s, hsm, rfl⟩) _ _ hin.1 hin.2
    · intro p hp
      obtain ⟨t, ht, rfl⟩ := List.mem_map.mp hp
      exact hs.1 t ht
    · rw [List.pairwise_map]
      exact hs.2
  · intro hno
    apply segLookup_none
    · intro p hp
      obtain ⟨t, ht, rfl⟩ := List.mem_map.mp hp
      exact (hs.1 t ht).1
    · intro p hp
      obtain ⟨t, ht, rfl⟩ := List.mem_map.mp hp
      exact hno t ht

/-- **C23**: differences of addresses of one mapping and one segment are preserved. -/
theorem toBinary_difference (mm : MMaps) (segs : List Segment) (pid a b : Nat) (hm : GoodMaps mm) (hs : GoodSegs segs)
    (hk : pid ≠ kernelPid) (es : List Entry) (h : OMap.find? mm pid = some es) (e : Entry) (he : e ∈ es)
    (ha : InMap e a) (hb : InMap e b) (hab : a ≤ b) (s : Segment) (hsm : s ∈ segs)
    (h1 : InSeg s (a - e.addr + e.pgoff)) (h2 : InSeg s (b - e.addr + e.pgoff)) :
    toBinary mm true segs pid b - toBinary mm true segs pid a = b - a ∧
    toBinary mm true segs pid a ≤ toBinary mm true segs pid b := by
  have hs1 := (hs.1 s hsm).1
  rw [(toBinary_pie mm segs pid a hm hs hk es h e he ha (by unfold InSeg at h1; omega)).1 s hsm h1,
    (toBinary_pie mm segs pid b hm hs hk es h e he hb (by unfold InSeg at h2; omega)).1 s hsm h2]
  unfold InSeg InMap at *
  omega

/-- Kernel segments: sorted by file offset, disjoint. -/
def GoodKernelSegs (s0 : Segment) (l : List Segment) : Prop :=
  (∀ s ∈ s0 :: l, s0.offset ≤ s.offset ∧ s.offset + s.memsz < 2 ^ 64 ∧ s.vaddr + s.memsz ≤ 2 ^ 64) ∧
  (s0 :: l).Pairwise fun a b => ∀ x, ¬ (InSeg a x ∧ InSeg b x)

/-- **C23**: a kernel address translates by its offset from the start of the kernel mapping, which is taken to be the start
of the first executable segment; the page offset of the mapping is ignored. -/
theorem toBinary_kernel (mm : MMaps) (pie : Bool) (s0 : Segment) (l : List Segment) (addr : Nat) (hm : GoodMaps mm)
    (hs : GoodKernelSegs s0 l) (es : List Entry) (h : OMap.find? mm kernelPid = some es) (e : Entry) (he : e ∈ es)
    (ha : InMap e addr) :
    (∀ s ∈ s0 :: l, InSeg s (addr - e.addr + s0.offset) →
      toBinary mm pie (s0 :: l) kernelPid addr = addr - e.addr + s0.offset - s.offset + s.vaddr) ∧
    ((∀ s ∈ s0 :: l, ¬ InSeg s (addr - e.addr + s0.offset)) → toBinary mm pie (s0 :: l) kernelPid addr = invalid) := by
  obtain ⟨g1, g2⟩ := hm _ es h
  have hoffs : segOffsets true (s0 :: l) = (s0 :: l).map fun s => (s.offset - s0.offset, s) := by
    simp only [segOffsets, if_true, List.map_cons, Nat.sub_self, List.cons.injEq, true_and]
    apply List.map_congr_left
    intro s hsm
    rw [sub64_eq (hs.1 s (by simp [hsm])).1]
  have hval : toBinary mm pie (s0 :: l) kernelPid addr =
      segLookup (addr - e.addr) ((s0 :: l).map fun s => (s.offset - s0.offset, s)) := by
    unfold toBinary
    rw [h]; simp only
    rw [(covering_spec g1 g2 addr e).mpr ⟨he, ha⟩]
    simp only [ne_eq, not_true_eq_false, false_and, if_false, if_true, decide_true, hoffs, sub64_eq ha.1]
  rw [hval]
  constructor
  · intro s hsm hin
    have hb := hs.1 s hsm
    unfold InSeg at hin
    rw [segLookup_spec ((s0 :: l).map fun s => (s.offset - s0.offset, s)) (addr - e.addr) (s.offset - s0.offset) s (List.mem_map.mpr ⟨s, hsm, rfl⟩) _ _ (by omega) (by omega)]
    · omega
    · intro p hp
      obtain ⟨t, ht, rfl⟩ := List.mem_map.mp hp
      have := hs.1 t ht
      simp only; omega
    · rw [List.pairwise_map]
      apply (List.Pairwise.and_mem.mp hs.2).imp
      rintro x y ⟨hx, hy, hxy⟩ z hz
      have h1 := hs.1 x hx
      have h2 := hs.1 y hy
      apply hxy (z + s0.offset)
      unfold InSeg
      simp only at hz
      omega
  · intro hno
    apply segLookup_none
    · intro p hp
      obtain ⟨t, ht, rfl⟩ := List.mem_map.mp hp
      have := hs.1 t ht
      simp only; omega
    · intro p hp
      obtain ⟨t, ht, rfl⟩ := List.mem_map.mp hp
      have h1 := hs.1 t ht
      intro hc
      apply hno t ht
      unfold InSeg
      simp only at hc; omega

/-- Concrete case: a PIE binary with two segments, and the kernel. -/
theorem toBinary_example :
    toBinary [(1, [⟨1, 0x5000, 0x1000, 0x200, [65]⟩, ⟨1, 0x9000, 0x1000, 0x2000, [65]⟩])] true
      [⟨0x100, 0x400100, 0x800⟩, ⟨0x2000, 0x602000, 0x1000⟩] 1 0x5010 = 0x400210 ∧
    toBinary [(1, [⟨1, 0x5000, 0x1000, 0x200, [65]⟩, ⟨1, 0x9000, 0x1000, 0x2000, [65]⟩])] true
      [⟨0x100, 0x400100, 0x800⟩, ⟨0x2000, 0x602000, 0x1000⟩] 1 0x9abc = 0x602abc ∧
    toBinary [(1, [⟨1, 0x5000, 0x1000, 0x200, [65]⟩])] true [⟨0x100, 0x400100, 0x800⟩] 1 0x6000 = invalid ∧
    toBinary [(kernelPid, [⟨kernelPid, 0x10000, 0x8000, 0x77, [65]⟩])] true
      [⟨0x1000, 0x200000, 0x4000⟩, ⟨0x6000, 0x300000, 0x1000⟩] kernelPid 0x15010 = 0x300010 := by
  refine ⟨?_, ?_, ?_, ?_⟩ <;> decide +kernel

/-- An address in two segments' worth of one mapping need not keep differences: the segments may be relocated
differently. -/
theorem toBinary_two_segments_violated :
    let mm : MMaps := [(1, [⟨1, 0x5000, 0x3000, 0, [65]⟩])]
    let segs : List Segment := [⟨0, 0x1000, 0x1000⟩, ⟨0x1000, 0x9000, 0x1000⟩]
    InMap ⟨1, 0x5000, 0x3000, 0, [65]⟩ 0x5000 ∧ InMap ⟨1, 0x5000, 0x3000, 0, [65]⟩ 0x6000 ∧
    toBinary mm true segs 1 0x6000 - toBinary mm true segs 1 0x5000 ≠ 0x6000 - 0x5000 := by
  refine ⟨by unfold InMap; decide, by unfold InMap; decide, by decide +kernel⟩

/-- **C22**: an event is a mapping of the binary exactly when it has all fields, a file name that is not empty, and the
name is selected. -/
theorem toEntry_iff (sel : Name → Bool) (ev : Event) (e : Entry) : toEntry sel ev = some e ↔
    e.file ≠ [] ∧ sel e.file = true ∧ ev.file = some e.file ∧ ev.start = some e.addr ∧ ev.len = some e.size ∧
    ev.pid = some e.pid ∧ e.pgoff = ev.pgoff.getD 0 := by
  obtain ⟨p, a, s, o, f⟩ := e
  unfold toEntry
  split
  · rename_i f' s' l' p' h1 h2 h3 h4
    rw [h1, h2, h3, h4]
    simp only [Option.some.injEq]
    constructor
    · intro h
      split at h
      · cases h
      · split at h
        · rename_i hf hs
          cases h
          exact ⟨hf, hs, rfl, rfl, rfl, rfl, rfl⟩
        · cases h
    · rintro ⟨hf, hs, rfl, rfl, rfl, rfl, rfl⟩
      rw [if_neg hf, if_pos hs]
  · rename_i h
    constructor
    · intro h; cases h
    · rintro ⟨_, _, h1, h2, h3, h4, _⟩
      exact (h _ _ _ _ h1 h2 h3 h4).elim

end Verif.PerfMMap

import Verif.PerfReadProps
import Verif.ComputeAgg
import Verif.ElideProps

/-!
# C79: the time stamp of a function
Model of profile.cc:63-70, 161, profile.h:55, symbol_map.cc:528-531 and of what happens to the stamps in `ElideSuffixesAndMerge`
(symbol_map.cc:314-341; the constructor sets the stamp to 0, symbol_map.h:157, and `Symbol::Merge` does not touch it, symbol_map.cc:142-163).
The stamp is meant to be the "timestamp of first executed instruction" (symbol_map.h:247).
-/
namespace Verif.Stamp
open Verif Verif.SymbolMap Verif.AddrLookup Verif.Compute

/-- One iteration of the loop over `address_timestamp_map_` (profile.cc:64-70). -/
def stampStep (b : Bin) (T : OMap Name Nat) (x : Nat × Nat) : OMap Name Nat :=
  match symbolInfo b.syms (b.vaddr x.1) with
  | none => T
  | some (name, _, _) => OMap.upsert name (fun o => if o.getD 0 = 0 then x.2 else o.getD 0) T

/-- `maps->timestamp` of the functions (profile.cc:63-70; initially 0, profile.h:55). -/
def stamps (b : Bin) (times : OMap Nat Nat) : OMap Name Nat := times.foldl (stampStep b) []

/-- `AddSymbolTimestamp` (symbol_map.cc:528-531) in `ProcessPerFunctionProfile` (profile.cc:161); `none`: the name is not in the map. -/
def addStamp (T : OMap Name Nat) (st : Store) (ts : Nat → Nat) (n : Name) : Option (Nat → Nat) :=
  (OMap.find? st.map n).map fun i j => if j = i then OMap.get0 T n else ts j

/-- The stamps of the symbols after the functions `ns` have been processed. -/
def processStamps (T : OMap Name Nat) (st : Store) (ns : List Name) : Option (Nat → Nat) := ns.foldlM (addStamp T st) fun _ => 0

/-- The loop body of `ElideSuffixesAndMerge` (symbol_map.cc:321-340) with the stamps: the stamp of a fresh symbol is 0, `Merge` changes none. -/
def elideOneT (pol : Policy) (s : Store × (Nat → Nat)) (name : Name) : Option (Store × (Nat → Nat)) :=
  (elideOne pol s.1 name).map fun st' => (st',
    match OMap.find? (OMap.erase name s.1.map) (originalName pol name) with
    | none => fun j => if j = s.1.next then 0 else s.2 j
    | some d => if OMap.find? s.1.map name = some d then fun j => if j = s.1.next then 0 else s.2 j else s.2)

/-- `ElideSuffixesAndMerge` (symbol_map.cc:314-341) with the stamps. -/
def elideT (pol : Policy) (s : Store × (Nat → Nat)) : Option (Store × (Nat → Nat)) := (elideSet pol s.1.map).foldlM (elideOneT pol) s

/-! ## Specification -/

/-- The sampled addresses of the function at `[lo, lo + size)` with the times of their first samples, in the order of the addresses. -/
def timesIn (b : Bin) (times : OMap Nat Nat) (e : Nat × Name × Nat) : OMap Nat Nat :=
  times.filter fun x => decide (e.1 ≤ b.vaddr x.1 ∧ b.vaddr x.1 < e.1 + e.2.2)

/-- The time of the first of them, in the order of the addresses, that is not 0. -/
def firstStamp (b : Bin) (times : OMap Nat Nat) (e : Nat × Name × Nat) : Nat :=
  (((timesIn b times e).map Prod.snd).find? fun t => decide (t ≠ 0)).getD 0

/-! ## Proof -/

theorem sorted_stamps (b : Bin) (times : OMap Nat Nat) (T : OMap Name Nat) (hT : OMap.Sorted T) :
    OMap.Sorted (times.foldl (stampStep b) T) := by
  induction times generalizing T with
  | nil => exact hT
  | cons x t ih =>
    apply ih
    unfold stampStep
    split
    · exact hT
    · exact OMap.Sorted.upsert hT _ _

theorem stamps_aux (b : Bin) (hb : BinOk b) (e : Nat × Name × Nat) (he : e ∈ b.syms) (times : OMap Nat Nat) (T : OMap Name Nat)
    (hT : OMap.Sorted T) :
    OMap.get0 (times.foldl (stampStep b) T) e.2.1 =
      if OMap.get0 T e.2.1 = 0 then firstStamp b times e else OMap.get0 T e.2.1 := by
  induction times generalizing T with
  | nil =>
    simp only [List.foldl_nil, firstStamp, timesIn, List.filter_nil, List.map_nil, List.find?_nil, Option.getD_none]
    split <;> simp_all
  | cons x t ih =>
    rw [List.foldl_cons]
    have hs : OMap.Sorted (stampStep b T x) := sorted_stamps b [x] T hT
    rw [ih _ hs]
    have hg : OMap.get0 (stampStep b T x) e.2.1 =
        if e.1 ≤ b.vaddr x.1 ∧ b.vaddr x.1 < e.1 + e.2.2 then (if OMap.get0 T e.2.1 = 0 then x.2 else OMap.get0 T e.2.1)
        else OMap.get0 T e.2.1 := by
      have hn := symName_iff hb he (b.vaddr x.1)
      unfold stampStep
      unfold symName at hn
      cases hi : symbolInfo b.syms (b.vaddr x.1) with
      | none =>
        rw [hi] at hn
        rw [if_neg (fun h => by have := hn.2 h; cases this)]
      | some r =>
        obtain ⟨n, s, t'⟩ := r
        rw [hi] at hn
        simp only [Option.map_some, Option.some.injEq] at hn
        simp only [OMap.get0]
        rw [OMap.find?_upsert hT]
        by_cases h : e.2.1 = n
        · rw [if_pos h, if_pos (hn.1 h.symm), h]
          simp only [Option.getD_some]
          congr 1
        · rw [if_neg h, if_neg (fun h' => h (hn.2 h').symm)]
    rw [hg]
    unfold firstStamp timesIn
    rw [List.filter_cons]
    by_cases hin : e.1 ≤ b.vaddr x.1 ∧ b.vaddr x.1 < e.1 + e.2.2
    · rw [if_pos hin, show decide (e.1 ≤ b.vaddr x.1 ∧ b.vaddr x.1 < e.1 + e.2.2) = true from decide_eq_true hin]
      simp only [if_true, List.map_cons]
      by_cases h0 : OMap.get0 T e.2.1 = 0
      · simp only [h0, if_true]
        by_cases hx : x.2 = 0
        · rw [if_pos hx, List.find?_cons_of_neg (by simp [hx])]
        · rw [if_neg hx, List.find?_cons_of_pos (by simp [hx])]
          rfl
      · simp only [h0, if_false]
    · rw [if_neg hin, show decide (e.1 ≤ b.vaddr x.1 ∧ b.vaddr x.1 < e.1 + e.2.2) = false from decide_eq_false hin]
      rfl

/-- **C79, the stamp of a function**: the time of the first sampled address of the function, in the order of the addresses, that is not 0. -/
theorem stamp_exact (b : Bin) (hb : BinOk b) (times : OMap Nat Nat) (e : Nat × Name × Nat) (he : e ∈ b.syms) :
    OMap.get0 (stamps b times) e.2.1 = firstStamp b times e := by
  unfold stamps
  rw [stamps_aux b hb e he times [] (by simp [OMap.Sorted])]
  rfl

/-- The stamp is one of the times of the function, or 0 if there is none but 0. -/
theorem first_mem (b : Bin) (times : OMap Nat Nat) (e : Nat × Name × Nat) :
    (firstStamp b times e = 0 ∧ ∀ x ∈ timesIn b times e, x.2 = 0) ∨
    (firstStamp b times e ≠ 0 ∧ ∃ x ∈ timesIn b times e, x.2 = firstStamp b times e) := by
  unfold firstStamp
  cases h : ((timesIn b times e).map Prod.snd).find? fun t => decide (t ≠ 0) with
  | none =>
    left
    rw [List.find?_eq_none] at h
    refine ⟨rfl, fun x hx => ?_⟩
    have := h x.2 (List.mem_map.2 ⟨x, hx, rfl⟩)
    simpa using this
  | some t =>
    right
    have h1 := List.find?_some h
    have h2 := List.mem_of_find?_eq_some h
    obtain ⟨x, hx, rfl⟩ := List.mem_map.1 h2
    exact ⟨by simpa using h1, x, hx, rfl⟩

/-- The earliest sample of the function. -/
def Earliest (b : Bin) (times : OMap Nat Nat) (e : Nat × Name × Nat) (t : Nat) : Prop :=
  (∃ x ∈ timesIn b times e, x.2 = t) ∧ ∀ x ∈ timesIn b times e, t ≤ x.2

/-- **C79, partial**: the stamp is the time of the earliest sample if the addresses of the function were sampled in ascending order. -/
theorem stamp_earliest_partial (b : Bin) (hb : BinOk b) (times : OMap Nat Nat) (e : Nat × Name × Nat) (he : e ∈ b.syms)
    (h0 : ∀ x ∈ timesIn b times e, x.2 ≠ 0) (hne : timesIn b times e ≠ [])
    (hasc : (timesIn b times e).Pairwise fun x y => x.2 ≤ y.2) :
    Earliest b times e (OMap.get0 (stamps b times) e.2.1) := by
  rw [stamp_exact b hb times e he]
  unfold firstStamp
  cases hl : timesIn b times e with
  | nil => exact absurd hl hne
  | cons x t =>
    rw [hl] at h0 hasc
    rw [List.map_cons, List.find?_cons_of_pos (by simpa using h0 x (by simp))]
    rw [List.pairwise_cons] at hasc
    unfold Earliest
    rw [hl]
    refine ⟨⟨x, by simp, rfl⟩, fun y hy => ?_⟩
    rcases List.mem_cons.1 hy with rfl | hy
    · exact le_refl _
    · exact hasc.1 y hy

/-! ## After the elision of suffixes -/

theorem processStamps_aux (T : OMap Name Nat) (st : Store)
    (hinj : ∀ n m i, OMap.find? st.map n = some i → OMap.find? st.map m = some i → n = m) (ns : List Name) (ts : Nat → Nat)
    (hall : ∀ n ∈ ns, (OMap.find? st.map n).isSome = true) :
    ∃ ts', ns.foldlM (addStamp T st) ts = some ts' ∧
      (∀ n i, OMap.find? st.map n = some i → ts' i = if n ∈ ns then OMap.get0 T n else ts i) ∧
      ∀ i, (∀ n, OMap.find? st.map n ≠ some i) → ts' i = ts i := by
  induction ns generalizing ts with
  | nil => exact ⟨ts, rfl, fun n i _ => by simp, fun i _ => rfl⟩
  | cons m ns ih =>
    obtain ⟨k, hk⟩ := Option.isSome_iff_exists.1 (hall m (by simp))
    obtain ⟨ts', h1, h2, h3⟩ := ih (fun j => if j = k then OMap.get0 T m else ts j) (fun n hn => hall n (by simp [hn]))
    refine ⟨ts', ?_, fun n i hi => ?_, fun i hi => ?_⟩
    · rw [List.foldlM_cons]
      unfold addStamp at *
      rw [hk]
      exact h1
    · rw [h2 n i hi]
      by_cases hn : n ∈ ns
      · simp [hn]
      · simp only [hn, if_false, List.mem_cons, or_false]
        by_cases hm : n = m
        · subst hm
          rw [hk] at hi
          cases hi
          simp
        · rw [if_neg hm, if_neg]
          rintro rfl
          exact hm (hinj n m i hi hk)
    · rw [h3 i hi, if_neg]
      rintro rfl
      exact hi m hk

theorem elideOne_next (pol : Policy) (st st' : Store) (n : Name) (h : elideOne pol st n = some st') : st.next ≤ st'.next := by
  unfold elideOne at h
  dsimp only at h
  split at h
  · cases h
  · split at h
    · split at h
      · cases h; exact Nat.le_succ _
      · cases h; exact le_refl _
    · cases h; exact Nat.le_succ _

/-- What holds during the elision: `base` is the store before it, `l` the names still to be elided. -/
structure Mid (pol : Policy) (base : Store) (ts0 : Nat → Nat) (l : List Name) (s : Store × (Nat → Nat)) : Prop where
  inv : s.1.Inv
  next : base.next ≤ s.1.next
  ptr : ∀ n i, OMap.find? s.1.map n = some i →
    (OMap.find? base.map n = some i ∧ (originalName pol n = n ∨ n ∈ l)) ∨ base.next ≤ i
  keep : ∀ n i, (originalName pol n = n ∨ n ∈ l) → OMap.find? base.map n = some i → OMap.find? s.1.map n = some i
  old : ∀ i, i < base.next → s.2 i = ts0 i
  fresh : ∀ i, base.next ≤ i → s.2 i = 0

theorem mid_step (pol : Policy) (base : Store) (ts0 : Nat → Nat) (hbase : base.Inv)
    (hinj : ∀ n m i, OMap.find? base.map n = some i → OMap.find? base.map m = some i → n = m)
    (n : Name) (l : List Name) (hnl : n ∉ l) (hne : originalName pol n ≠ n) (hin : (OMap.find? base.map n).isSome = true)
    (s : Store × (Nat → Nat)) (h : Mid pol base ts0 (n :: l) s) :
    ∃ s', elideOneT pol s n = some s' ∧ Mid pol base ts0 l s' := by
  obtain ⟨sym, hsym⟩ := Option.isSome_iff_exists.1 hin
  have hcur := h.keep n sym (Or.inr (by simp)) hsym
  obtain ⟨d, st', h1, h2, h3, _, h5⟩ := elideOne_spec pol s.1 h.inv n sym hcur hne
  have hsl : sym < base.next := hbase.alloc _ _ hsym
  have hother : ∀ k, k ≠ n → OMap.find? s.1.map k ≠ some sym := by
    intro k hk hks
    rcases h.ptr k sym hks with ⟨hb, _⟩ | hb
    · exact hk (hinj _ _ _ hb hsym)
    · omega
  have hmap : ∀ k, k ≠ originalName pol n → k ≠ n → OMap.find? st'.map k = OMap.find? s.1.map k := by
    intro k hk1 hk2
    rw [h3 k, if_neg hk1, if_neg hk2]
    cases hf : OMap.find? s.1.map k with
    | none => rfl
    | some i =>
      simp only [Option.map_some]
      rw [if_neg]
      rintro rfl
      exact hother k hk2 hf
  have hfe : OMap.find? (OMap.erase n s.1.map) (originalName pol n) = OMap.find? s.1.map (originalName pol n) := by
    rw [OMap.find?_erase h.inv.sorted, if_neg hne]
  have hts : ∀ i, (if i = s.1.next then 0 else s.2 i) = s.2 i := by
    intro i
    split
    · rename_i hi
      subst hi
      exact (h.fresh _ h.next).symm
    · rfl
  obtain ⟨ts', hts', hte⟩ : ∃ ts', elideOneT pol s n = some (st', ts') ∧ ∀ i, ts' i = s.2 i := by
    unfold elideOneT
    rw [h1]
    refine ⟨_, rfl, fun i => ?_⟩
    rw [hfe]
    cases OMap.find? s.1.map (originalName pol n) with
    | none => exact hts i
    | some d' =>
      simp only
      split
      · exact hts i
      · rfl
  refine ⟨(st', ts'), hts', ?_⟩
  refine ⟨h2, h.next.trans (elideOne_next pol _ _ n h1), ?_, ?_, fun i hi => (hte i).trans (h.old i hi), fun i hi => (hte i).trans (h.fresh i hi)⟩
  · intro k i hk
    simp only at hk
    by_cases hko : k = originalName pol n
    · rw [h3 k, if_pos hko] at hk
      cases hk
      rcases h5 with ⟨rfl, _⟩ | ⟨hd, _⟩
      · exact Or.inr h.next
      · rw [← hko] at hd
        rcases h.ptr k d hd with ⟨hb, hc⟩ | hb
        · refine Or.inl ⟨hb, ?_⟩
          rcases hc with hc | hc
          · exact Or.inl hc
          · rcases List.mem_cons.1 hc with rfl | hc
            · exact absurd hko.symm hne
            · exact Or.inr hc
        · exact Or.inr hb
    · by_cases hkn : k = n
      · rw [h3 k, if_neg hko, if_pos hkn] at hk; cases hk
      · rw [hmap k hko hkn] at hk
        rcases h.ptr k i hk with ⟨hb, hc⟩ | hb
        · refine Or.inl ⟨hb, ?_⟩
          rcases hc with hc | hc
          · exact Or.inl hc
          · rcases List.mem_cons.1 hc with rfl | hc
            · exact absurd rfl hkn
            · exact Or.inr hc
        · exact Or.inr hb
  · intro k i hc hb
    simp only
    have hkn : k ≠ n := by
      rintro rfl
      rcases hc with hc | hc
      · exact hne hc
      · exact hnl hc
    have hk := h.keep k i (hc.imp id (List.mem_cons_of_mem _)) hb
    by_cases hko : k = originalName pol n
    · rw [h3 k, if_pos hko]
      rcases h5 with ⟨_, hd, _⟩ | ⟨hd, _⟩
      · rw [← hko, hk] at hd
        rcases hd with hd | hd
        · cases hd
        · exact absurd (hk.trans hd) (hother k hkn)
      · rw [← hko, hk] at hd
        exact hd.symm
    · rw [hmap k hko hkn]
      exact hk

theorem mid_loop (pol : Policy) (base : Store) (ts0 : Nat → Nat) (hbase : base.Inv)
    (hinj : ∀ n m i, OMap.find? base.map n = some i → OMap.find? base.map m = some i → n = m)
    (l : List Name) (hnd : l.Nodup) (hl : ∀ n ∈ l, originalName pol n ≠ n ∧ (OMap.find? base.map n).isSome = true)
    (s : Store × (Nat → Nat)) (h : Mid pol base ts0 l s) :
    ∃ s', l.foldlM (elideOneT pol) s = some s' ∧ Mid pol base ts0 [] s' := by
  induction l generalizing s with
  | nil => exact ⟨s, rfl, h⟩
  | cons n l ih =>
    rw [List.nodup_cons] at hnd
    obtain ⟨s1, h1, h2⟩ := mid_step pol base ts0 hbase hinj n l hnd.1 (hl n (by simp)).1 (hl n (by simp)).2 s h
    obtain ⟨s2, h3, h4⟩ := ih hnd.2 (fun m hm => hl m (by simp [hm])) s1 h2
    exact ⟨s2, by rw [List.foldlM_cons, h1]; exact h3, h4⟩

/-- **C79, what is written.** For every binary, all times of samples, and a symbol map without aliases that holds the functions `ns`: the
stamp of a symbol of the profile is the one of the function of exactly this name, or 0 if the symbol only came into being
when suffixes were elided. -/
theorem stamps_written (b : Bin) (hb : BinOk b) (times : OMap Nat Nat) (pol : Policy) (st : Store) (hst : st.Inv)
    (hinj : ∀ n m i, OMap.find? st.map n = some i → OMap.find? st.map m = some i → n = m) (ns : List Name)
    (hns : ∀ n, n ∈ ns ↔ (OMap.find? st.map n).isSome = true) :
    ∃ ts st' ts', processStamps (stamps b times) st ns = some ts ∧ elideT pol (st, ts) = some (st', ts') ∧
      ∀ n i, OMap.find? st'.map n = some i →
        (n ∈ ns ∧ originalName pol n = n → ∀ e ∈ b.syms, e.2.1 = n → ts' i = firstStamp b times e) ∧
        (¬ (n ∈ ns ∧ originalName pol n = n) → ts' i = 0) := by
  obtain ⟨ts, h1, h2, h3⟩ := processStamps_aux (stamps b times) st hinj ns (fun _ => 0) (fun n hn => (hns n).1 hn)
  obtain ⟨hnd, hel⟩ := elideSet_ok pol st hst
  obtain ⟨⟨st', ts'⟩, h4, h5⟩ := mid_loop pol st ts hst hinj (elideSet pol st.map) hnd hel (st, ts)
    { inv := hst, next := le_refl _,
      ptr := fun n i hi => by
        refine Or.inl ⟨hi, ?_⟩
        by_cases ho : originalName pol n = n
        · exact Or.inl ho
        · right
          unfold elideSet
          rw [List.mem_filter]
          exact ⟨List.mem_map.2 ⟨(n, i), OMap.mem_of_find?_some hi, rfl⟩, by simpa using ho⟩
      keep := fun n i _ hi => hi, old := fun i _ => rfl,
      fresh := fun i hi => by
        refine h3 i fun n hn => ?_
        have := hst.alloc n i hn
        have hi' : st.next ≤ i := hi
        omega }
  refine ⟨ts, st', ts', h1, h4, fun n i hi => ⟨?_, ?_⟩⟩
  · rintro ⟨hn, ho⟩ e he rfl
    obtain ⟨j, hj⟩ := Option.isSome_iff_exists.1 ((hns _).1 hn)
    have hk := h5.keep _ j (Or.inl ho) hj
    simp only at hk
    rw [hi] at hk
    cases hk
    have ho' : ts' i = ts i := h5.old i (hst.alloc _ _ hj)
    rw [ho', h2 _ i hj, if_pos hn, stamp_exact b hb times e he]
  · intro hno
    rcases h5.ptr n i hi with ⟨hb', hc⟩ | hb'
    · exfalso
      apply hno
      refine ⟨(hns n).2 (by rw [hb']; rfl), ?_⟩
      simpa using hc
    · exact h5.fresh i hb'

/-! ## Examples and violations -/

/-- The function f at 0x100 (16 bytes). -/
def exBin : Bin := ⟨[(0x100, [102], 16)], fun x => x, fun _ => [], fun _ => 1⟩

theorem exBin_ok : BinOk exBin := ⟨by simp [exBin, OMap.Sorted], by simp [exBin, NonOverlapping], by simp [exBin], by simp [exBin]⟩

/-- Sampled first at 0x100, then at 0x108. -/
theorem exBin_stamp : OMap.get0 (stamps exBin [(0x100, 7), (0x108, 9)]) [102] = 7 ∧
    (timesIn exBin [(0x100, 7), (0x108, 9)] (0x100, [102], 16)).Pairwise fun x y => x.2 ≤ y.2 := by
  constructor
  · decide +kernel
  · simp [timesIn, exBin]

/-- The full claim: the stamp is the time of the earliest sample of the function. -/
def StampClaim : Prop := ∀ (b : Bin) (_ : BinOk b) (times : OMap Nat Nat) (_ : OMap.Sorted times) (e : Nat × Name × Nat) (_ : e ∈ b.syms)
  (_ : ∀ x ∈ timesIn b times e, x.2 ≠ 0) (_ : timesIn b times e ≠ []), Earliest b times e (OMap.get0 (stamps b times) e.2.1)

/-- **C79, violated**: the sample with the smallest address wins, not the earliest one. -/
theorem stamp_earliest_violated : ¬ StampClaim := by
  intro h
  have := (h exBin exBin_ok [(0x100, 9), (0x108, 7)] (by simp [OMap.Sorted]) (0x100, [102], 16) (by simp [exBin])
    (by simp [timesIn, exBin]) (by simp [timesIn, exBin])).2 (0x108, 7) (by simp [timesIn, exBin])
  revert this
  decide +kernel

/-- The only function of the profile is "f.x", which is renamed to "f". -/
def exStore : Store := ⟨[([102, 46, 120], 0)], fun _ => Sym.new, 1⟩

/-- **C79, violated**: a function whose name has a suffix that is elided loses its stamp. -/
theorem stamp_suffix_violated :
    (OMap.get0 (stamps ⟨[(0x100, [102, 46, 120], 16)], fun x => x, fun _ => [], fun _ => 1⟩ [(0x100, 7)]) [102, 46, 120] = 7) ∧
    ∃ ts s', processStamps (stamps ⟨[(0x100, [102, 46, 120], 16)], fun x => x, fun _ => [], fun _ => 1⟩ [(0x100, 7)]) exStore [[102, 46, 120]] = some ts ∧
      ts 0 = 7 ∧ elideT .all (exStore, ts) = some s' ∧ s'.1.map = [([102], 1)] ∧ s'.2 1 = 0 := by
  refine ⟨by decide +kernel, _, _, rfl, by decide +kernel, rfl, by decide +kernel, by decide +kernel⟩

end Verif.Stamp

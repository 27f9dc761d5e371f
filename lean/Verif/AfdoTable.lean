import Verif.AfdoProps

/-! # C08, C09: string table and section lengths of AFDO profiles -/
namespace Verif.Afdo
open Verif Verif.Gcov Verif.SymbolMap

/-- `n` is the name of a function, of an inlined callee or of an indirect-call target somewhere in
the profile. -/
inductive Referenced (syms : List (Name × Top)) (n : Name) : Prop
  | func (t : Top) (h : (n, t) ∈ syms)
  | callee (f : Name) (t : Top) (h : (f, t) ∈ syms) (path : List Callsite) (u : Sym)
      (hu : t.sym.at? path = some u) (loc : Nat) (c : Sym) (hc : lookup u.calls (loc, n) = some c)
  | target (f : Name) (t : Top) (h : (f, t) ∈ syms) (path : List Callsite) (u : Sym)
      (hu : t.sym.at? path = some u) (loc : Nat) (i : PInfo) (hi : (loc, i) ∈ u.data.pos)
      (c : Nat) (hc : (n, c) ∈ i.targets)

mutual
theorem mem_symNames : (s : Sym) → s.WF → ∀ n, n ∈ symNames s ↔
    ∃ path u, s.at? path = some u ∧
      ((∃ loc c, lookup u.calls (loc, n) = some c) ∨
       (∃ loc i c, (loc, i) ∈ u.data.pos ∧ (n, c) ∈ i.targets))
  | .mk d cs, hwf, n => by
    simp only [Sym.WF] at hwf
    rw [symNames, List.mem_append, mem_callNames cs hwf.2.2.1 hwf.2.2.2 n]
    constructor
    · rintro (h | ⟨k, c, hk, h⟩)
      · simp only [targetNames, List.mem_flatMap, List.mem_map] at h
        obtain ⟨⟨loc, i⟩, h1, ⟨n', c⟩, h2, rfl⟩ := h
        exact ⟨[], _, rfl, Or.inr ⟨loc, i, c, h1, h2⟩⟩
      · rcases h with rfl | ⟨path, u, hu, h⟩
        · exact ⟨[], _, rfl, Or.inl ⟨k.1, c, hk⟩⟩
        · exact ⟨k :: path, u, by simp only [Sym.at?, Sym.calls, hk]; exact hu, h⟩
    · rintro ⟨path, u, hu, h⟩
      cases path with
      | nil =>
        simp only [Sym.at?, Option.some.injEq] at hu
        subst hu
        rcases h with ⟨loc, c, h⟩ | ⟨loc, i, c, h1, h2⟩
        · exact Or.inr ⟨(loc, n), c, h, Or.inl rfl⟩
        · left
          simp only [targetNames, List.mem_flatMap, List.mem_map]
          exact ⟨(loc, i), h1, (n, c), h2, rfl⟩
      | cons k p =>
        simp only [Sym.at?, Sym.calls] at hu
        cases hk : lookup cs k with
        | none => simp [hk] at hu
        | some c =>
          simp only [hk] at hu
          exact Or.inr ⟨k, c, hk, Or.inr ⟨p, u, hu, h⟩⟩
theorem mem_callNames : (cs : List (Callsite × Sym)) → (cs.map Prod.fst).Nodup → WFCalls cs → ∀ n,
    n ∈ callNames cs ↔ ∃ k c, lookup cs k = some c ∧ (n = k.2 ∨
      ∃ path u, c.at? path = some u ∧
      ((∃ loc c, lookup u.calls (loc, n) = some c) ∨
       (∃ loc i c, (loc, i) ∈ u.data.pos ∧ (n, c) ∈ i.targets)))
  | [], _, _, n => by simp [callNames, lookup]
  | (k, s) :: t, hnd, hwf, n => by
    simp only [List.map_cons, List.nodup_cons] at hnd
    simp only [WFCalls] at hwf
    rw [callNames, List.cons_append, List.mem_cons, List.mem_append, mem_symNames s hwf.1,
      mem_callNames t hnd.2 hwf.2]
    constructor
    · rintro (h | h | ⟨k', c, hk, h⟩)
      · exact ⟨k, s, by simp [lookup], Or.inl h⟩
      · exact ⟨k, s, by simp [lookup], Or.inr h⟩
      · refine ⟨k', c, ?_, h⟩
        have : k' ≠ k := by
          rintro rfl
          have : ∀ (l : List (Callsite × Sym)), lookup l k' = some c → k' ∈ l.map Prod.fst := by
            intro l
            induction l with
            | nil => intro h; simp [lookup] at h
            | cons a t ih =>
              intro h
              simp only [lookup] at h
              by_cases ha : k' = a.1
              · simp [ha]
              · rw [if_neg ha] at h; simp only [List.map_cons, List.mem_cons]; exact Or.inr (ih h)
          exact hnd.1 (this t hk)
        simp only [lookup]; rw [if_neg this]; exact hk
    · rintro ⟨k', c, hk, h⟩
      simp only [lookup] at hk
      by_cases he : k' = k
      · rw [if_pos he] at hk
        cases hk
        subst he
        rcases h with h | h
        · exact Or.inl h
        · exact Or.inr (Or.inl h)
      · rw [if_neg he] at hk
        exact Or.inr (Or.inr ⟨k', c, hk, h⟩)
end

theorem mem_profileNames (syms : List (Name × Top)) (hwf : ∀ q ∈ syms, q.2.sym.WF) (n : Name) :
    n ∈ profileNames syms ↔ n = [] ∨ Referenced syms n := by
  unfold profileNames
  rw [List.mem_cons, List.mem_flatMap]
  refine or_congr Iff.rfl ?_
  constructor
  · rintro ⟨⟨f, t⟩, hq, h⟩
    rcases List.mem_cons.1 h with rfl | h
    · exact .func t hq
    · rw [mem_symNames t.sym (hwf _ hq)] at h
      obtain ⟨path, u, hu, ⟨loc, c, h⟩ | ⟨loc, i, c, h1, h2⟩⟩ := h
      · exact .callee f t hq path u hu loc c h
      · exact .target f t hq path u hu loc i h1 c h2
  · intro h
    cases h with
    | func t h => exact ⟨(n, t), h, List.mem_cons_self⟩
    | callee f t h path u hu loc c hc =>
      refine ⟨(f, t), h, List.mem_cons_of_mem _ ?_⟩
      rw [mem_symNames t.sym (hwf _ h)]
      exact ⟨path, u, hu, Or.inl ⟨loc, c, hc⟩⟩
    | target f t h path u hu loc i hi c hc =>
      refine ⟨(f, t), h, List.mem_cons_of_mem _ ?_⟩
      rw [mem_symNames t.sym (hwf _ h)]
      exact ⟨path, u, hu, Or.inr ⟨loc, i, c, hi, hc⟩⟩

theorem stringTable_sorted (syms : List (Name × Top)) : (stringTable syms).Pairwise (· < ·) := by
  unfold stringTable
  rw [List.pairwise_map]
  exact (foldl_set_keys _ _ OMap.sorted_nil).1

/-- **C08.** The string table of a profile lists exactly the referenced names and the empty name,
each once and in increasing order; the empty name comes first; the index written for a name is the
position at which the reader finds that name, and every name of the table has one. -/
theorem string_table_spec (syms : List (Name × Top)) (hwf : ∀ q ∈ syms, q.2.sym.WF) :
    (stringTable syms).Pairwise (· < ·) ∧
    (stringTable syms).Nodup ∧
    (stringTable syms)[0]? = some [] ∧
    (∀ n, n ∈ stringTable syms ↔ n = [] ∨ Referenced syms n) ∧
    (∀ n i, indexOf n (stringTable syms) = some i ↔ (stringTable syms)[i]? = some n) := by
  have hs := stringTable_sorted syms
  have hnd : (stringTable syms).Nodup := hs.imp (fun h => ne_of_lt h)
  have hmem : ∀ n, n ∈ stringTable syms ↔ n = [] ∨ Referenced syms n := fun n =>
    (mem_stringTable syms n).trans (mem_profileNames syms hwf n)
  refine ⟨hs, hnd, ?_, hmem, ?_⟩
  · have h0 : ([] : Name) ∈ stringTable syms := (hmem []).2 (Or.inl rfl)
    cases h : stringTable syms with
    | nil => rw [h] at h0; cases h0
    | cons a t =>
      rw [h] at h0 hs
      rcases List.mem_cons.1 h0 with h0 | h0
      · simp [h0]
      · have := (List.pairwise_cons.1 hs).1 _ h0
        exact absurd this (List.not_lt_nil _)
  · intro n i
    constructor
    · exact fun h => (indexOf_get h).1
    · intro h
      obtain ⟨j, hj⟩ := indexOf_mem (List.mem_of_getElem? h)
      have hj' := (indexOf_get hj).1
      rw [hj]
      congr 1
      rw [List.getElem?_eq_some_iff] at h hj'
      obtain ⟨h1, h2⟩ := h
      obtain ⟨h3, h4⟩ := hj'
      exact (List.Nodup.getElem_inj_iff hnd).1 (h4.trans h2.symm)

/-- Every callee name in the profile is non-empty. -/
def CalleesNamed (s : Sym) : Prop :=
  ∀ path u loc c, s.at? path = some u → lookup u.calls (loc, []) = some c → False

theorem writeTargets_isSome {strs : List Name} (ts : List (Name × Nat))
    (h : ∀ t ∈ ts, t.1 ∈ strs) : (writeTargets strs ts).isSome := by
  induction ts with
  | nil => rfl
  | cons t ts ih =>
    obtain ⟨n, c⟩ := t
    obtain ⟨i, hi⟩ := indexOf_mem (h (n, c) List.mem_cons_self)
    obtain ⟨b, hb⟩ := Option.isSome_iff_exists.1 (ih (fun t ht => h t (List.mem_cons_of_mem _ ht)))
    simp [writeTargets, hi, hb]

theorem writePos_isSome {strs : List Name} (ps : List (Nat × PInfo))
    (h : ∀ n ∈ targetNames ps, n ∈ strs) : (writePos strs ps).isSome := by
  induction ps with
  | nil => rfl
  | cons p ps ih =>
    obtain ⟨off, i⟩ := p
    obtain ⟨b1, hb1⟩ := Option.isSome_iff_exists.1 (writeTargets_isSome (strs := strs) i.targets
      (fun t ht => h t.1 (by
        simp only [targetNames, List.flatMap_cons, List.mem_append]
        exact Or.inl (List.mem_map.2 ⟨t, ht, rfl⟩))))
    obtain ⟨b2, hb2⟩ := Option.isSome_iff_exists.1 (ih (fun n hn => h n (by
        simp only [targetNames, List.flatMap_cons, List.mem_append]
        exact Or.inr hn)))
    simp [writePos, hb1, hb2]

theorem indexOf_pos {strs : List Name} (h0 : strs[0]? = some []) {n : Name} (hn : n ≠ []) {i : Nat}
    (hi : indexOf n strs = some i) : i ≠ 0 := by
  rintro rfl
  have := (indexOf_get hi).1
  rw [h0] at this
  exact hn (Option.some.inj this).symm

mutual
theorem writeSym_isSome {strs : List Name} (h0 : strs[0]? = some []) : (s : Sym) → s.WF →
    (∀ n ∈ symNames s, n ∈ strs) → CalleesNamed s → (writeSym strs s).isSome
  | .mk d cs, hwf, h, hc => by
    simp only [Sym.WF] at hwf
    obtain ⟨b1, hb1⟩ := Option.isSome_iff_exists.1 (writePos_isSome (strs := strs) d.pos
      (fun n hn => h n (by rw [symNames, List.mem_append]; exact Or.inl hn)))
    obtain ⟨b2, hb2⟩ := Option.isSome_iff_exists.1 (writeCalls_isSome h0 cs hwf.2.2.1 hwf.2.2.2
      (fun n hn => h n (by rw [symNames, List.mem_append]; exact Or.inr hn))
      (fun k c hk => ⟨fun he => hc [] (.mk d cs) k.1 c rfl (by rw [← he]; exact hk),
        fun path u loc c' hu hl => hc (k :: path) u loc c' (by
          simp only [Sym.at?, Sym.calls, hk]; exact hu) hl⟩))
    simp [writeSym, hb1, hb2]
theorem writeCalls_isSome {strs : List Name} (h0 : strs[0]? = some []) :
    (cs : List (Callsite × Sym)) → (cs.map Prod.fst).Nodup → WFCalls cs →
    (∀ n ∈ callNames cs, n ∈ strs) →
    (∀ k c, lookup cs k = some c → k.2 ≠ [] ∧ CalleesNamed c) → (writeCalls strs cs).isSome
  | [], _, _, _, _ => rfl
  | (k, s) :: t, hnd, hwf, h, hc => by
    simp only [List.map_cons, List.nodup_cons] at hnd
    simp only [WFCalls] at hwf
    obtain ⟨hk, hs⟩ := hc k s (by simp [lookup])
    obtain ⟨i, hi⟩ := indexOf_mem (h k.2 (by rw [callNames]; simp))
    obtain ⟨b1, hb1⟩ := Option.isSome_iff_exists.1 (writeSym_isSome h0 s hwf.1 (fun n hn => h n (by
      rw [callNames]; simp [hn])) hs)
    obtain ⟨b2, hb2⟩ := Option.isSome_iff_exists.1 (writeCalls_isSome h0 t hnd.2 hwf.2 (fun n hn => h n (by
      rw [callNames]; simp [hn])) (fun k' c hk' => hc k' c (by
        have : k' ≠ k := by
          rintro rfl
          have : ∀ (l : List (Callsite × Sym)), lookup l k' = some c → k' ∈ l.map Prod.fst := by
            intro l
            induction l with
            | nil => intro h; simp [lookup] at h
            | cons a t ih =>
              intro h
              simp only [lookup] at h
              by_cases ha : k' = a.1
              · simp [ha]
              · rw [if_neg ha] at h; simp only [List.map_cons, List.mem_cons]; exact Or.inr (ih h)
          exact hnd.1 (this t hk')
        simp only [lookup]; rw [if_neg this]; exact hk')))
    have := indexOf_pos h0 hk hi
    simp [writeCalls, hi, hb1, hb2, hk, this]
end

/-- C08, the writer does not abort: whenever functions and inlined callees have names, every lookup of
a name in the string table succeeds and the file is produced. -/
theorem writer_total (v : Nat) (p : Profile) (hwf : ∀ q ∈ p.syms, q.2.sym.WF)
    (hn : ∀ q ∈ p.syms, q.1 ≠ [] ∧ CalleesNamed q.2.sym) : ∃ b, writeFile v p = some b := by
  have hspec := string_table_spec p.syms hwf
  have hmem : ∀ n ∈ profileNames p.syms, n ∈ stringTable p.syms :=
    fun n hn => (mem_stringTable _ _).2 hn
  have key : ∀ (l : List (Name × Top)), (∀ q ∈ l, q ∈ p.syms) →
      (writeTops v (stringTable p.syms) l).isSome := by
    intro l
    induction l with
    | nil => intro _; rfl
    | cons q l ih =>
      intro hl
      obtain ⟨n, t⟩ := q
      have hq := hl (n, t) List.mem_cons_self
      obtain ⟨b2, hb2⟩ := Option.isSome_iff_exists.1 (ih (fun q hq => hl q (List.mem_cons_of_mem _ hq)))
      have hin : ∀ x ∈ n :: symNames t.sym, x ∈ stringTable p.syms := by
        intro x hx
        apply hmem
        unfold profileNames
        exact List.mem_cons_of_mem _ (List.mem_flatMap.2 ⟨(n, t), hq, hx⟩)
      obtain ⟨i, hi⟩ := indexOf_mem (hin n List.mem_cons_self)
      obtain ⟨b1, hb1⟩ := Option.isSome_iff_exists.1 (writeSym_isSome hspec.2.2.1 t.sym (hwf _ hq)
        (fun x hx => hin x (List.mem_cons_of_mem _ hx)) (hn _ hq).2)
      have := indexOf_pos hspec.2.2.1 (hn _ hq).1 hi
      have hne : n ≠ [] := (hn _ hq).1
      simp [writeTops, writeTop, hi, hb1, hb2, hne, this]
  obtain ⟨b, hb⟩ := Option.isSome_iff_exists.1 (key p.syms (fun q hq => hq))
  unfold writeFile functionBody
  simp [hb]

/-! ## C09 -/

theorem writeTargets_length {strs : List Name} (ts : List (Name × Nat)) {b : List UInt8}
    (h : writeTargets strs ts = some b) : b.length = 4 * (ts.length * 5) := by
  induction ts generalizing b with
  | nil => simp only [writeTargets, Option.some.injEq] at h; subst h; rfl
  | cons t ts ih =>
    obtain ⟨n, c⟩ := t
    simp only [writeTargets] at h
    cases hi : indexOf n strs with
    | none => simp [hi] at h
    | some i =>
      cases hb : writeTargets strs ts with
      | none => simp [hi, hb] at h
      | some b' =>
        simp only [hi, hb, Option.some.injEq] at h
        subst h
        have := ih hb
        simp only [List.length_append, writeUnsigned_length, writeCounter_length, List.length_cons]
        omega

theorem writePos_length {strs : List Name} (ps : List (Nat × PInfo)) {b : List UInt8}
    (h : writePos strs ps = some b) :
    b.length = 4 * (ps.length * 4 + (ps.map (fun p => p.2.targets.length * 5)).sum) := by
  induction ps generalizing b with
  | nil => simp only [writePos, Option.some.injEq] at h; subst h; rfl
  | cons p ps ih =>
    obtain ⟨off, i⟩ := p
    simp only [writePos] at h
    cases ht : writeTargets strs i.targets with
    | none => simp [ht] at h
    | some bt =>
      cases hb : writePos strs ps with
      | none => simp [ht, hb] at h
      | some b' =>
        simp only [ht, hb, Option.some.injEq] at h
        subst h
        have := ih hb
        have := writeTargets_length _ ht
        simp only [List.length_append, writeUnsigned_length, writeCounter_length, List.length_cons,
          List.map_cons, List.sum_cons]
        omega

mutual
theorem writeSym_words {strs : List Name} : (s : Sym) → ∀ {b : List UInt8}, writeSym strs s = some b →
    b.length + 4 = 4 * symLength s
  | .mk d cs, b, h => by
    obtain ⟨p, c, hp, hc, rfl⟩ := writeSym_length h
    have h1 := writePos_length _ hp
    have h2 := writeCalls_words cs hc
    simp only [List.length_append, writeUnsigned_length, symLength]
    omega
theorem writeCalls_words {strs : List Name} : (cs : List (Callsite × Sym)) → ∀ {b : List UInt8},
    writeCalls strs cs = some b → b.length = 4 * (cs.length + callsLength cs)
  | [], b, h => by simp only [writeCalls, Option.some.injEq] at h; subst h; rfl
  | (k, s) :: t, b, h => by
    simp only [writeCalls] at h
    by_cases hk : k.2 = []
    · rw [if_pos hk] at h; cases h
    rw [if_neg hk] at h
    cases hi : indexOf k.2 strs with
    | none => simp [hi] at h
    | some i =>
      cases hb : writeSym strs s with
      | none => simp [hi, hb] at h
      | some bs =>
        cases hb2 : writeCalls strs t with
        | none => simp [hi, hb, hb2] at h
        | some bt =>
          simp only [hi, hb, hb2] at h
          by_cases hi0 : i = 0
          · rw [if_pos hi0] at h; cases h
          rw [if_neg hi0] at h
          simp only [Option.some.injEq] at h
          subst h
          have h1 := writeSym_words s hb
          have h2 := writeCalls_words t hb2
          simp only [List.length_append, writeUnsigned_length, List.length_cons, callsLength]
          omega
end

theorem writeTops_words {v : Nat} {strs : List Name} (syms : List (Name × Top)) {b : List UInt8}
    (h : writeTops v strs syms = some b) :
    b.length = 4 * (functionLength syms + if v ≥ 3 then 2 * syms.length else 0) := by
  induction syms generalizing b with
  | nil => simp only [writeTops, Option.some.injEq] at h; subst h; simp [functionLength]
  | cons q syms ih =>
    obtain ⟨n, t⟩ := q
    simp only [writeTops] at h
    cases ht : writeTop v strs n t with
    | none => simp [ht] at h
    | some bt =>
      cases hb : writeTops v strs syms with
      | none => simp [ht, hb] at h
      | some b' =>
        simp only [ht, hb, Option.some.injEq] at h
        subst h
        have h1 := ih hb
        unfold writeTop at ht
        by_cases hn : n = []
        · rw [if_pos hn] at ht; cases ht
        rw [if_neg hn] at ht
        cases hi : indexOf n strs with
        | none => simp [hi] at ht
        | some i =>
          cases hs : writeSym strs t.sym with
          | none => simp [hi, hs] at ht
          | some bs =>
            simp only [hi, hs] at ht
            by_cases hi0 : i = 0
            · rw [if_pos hi0] at ht; cases ht
            rw [if_neg hi0] at ht
            simp only [Option.some.injEq] at ht
            subst ht
            have h2 := writeSym_words t.sym hs
            unfold functionLength at h1 ⊢
            by_cases hv : v ≥ 3
            · simp only [hv, if_true, List.length_append, writeUnsigned_length, writeCounter_length,
                List.length_cons, List.map_cons, List.sum_cons] at h1 ⊢
              omega
            · simp only [hv, if_false, List.length_append, writeUnsigned_length, writeCounter_length,
                List.length_cons, List.map_cons, List.sum_cons, List.length_nil] at h1 ⊢
              omega

/-- **C09** (partial: formats before version 3).  The length word of the function section is the
number of 32-bit words that follow it. -/
theorem function_length_partial (v : Nat) (hv : v < 3) (strs : List Name) (syms : List (Name × Top))
    (body : List UInt8) (h : functionBody v strs syms = some body) :
    body.length = 4 * functionLengthWord syms := by
  unfold functionBody at h
  cases hb : writeTops v strs syms with
  | none => simp [hb] at h
  | some b =>
    simp only [hb, Option.map_some, Option.some.injEq] at h
    subst h
    have := writeTops_words syms hb
    rw [if_neg (by omega)] at this
    simp only [List.length_append, writeUnsigned_length, functionLengthWord]
    omega

/-- C09 does not hold from version 3 on: the timestamp of every function (two words) is not counted. -/
theorem function_length_short (v : Nat) (hv : 3 ≤ v) (strs : List Name) (syms : List (Name × Top))
    (body : List UInt8) (h : functionBody v strs syms = some body) :
    body.length = 4 * (functionLengthWord syms + 2 * syms.length) := by
  unfold functionBody at h
  cases hb : writeTops v strs syms with
  | none => simp [hb] at h
  | some b =>
    simp only [hb, Option.map_some, Option.some.injEq] at h
    subst h
    have := writeTops_words syms hb
    rw [if_pos hv] at this
    simp only [List.length_append, writeUnsigned_length, functionLengthWord]
    omega

/-- Sample profile: two functions; the first has two locations, one with an indirect-call target, and
an inlined callee with a location of its own. -/
def sampleSyms : List (Name × Top) :=
  [([97], ⟨.mk ⟨18, 3, [(4294967297, ⟨5, 2, []⟩), (8589934592, ⟨7, 1, [([99], 4)]⟩)]⟩
      [((12884901888, [98]), .mk ⟨6, 1, [(4294967296, ⟨6, 1, []⟩)]⟩ [])], 77⟩),
   ([100, 101], ⟨.mk ⟨1, 1, [(4294967296, ⟨1, 1, []⟩)]⟩ [], 5⟩)]

def sampleProfile : Profile :=
  ⟨sampleSyms, ⟨19, 7, 3, 4, 2, [(10000, 7, 1)]⟩, [], fun _ => none, List.replicate 128 (20, 7)⟩

example : stringTable sampleSyms = [[], [97], [98], [99], [100, 101]] := by decide +kernel

/-- C09, concrete: a version-3 file is two words per function longer than announced, a version-2 file
is not. -/
theorem function_length_violated :
    (∃ b, functionBody 3 (stringTable sampleSyms) sampleSyms = some b ∧
      b.length ≠ 4 * functionLengthWord sampleSyms) ∧
    (∃ b, functionBody 2 (stringTable sampleSyms) sampleSyms = some b ∧
      b.length = 4 * functionLengthWord sampleSyms) := by
  obtain ⟨b3, h3⟩ := Option.isSome_iff_exists.1
    (show (functionBody 3 (stringTable sampleSyms) sampleSyms).isSome by decide +kernel)
  obtain ⟨b2, h2⟩ := Option.isSome_iff_exists.1
    (show (functionBody 2 (stringTable sampleSyms) sampleSyms).isSome by decide +kernel)
  refine ⟨⟨b3, h3, ?_⟩, b2, h2, function_length_partial 2 (by decide) _ _ _ h2⟩
  rw [function_length_short 3 (by decide) _ _ _ h3]
  decide +kernel

end Verif.Afdo

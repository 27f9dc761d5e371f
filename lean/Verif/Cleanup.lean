import Verif.InlineStack

/-!
# C103: discarding the unused subprograms of a split unit (util/symbolize/addr2line_inlinestack.cc:130-186)

`m` is the map of the split unit from offsets to subprograms, `u` the flags `used_` by offset.  The map does not change while the flags
are set.  `none`: the code looks for a subprogram that is not in the map, and dereferences the end of the map.
-/
namespace Verif.Cleanup
open Verif Verif.Inline Verif.RangeMap Verif.LineMap

/-- The lines for one reference (addr2line_inlinestack.cc:156-163, 164-171): the flags and the worklist, its back first. -/
def push (m : OMap Nat Sub) (p : (Nat → Bool) × List Nat) (t : Nat) : Option ((Nat → Bool) × List Nat) :=
  if t = 0 then some p
  else
    match OMap.find? m t with
    | none => none
    | some _ => if p.1 t then some p else some (fun x => decide (x = t) || p.1 x, t :: p.2)

/-- The loop over the worklist (addr2line_inlinestack.cc:151-172).  The fuel is enough (`cleanup_spec`). -/
def mark (m : OMap Nat Sub) : Nat → (Nat → Bool) → List Nat → Option (Nat → Bool)
  | _, u, [] => some u
  | 0, _, _ :: _ => none
  | fuel + 1, u, i :: w =>
    match OMap.find? m i with
    | none => none
    | some s => (push m (u, w) s.spec).bind fun p => (push m p s.origin).bind fun q => mark m fuel q.1 q.2

/-- `CleanupUnusedSubprograms` (addr2line_inlinestack.cc:141-186): the new map. -/
def cleanup (m : OMap Nat Sub) (u : Nat → Bool) : Option (OMap Nat Sub) :=
  (mark m (2 * m.length) u ((m.filter fun e => u e.1).map Prod.fst).reverse).map fun v => m.filter fun e => v e.1

/-- `EndSplitCompilationUnit` (addr2line_inlinestack.cc:131-139): the last map is replaced (addr2line_inlinestack.cc:185). -/
def endSplit (inf : Info) (u : Nat → Bool) : Option Info :=
  match inf.byOffset.getLast? with
  | none => none
  | some m => (cleanup m u).map fun m' => { inf with byOffset := inf.byOffset.dropLast ++ [m'] }

/-! ## Specification -/

/-- The offset `k` is that of a used subprogram, or the specification or the abstract origin of one, and so on. -/
inductive Needed (m : OMap Nat Sub) (u : Nat → Bool) : Nat → Prop where
  | used {k : Nat} {s : Sub} (hf : OMap.find? m k = some s) (hu : u k = true) : Needed m u k
  | ref {k t : Nat} {s : Sub} (hk : Needed m u k) (hf : OMap.find? m k = some s) (ht : t ≠ 0) (h : t = s.spec ∨ t = s.origin) : Needed m u t

/-! ## The worklist -/

/-- References of the subprogram at `k` have been followed. -/
def Done (m : OMap Nat Sub) (u : Nat → Bool) (k : Nat) : Prop :=
  ∀ s, OMap.find? m k = some s → ∀ t, t ≠ 0 → (t = s.spec ∨ t = s.origin) → (OMap.find? m t).isSome ∧ u t = true

structure Inv (m : OMap Nat Sub) (u0 u : Nat → Bool) (w : List Nat) (ex : Nat → Prop) : Prop where
  work : ∀ i ∈ w, (OMap.find? m i).isSome ∧ u i = true
  sound : ∀ k, (OMap.find? m k).isSome → u k = true → Needed m u0 k
  init : ∀ k, u0 k = true → u k = true
  done : ∀ k, u k = true → k ∉ w → ¬ ex k → Done m u k

/-- The number of flags that are not set. -/
def unused (m : OMap Nat Sub) (u : Nat → Bool) : Nat := (m.filter fun e => !u e.1).length

theorem unused_set (m : OMap Nat Sub) (u : Nat → Bool) {t : Nat} {s : Sub} (h : OMap.find? m t = some s) (hu : u t = false) :
    unused m (fun x => decide (x = t) || u x) + 1 ≤ unused m u := by
  have hm := OMap.mem_of_find?_some h
  clear h
  unfold unused
  have hle : ∀ l : List (Nat × Sub), (l.filter fun e => !(decide (e.1 = t) || u e.1)).length ≤ (l.filter fun e => !u e.1).length := by
    intro l
    apply List.Sublist.length_le
    apply List.monotone_filter_right
    intro e he
    simp only [Bool.not_or, Bool.and_eq_true] at he
    exact he.2
  induction m with
  | nil => cases hm
  | cons e l ih =>
    rcases List.mem_cons.1 hm with he | he
    · subst he
      have := hle l
      beta_reduce
      simp only [List.filter_cons, hu, decide_true, Bool.true_or, Bool.not_true, Bool.not_false, if_true, Bool.false_eq_true, if_false, List.length_cons]
      omega
    · have := ih he
      beta_reduce at this
      beta_reduce
      simp only [List.filter_cons]
      by_cases h1 : u e.1 = true
      · simp only [h1, Bool.or_true, Bool.not_true, Bool.false_eq_true, if_false]
        exact this
      · by_cases h2 : e.1 = t
        · simp only [h2, decide_true, Bool.true_or, Bool.not_true, Bool.false_eq_true, if_false, hu, Bool.not_false, if_true, List.length_cons]
          omega
        · simp only [h2, decide_false, Bool.false_or, h1, Bool.not_false, if_true, List.length_cons]
          omega

theorem push_inv {m : OMap Nat Sub} {u0 : Nat → Bool} {p q : (Nat → Bool) × List Nat} {t : Nat} {ex : Nat → Prop} (hI : Inv m u0 p.1 p.2 ex)
    (hn : t ≠ 0 → Needed m u0 t) (h : push m p t = some q) :
    Inv m u0 q.1 q.2 ex ∧ (∀ k, p.1 k = true → q.1 k = true) ∧ (t ≠ 0 → (OMap.find? m t).isSome ∧ q.1 t = true) ∧
      2 * unused m q.1 + q.2.length ≤ 2 * unused m p.1 + p.2.length := by
  unfold push at h
  by_cases h0 : t = 0
  · rw [if_pos h0] at h
    cases h
    exact ⟨hI, fun _ h => h, fun h => absurd h0 h, le_refl _⟩
  · rw [if_neg h0] at h
    cases hf : OMap.find? m t with
    | none => rw [hf] at h; cases h
    | some s =>
      rw [hf] at h
      simp only at h
      split_ifs at h with hu
      · cases h
        exact ⟨hI, fun _ h => h, fun _ => ⟨rfl, hu⟩, le_refl _⟩
      · cases h
        have hle := unused_set m p.1 hf (by simpa using hu)
        refine ⟨⟨?_, ?_, ?_, ?_⟩, ?_, ?_, ?_⟩
        · intro i hi
          rcases List.mem_cons.1 hi with rfl | hi
          · exact ⟨by rw [hf]; rfl, by simp⟩
          · obtain ⟨a, b⟩ := hI.work i hi
            exact ⟨a, by simp [b]⟩
        · intro k hk hu'
          by_cases hkt : k = t
          · subst hkt; exact hn h0
          · simp only [hkt, decide_false, Bool.false_or] at hu'
            exact hI.sound k hk hu'
        · intro k hk
          simp [hI.init k hk]
        · intro k hk hw hx
          simp only [List.mem_cons, not_or] at hw
          simp only [hw.1, decide_false, Bool.false_or] at hk
          intro s' hs' t' ht' hr
          obtain ⟨a, b⟩ := hI.done k hk hw.2 hx s' hs' t' ht' hr
          exact ⟨a, by simp [b]⟩
        · intro k hk
          simp [hk]
        · intro _
          exact ⟨rfl, by simp⟩
        · simp only [List.length_cons]
          omega

theorem push_some {m : OMap Nat Sub} {p : (Nat → Bool) × List Nat} {t : Nat} (h : t ≠ 0 → (OMap.find? m t).isSome) : ∃ q, push m p t = some q := by
  unfold push
  by_cases h0 : t = 0
  · rw [if_pos h0]; exact ⟨_, rfl⟩
  · rw [if_neg h0]
    obtain ⟨s, hs⟩ := Option.isSome_iff_exists.1 (h h0)
    rw [hs]
    simp only
    split_ifs <;> exact ⟨_, rfl⟩

theorem mark_inv {m : OMap Nat Sub} {u0 : Nat → Bool} : ∀ (fuel : Nat) (u : Nat → Bool) (w : List Nat), Inv m u0 u w (fun _ => False) →
    ∀ v, mark m fuel u w = some v → Inv m u0 v [] (fun _ => False)
  | _, u, [], hI, v, h => by
    rw [mark] at h
    cases h
    exact hI
  | 0, u, i :: w, _, v, h => by rw [mark] at h; cases h
  | fuel + 1, u, i :: w, hI, v, h => by
    rw [mark] at h
    obtain ⟨hi, hui⟩ := hI.work i (by simp)
    obtain ⟨s, hs⟩ := Option.isSome_iff_exists.1 hi
    rw [hs] at h
    simp only [Option.bind_eq_some_iff] at h
    obtain ⟨p, hp, q, hq, h⟩ := h
    have hn := hI.sound i hi hui
    have hI0 : Inv m u0 (u, w).1 (u, w).2 (fun k => k = i) := by
      refine ⟨fun j hj => hI.work j (List.mem_cons_of_mem _ hj), hI.sound, hI.init, fun k hk hw hx => hI.done k hk ?_ id⟩
      simp only [List.mem_cons, not_or]
      exact ⟨hx, hw⟩
    obtain ⟨h1, h1m, h1t, _⟩ := push_inv hI0 (fun ht => .ref hn hs ht (.inl rfl)) hp
    obtain ⟨h2, h2m, h2t, _⟩ := push_inv h1 (fun ht => .ref hn hs ht (.inr rfl)) hq
    refine mark_inv fuel q.1 q.2 ⟨h2.work, h2.sound, h2.init, ?_⟩ v h
    intro k hk hw _
    by_cases hki : k = i
    · subst hki
      intro s' hs' t ht hr
      rw [hs] at hs'
      cases hs'
      rcases hr with rfl | rfl
      · exact ⟨(h1t ht).1, h2m _ (h1t ht).2⟩
      · exact h2t ht
    · exact h2.done k hk hw hki

theorem mark_some {m : OMap Nat Sub} {u0 : Nat → Bool} (hc : ∀ k, Needed m u0 k → (OMap.find? m k).isSome) :
    ∀ (fuel : Nat) (u : Nat → Bool) (w : List Nat), Inv m u0 u w (fun _ => False) → 2 * unused m u + w.length ≤ fuel → ∃ v, mark m fuel u w = some v
  | _, u, [], _, _ => ⟨u, by rw [mark]⟩
  | 0, u, i :: w, _, h => by simp at h
  | fuel + 1, u, i :: w, hI, h => by
    rw [mark]
    obtain ⟨hi, hui⟩ := hI.work i (by simp)
    obtain ⟨s, hs⟩ := Option.isSome_iff_exists.1 hi
    have hn := hI.sound i hi hui
    have hI0 : Inv m u0 (u, w).1 (u, w).2 (fun k => k = i) := by
      refine ⟨fun j hj => hI.work j (List.mem_cons_of_mem _ hj), hI.sound, hI.init, fun k hk hw hx => hI.done k hk ?_ id⟩
      simp only [List.mem_cons, not_or]
      exact ⟨hx, hw⟩
    obtain ⟨p, hp⟩ := push_some (p := (u, w)) (fun ht => hc s.spec (.ref hn hs ht (.inl rfl)))
    obtain ⟨h1, h1m, h1t, h1c⟩ := push_inv hI0 (fun ht => .ref hn hs ht (.inl rfl)) hp
    obtain ⟨q, hq⟩ := push_some (p := p) (fun ht => hc s.origin (.ref hn hs ht (.inr rfl)))
    obtain ⟨h2, h2m, h2t, h2c⟩ := push_inv h1 (fun ht => .ref hn hs ht (.inr rfl)) hq
    have hI' : Inv m u0 q.1 q.2 (fun _ => False) := by
      refine ⟨h2.work, h2.sound, h2.init, ?_⟩
      intro k hk hw _
      by_cases hki : k = i
      · subst hki
        intro s' hs' t ht hr
        rw [hs] at hs'
        cases hs'
        rcases hr with rfl | rfl
        · exact ⟨(h1t ht).1, h2m _ (h1t ht).2⟩
        · exact h2t ht
      · exact h2.done k hk hw hki
    obtain ⟨v, hv⟩ := mark_some hc fuel q.1 q.2 hI' (by
      simp only [List.length_cons] at h
      simp only at h1c
      omega)
    refine ⟨v, ?_⟩
    rw [hs]
    simp only [hp, Option.bind_some, hq]
    exact hv

theorem start_inv {m : OMap Nat Sub} (hs : OMap.Sorted m) (u : Nat → Bool) :
    Inv m u u ((m.filter fun e => u e.1).map Prod.fst).reverse (fun _ => False) := by
  refine ⟨?_, ?_, fun _ h => h, ?_⟩
  · intro i hi
    simp only [List.mem_reverse, List.mem_map, List.mem_filter] at hi
    obtain ⟨e, ⟨he, hu⟩, rfl⟩ := hi
    rw [OMap.find?_some_of_mem hs (k := e.1) (v := e.2) he]
    exact ⟨rfl, hu⟩
  · intro k hk hu
    obtain ⟨s, hs'⟩ := Option.isSome_iff_exists.1 hk
    exact .used hs' hu
  · intro k hk hw _ s hf
    exact absurd (by
      simp only [List.mem_reverse, List.mem_map, List.mem_filter]
      exact ⟨(k, s), ⟨OMap.mem_of_find?_some hf, hk⟩, rfl⟩) hw

theorem needed_flag {m : OMap Nat Sub} {u v : Nat → Bool} (h : Inv m u v [] (fun _ => False)) {k : Nat} (hk : Needed m u k) :
    (OMap.find? m k).isSome ∧ v k = true := by
  induction hk with
  | used hf hu => exact ⟨by rw [hf]; rfl, h.init _ hu⟩
  | ref hk hf ht hr ih => exact h.done _ ih.2 (by simp) (by simp) _ hf _ ht hr

/-- Discarding ends, for any references, also circular ones; it is undefined exactly if a needed reference leads nowhere; and it keeps the
    subprograms that are used and those that used ones refer to, directly or not, and no others. -/
theorem cleanup_spec (m : OMap Nat Sub) (hs : OMap.Sorted m) (u : Nat → Bool) :
    ((cleanup m u).isSome ↔ ∀ k, Needed m u k → (OMap.find? m k).isSome) ∧
    ∀ m', cleanup m u = some m' → OMap.Sorted m' ∧ ∀ k s, OMap.find? m' k = some s ↔ OMap.find? m k = some s ∧ Needed m u k := by
  have hst := start_inv hs u
  constructor
  · constructor
    · intro h k hk
      obtain ⟨m', hm'⟩ := Option.isSome_iff_exists.1 h
      unfold cleanup at hm'
      rw [Option.map_eq_some_iff] at hm'
      obtain ⟨v, hv, _⟩ := hm'
      exact (needed_flag (mark_inv _ _ _ hst v hv) hk).1
    · intro h
      obtain ⟨v, hv⟩ := mark_some h (2 * m.length) u _ hst (by
        have h1 : ∀ l : List (Nat × Sub), (l.filter fun e => !u e.1).length + (l.filter fun e => u e.1).length = l.length := by
          intro l
          induction l with
          | nil => rfl
          | cons e l ih => by_cases h : u e.1 = true <;> simp [h] <;> omega
        have := h1 m
        simp only [unused, List.length_reverse, List.length_map]
        omega)
      unfold cleanup
      rw [hv]
      rfl
  · intro m' hm'
    unfold cleanup at hm'
    rw [Option.map_eq_some_iff] at hm'
    obtain ⟨v, hv, rfl⟩ := hm'
    have hI := mark_inv _ _ _ hst v hv
    have hs' : OMap.Sorted (m.filter fun e => v e.1) := List.Pairwise.filter _ hs
    refine ⟨hs', fun k s => ?_⟩
    rw [OMap.find?_eq_some_iff hs', OMap.find?_eq_some_iff hs, List.mem_filter]
    constructor
    · rintro ⟨h1, h2⟩
      exact ⟨h1, hI.sound k (by rw [OMap.find?_some_of_mem hs h1]; rfl) h2⟩
    · rintro ⟨h1, h2⟩
      exact ⟨h1, (needed_flag hI h2).2⟩

/-! ## Inline stacks -/

theorem declIn_keep {m m' : OMap Nat Sub} {u : Nat → Bool} (hm : ∀ k s, OMap.find? m' k = some s ↔ OMap.find? m k = some s ∧ Needed m u k)
    {k : Nat} {s d : Sub} (hf : OMap.find? m k = some s) (hk : Needed m u k) : DeclIn m' s d ↔ DeclIn m s d := by
  constructor
  · intro h
    clear hf hk
    induction h with
    | complete a b => exact .complete a b
    | last a b => exact .last a b
    | spec a b c _ ih => exact .spec a b ((hm _ _).1 c).1 ih
    | origin a b c d _ ih => exact .origin a b c ((hm _ _).1 d).1 ih
  · intro h
    induction h generalizing k with
    | complete a b => exact .complete a b
    | last a b => exact .last a b
    | spec a b c _ ih =>
      have hn := Needed.ref hk hf b (.inl rfl)
      exact .spec a b ((hm _ _).2 ⟨c, hn⟩) (ih c hn)
    | origin a b c d _ ih =>
      have hn := Needed.ref hk hf c (.inr rfl)
      exact .origin a b c ((hm _ _).2 ⟨d, hn⟩) (ih d hn)

theorem getDecl_keep {inf inf' : Info} {s : Sub} (hf : ∀ m m', inf.byOffset[s.fileIndex]? = some m → inf'.byOffset[s.fileIndex]? = some m' →
      m' = m ∨ ∃ u k, (∀ k s, OMap.find? m' k = some s ↔ OMap.find? m k = some s ∧ Needed m u k) ∧ OMap.find? m k = some s ∧ Needed m u k)
    (hs : (inf.byOffset[s.fileIndex]?).isSome = (inf'.byOffset[s.fileIndex]?).isSome) :
    getDecl inf' s = getDecl inf s ∧ ((∀ m m', inf.byOffset[s.fileIndex]? = some m → inf'.byOffset[s.fileIndex]? = some m' → s.origin ≠ 0 →
      OMap.find? m' s.origin = OMap.find? m s.origin) → getOrigin inf' s = getOrigin inf s) := by
  unfold getDecl getOrigin
  cases h : inf.byOffset[s.fileIndex]? with
  | none =>
    rw [h] at hs
    cases h' : inf'.byOffset[s.fileIndex]? with
    | none => exact ⟨rfl, fun _ => rfl⟩
    | some m' => rw [h'] at hs; cases hs
  | some m =>
    rw [h] at hs
    cases h' : inf'.byOffset[s.fileIndex]? with
    | none => rw [h'] at hs; cases hs
    | some m' =>
      simp only
      refine ⟨?_, fun ho => ?_⟩
      · rcases hf m m' h h' with rfl | ⟨u, k, hm, hk, hn⟩
        · rfl
        · apply Option.ext
          intro d
          rw [declLoop_iff, declLoop_iff, declIn_keep hm hk hn]
      · by_cases h0 : s.origin ≠ 0
        · rw [if_pos h0, if_pos h0]
          exact ho m m' rfl rfl h0
        · rw [if_neg h0, if_neg h0]

theorem origin_keep {m m' : OMap Nat Sub} {u : Nat → Bool} (hm : ∀ k s, OMap.find? m' k = some s ↔ OMap.find? m k = some s ∧ Needed m u k)
    {k : Nat} {s : Sub} (hf : OMap.find? m k = some s) (hk : Needed m u k) (h0 : s.origin ≠ 0) :
    OMap.find? m' s.origin = OMap.find? m s.origin := by
  apply Option.ext
  intro t
  rw [hm]
  exact ⟨fun h => h.1, fun h => ⟨h, .ref hk hf h0 (.inr rfl)⟩⟩

theorem callers_congr {inf inf' : Info} (ho : inf'.order = inf.order) (hd : ∀ s ∈ inf.order, getDecl inf' s = getDecl inf s)
    (hg : ∀ s ∈ inf.order, getOrigin inf' s = getOrigin inf s) : ∀ fuel i, callers inf' fuel i = callers inf fuel i
  | 0, i => by rw [callers, callers]
  | fuel + 1, i => by
    simp only [callers, ho]
    cases hi : inf.order[i]? with
    | none => simp only [Option.bind_eq_bind, Option.bind_none]
    | some s =>
      have hs := List.mem_of_getElem? hi
      simp only [Option.bind_eq_bind, Option.bind_some]
      split_ifs
      · cases hp : s.parent with
        | none => simp only [Option.bind_none]
        | some p =>
          simp only [Option.bind_some]
          cases hpar : inf.order[p]? with
          | none => simp only [Option.bind_none]
          | some par =>
            have hpm := List.mem_of_getElem? hpar
            simp only [Option.bind_some, hd par hpm, hg par hpm, callers_congr ho hd hg fuel p, callerDir, hg s hs]
      · rfl

theorem inlineStack_congr {inf inf' : Info} (ho : inf'.order = inf.order) (hd : ∀ s ∈ inf.order, getDecl inf' s = getDecl inf s)
    (hg : ∀ s ∈ inf.order, getOrigin inf' s = getOrigin inf s) (lm : LMap) (rm : RMap Nat) (a : Nat) :
    inlineStack inf' lm rm a = inlineStack inf lm rm a := by
  have hc : callers inf' = callers inf := by
    funext f i
    exact callers_congr ho hd hg f i
  unfold inlineStack
  rw [hc, ho]
  congr 1
  funext li
  cases li with
  | none => rfl
  | some li =>
    simp only
    congr 1
    funext i
    simp only [Option.bind_eq_bind]
    cases hi : inf.order[i]? with
    | none => simp only [Option.bind_none]
    | some s =>
      have hs := List.mem_of_getElem? hi
      simp only [Option.bind_some, hd s hs, hg s hs]

/-- Discarding at the end of a split unit changes no inline stack: the subprograms with code of the unit being used and in its map. -/
theorem endSplit_stack (inf inf' : Info) (u : Nat → Bool) (h : endSplit inf u = some inf')
    (hs : ∀ m, inf.byOffset.getLast? = some m → OMap.Sorted m)
    (hu : ∀ s ∈ inf.order, s.fileIndex + 1 = inf.byOffset.length → ∀ m, inf.byOffset.getLast? = some m → OMap.find? m s.offset = some s ∧ u s.offset = true)
    (lm : LMap) (rm : RMap Nat) (a : Nat) : inlineStack inf' lm rm a = inlineStack inf lm rm a := by
  unfold endSplit at h
  cases hl : inf.byOffset.getLast? with
  | none => rw [hl] at h; cases h
  | some m =>
    rw [hl] at h
    simp only [Option.map_eq_some_iff] at h
    obtain ⟨m', hm', rfl⟩ := h
    obtain ⟨_, hk⟩ := (cleanup_spec m (hs m hl) u).2 m' hm'
    have hne : inf.byOffset ≠ [] := by rintro h0; rw [h0] at hl; cases hl
    have hlen : 0 < inf.byOffset.length := List.length_pos_iff.2 hne
    have hlast : inf.byOffset[inf.byOffset.length - 1]? = some m := by rw [← List.getLast?_eq_getElem?]; exact hl
    have hother : ∀ j, j + 1 ≠ inf.byOffset.length → (inf.byOffset.dropLast ++ [m'])[j]? = inf.byOffset[j]? := by
      intro j hj
      by_cases hlt : j + 1 < inf.byOffset.length
      · rw [List.getElem?_append_left (by rw [List.length_dropLast]; omega), List.getElem?_dropLast, if_pos (by omega)]
      · rw [List.getElem?_eq_none (by rw [List.length_append, List.length_dropLast]; simp; omega), List.getElem?_eq_none (by omega)]
    have hthis : (inf.byOffset.dropLast ++ [m'])[inf.byOffset.length - 1]? = some m' := by
      rw [List.getElem?_append_right (by rw [List.length_dropLast])]
      simp
    have hboth : ∀ s ∈ inf.order, getDecl { inf with byOffset := inf.byOffset.dropLast ++ [m'] } s = getDecl inf s ∧
        getOrigin { inf with byOffset := inf.byOffset.dropLast ++ [m'] } s = getOrigin inf s := by
      intro s hso
      by_cases hj : s.fileIndex + 1 = inf.byOffset.length
      · obtain ⟨hf, hus⟩ := hu s hso hj m hl
        have hn : Needed m u s.offset := .used hf hus
        have hj' : s.fileIndex = inf.byOffset.length - 1 := by omega
        obtain ⟨g1, g2⟩ := getDecl_keep (inf := inf) (inf' := { inf with byOffset := inf.byOffset.dropLast ++ [m'] }) (s := s)
          (by
            intro x x' hx hx'
            simp only at hx'
            rw [hj', hlast] at hx
            rw [hj', hthis] at hx'
            cases hx
            cases hx'
            exact .inr ⟨u, s.offset, hk, hf, hn⟩)
          (by simp only; rw [hj', hlast, hthis]; rfl)
        refine ⟨g1, g2 ?_⟩
        intro x x' hx hx' h0
        simp only at hx'
        rw [hj', hlast] at hx
        rw [hj', hthis] at hx'
        cases hx
        cases hx'
        exact origin_keep hk hf hn h0
      · have := hother s.fileIndex hj
        unfold getDecl getOrigin
        simp only [this]
        exact ⟨trivial, trivial⟩
    exact inlineStack_congr (inf := inf) (inf' := { inf with byOffset := inf.byOffset.dropLast ++ [m'] }) rfl (fun s hso => (hboth s hso).1) (fun s hso => (hboth s hso).2) lm rm a

/-! ## Examples -/

/-- A used function at 40 whose abstract origin at 20 has its declaration at 10; an unused function at 30 and its origin at 25. -/
def exMap : OMap Nat Sub := [(10, { inlined := false, parent := none, ranges := [], name := [102], callLine := 7, offset := 10, fileIndex := 1 }),
  (20, { inlined := false, parent := none, ranges := [], spec := 10, offset := 20, fileIndex := 1 }),
  (25, { inlined := false, parent := none, ranges := [], name := [103], offset := 25, fileIndex := 1 }),
  (30, { inlined := false, parent := none, ranges := [(1, 5)], origin := 25, offset := 30, fileIndex := 1 }),
  (40, { inlined := false, parent := none, ranges := [(8, 9)], origin := 20, offset := 40, fileIndex := 1 })]

def exInfo : Info := ⟨[{ inlined := false, parent := none, ranges := [(8, 9)], origin := 20, offset := 40, fileIndex := 1 }], [[], exMap]⟩

theorem ex_cleanup : OMap.Sorted exMap ∧ (cleanup exMap fun k => k == 40).map (fun m => m.map Prod.fst) = some [10, 20, 40] ∧
    (endSplit exInfo fun k => k == 40).isSome ∧ ∀ s ∈ exInfo.order, OMap.find? exMap s.offset = some s ∧ (s.offset == 40) = true := by
  refine ⟨by unfold OMap.Sorted; decide +kernel, by decide +kernel, by decide +kernel, by decide +kernel⟩

/-- Circular references: two subprograms that refer to each other. -/
theorem ex_circle : (cleanup [(10, { inlined := false, parent := none, ranges := [], spec := 20 }), (20, { inlined := false, parent := none, ranges := [], origin := 10 }),
    (30, { inlined := false, parent := none, ranges := [], origin := 10 })] fun k => k == 10).map (fun m => m.map Prod.fst) = some [10, 20] := by
  decide +kernel

/-- Not claimed: a reference to what is not in the map of the unit, such as one to another unit, is undefined. -/
theorem reference_violated : (cleanup [(10, { inlined := false, parent := none, ranges := [], origin := 50 })] fun k => k == 10) = none := by
  decide +kernel

end Verif.Cleanup

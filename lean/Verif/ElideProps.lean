import Verif.Elide
import Verif.MergeProps
import Mathlib.Algebra.BigOperators.Group.Finset.Basic
import Mathlib.Algebra.BigOperators.Group.Finset.Piecewise

/-!
# Property C12: suffix elision
-/
namespace Verif.SymbolMap

/-! ## Names -/

theorem rfind_le (pat : Name) (s : Name) (i : Nat) (h : rfind pat s = some i) :
    pat <+: s.drop i ∧ i ≤ s.length := by
  induction s generalizing i with
  | nil =>
    simp only [rfind] at h
    split at h
    · rename_i hp; cases h; simp [hp]
    · cases h
  | cons c t ih =>
    simp only [rfind] at h
    cases hr : rfind pat t with
    | some j =>
      rw [hr] at h
      cases h
      have := ih j hr
      exact ⟨by simpa using this.1, by simp; exact this.2⟩
    | none =>
      rw [hr] at h
      simp only at h
      split at h
      · rename_i hp
        cases h
        exact ⟨by simpa using List.isPrefixOf_iff_prefix.1 hp, by simp⟩
      · cases h

theorem stripLast_sublist (s pat : Name) : (stripLast s pat).Sublist s := by
  unfold stripLast
  split
  · exact List.Sublist.refl _
  · rename_i i _
    have h : s.take i ++ s.drop i = s := List.take_append_drop i s
    conv_rhs => rw [← h]
    refine List.Sublist.append (List.Sublist.refl _) ?_
    rw [← List.drop_drop]
    exact List.drop_sublist _ _

theorem stripTwoDots_sublist (s pat : Name) : (stripTwoDots s pat).Sublist s := by
  unfold stripTwoDots
  split
  · exact List.Sublist.refl _
  · rename_i i _
    have h : s.take i ++ s.drop i = s := List.take_append_drop i s
    conv_rhs => rw [← h]
    refine List.Sublist.append (List.Sublist.refl _) ?_
    rw [← List.drop_drop]
    exact (List.dropWhile_sublist _).trans (List.drop_sublist _ _)

/-- C12 (names): under every policy the original name is obtained from the name by deleting
characters only; nothing is invented. -/
theorem original_name_sublist (pol : Policy) (n : Name) : (originalName pol n).Sublist n := by
  cases pol with
  | none => exact List.Sublist.refl _
  | all =>
    simp only [originalName]
    split
    · exact List.Sublist.refl _
    · exact List.takeWhile_sublist _
  | selected =>
    simp only [originalName]
    have : ∀ (l : List Name) (c : Name), (l.foldl (stripSelected n) c).Sublist c := by
      intro l
      induction l with
      | nil => intro c; exact List.Sublist.refl _
      | cons a t ih =>
        intro c
        rw [List.foldl_cons]
        refine (ih _).trans ?_
        unfold stripSelected
        split
        · exact stripLast_sublist _ _
        · split
          · exact stripTwoDots_sublist _ _
          · exact List.Sublist.refl _
    exact this _ _

theorem rfind_none_of_no_dot (pat s : Name) (hp : pat.head? = some dot) (h : dot ∉ s) :
    rfind pat s = none := by
  cases hr : rfind pat s with
  | none => rfl
  | some i =>
    have := (rfind_le pat s i hr).1
    cases pat with
    | nil => simp at hp
    | cons c t =>
      simp at hp
      subst hp
      have : dot ∈ s.drop i := this.subset List.mem_cons_self
      exact absurd (List.mem_of_mem_drop this) h

theorem takeWhile_self (p : UInt8 → Bool) (l : Name) (h : ∀ x ∈ l, p x) : l.takeWhile p = l := by
  induction l with
  | nil => rfl
  | cons a t ih =>
    rw [List.takeWhile_cons, if_pos (h a List.mem_cons_self),
      ih (fun x hx => h x (List.mem_cons_of_mem _ hx))]

theorem mem_takeWhile (p : UInt8 → Bool) (l : Name) (x : UInt8) (h : x ∈ l.takeWhile p) : p x := by
  induction l with
  | nil => cases h
  | cons a t ih =>
    rw [List.takeWhile_cons] at h
    split at h
    · rename_i ha
      rcases List.mem_cons.1 h with rfl | h
      · exact ha
      · exact ih h
    · cases h

/-- C12 (names): a name without any '.' is its own original name under every policy. -/
theorem original_name_of_no_dot (pol : Policy) (n : Name) (h : dot ∉ n) :
    originalName pol n = n := by
  cases pol with
  | none => rfl
  | all =>
    simp only [originalName]
    split
    · rfl
    · apply takeWhile_self
      intro x hx
      simp only [bne_iff_ne, ne_eq]
      rintro rfl
      exact h hx
  | selected =>
    have hs : ∀ s ∈ selectedSuffixes, stripSelected n n s = n := by
      intro s hs
      have hd : s.head? = some dot := by
        simp only [selectedSuffixes, List.mem_cons, List.not_mem_nil, or_false] at hs
        rcases hs with rfl | rfl | rfl | rfl | rfl <;> rfl
      unfold stripSelected stripLast stripTwoDots
      rw [rfind_none_of_no_dot s n hd h]
      simp
    simp only [originalName]
    have : ∀ l : List Name, (∀ s ∈ l, stripSelected n n s = n) → l.foldl (stripSelected n) n = n := by
      intro l
      induction l with
      | nil => intro _; rfl
      | cons a t ih =>
        intro hl
        rw [List.foldl_cons, hl a List.mem_cons_self]
        exact ih (fun s hs => hl s (List.mem_cons_of_mem _ hs))
    exact this _ hs

/-- C12 (names, policy `all`): the original name is the part before the first '.', a nonempty
prefix of any nonempty name; names starting with '.' are kept. -/
theorem original_name_all (n : Name) :
    originalName .all n <+: n ∧ (n ≠ [] → originalName .all n ≠ []) ∧
    (n.head? ≠ some dot → dot ∉ originalName .all n) ∧
    (n.head? = some dot → originalName .all n = n) := by
  refine ⟨?_, ?_, ?_, ?_⟩
  · simp only [originalName]
    split
    · exact List.prefix_refl _
    · exact List.takeWhile_prefix _
  · intro hn
    cases n with
    | nil => exact absurd rfl hn
    | cons c t =>
      simp only [originalName]
      by_cases h : (c :: t).head? = some dot
      · rw [if_pos h]; simp
      · rw [if_neg h]
        have : c ≠ dot := fun e => h (by rw [e]; rfl)
        simp [List.takeWhile_cons, this]
  · intro hn
    simp only [originalName, if_neg hn]
    intro hd
    have := mem_takeWhile _ _ _ hd
    simp at this
  · intro hn
    simp only [originalName, if_pos hn]

/-- The base names are stable: taking the original name twice changes nothing (policies `all` and
`none`). -/
theorem original_name_idem_partial (pol : Policy) (hp : pol ≠ .selected) (n : Name) :
    originalName pol (originalName pol n) = originalName pol n := by
  cases pol with
  | selected => exact absurd rfl hp
  | none => rfl
  | all =>
    by_cases h : n.head? = some dot
    · rw [(original_name_all n).2.2.2 h, (original_name_all n).2.2.2 h]
    · exact original_name_of_no_dot .all _ ((original_name_all n).2.2.1 h)

/-- C12 violated for `selected`: the base name of `a.cold.cold` is `a.cold`, which is itself not a
base name; and `.cold` is reduced to the empty name. -/
theorem original_name_selected_violated :
    (∃ n, originalName .selected (originalName .selected n) ≠ originalName .selected n) ∧
    (∃ n, n ≠ [] ∧ originalName .selected n = []) := by
  refine ⟨⟨97 :: (sufCold ++ sufCold), ?_⟩, ⟨sufCold, ?_, ?_⟩⟩ <;> decide

/-! ## Merging -/

/-- Store invariant: sorted map, allocated pointers, well-formed symbols. -/
structure Store.Inv (st : Store) : Prop where
  sorted : OMap.Sorted st.map
  alloc : ∀ k i, OMap.find? st.map k = some i → i < st.next
  wf : ∀ i, i < st.next → (st.heap i).WF

/-- The symbols referenced from the map, each once (aliases share one symbol). -/
def Store.live (st : Store) : Finset Nat := (st.map.map Prod.snd).toFinset

theorem Store.mem_live {st : Store} (h : OMap.Sorted st.map) (i : Nat) :
    i ∈ st.live ↔ ∃ k, OMap.find? st.map k = some i := by
  unfold Store.live
  rw [List.mem_toFinset, List.mem_map]
  constructor
  · rintro ⟨⟨k, v⟩, hm, rfl⟩
    exact ⟨k, OMap.find?_some_of_mem h hm⟩
  · rintro ⟨k, hk⟩
    exact ⟨(k, i), OMap.mem_of_find?_some hk, rfl⟩

theorem sorted_map_vals {m : OMap Name Nat} (h : OMap.Sorted m) (g : Nat → Nat) :
    OMap.Sorted (m.map (fun p => (p.1, g p.2))) := by
  unfold OMap.Sorted at *
  rw [List.pairwise_map]
  exact h

theorem find?_map_vals (m : OMap Name Nat) (g : Nat → Nat) (k : Name) :
    OMap.find? (m.map (fun p => (p.1, g p.2))) k = (OMap.find? m k).map g := by
  induction m with
  | nil => rfl
  | cons a t ih =>
    obtain ⟨k', v⟩ := a
    simp only [List.map_cons, OMap.find?]
    split
    · rfl
    · exact ih

/-- What one elision step does, in terms of lookups. -/
theorem elideOne_spec (pol : Policy) (st : Store) (hi : st.Inv) (name : Name) (sym : Nat)
    (hf : OMap.find? st.map name = some sym) (hne : originalName pol name ≠ name) :
    ∃ d st', elideOne pol st name = some st' ∧ st'.Inv ∧
      (∀ k, OMap.find? st'.map k =
        if k = originalName pol name then some d else if k = name then none
        else (OMap.find? st.map k).map (fun i => if i = sym then d else i)) ∧
      (∀ i, i ≠ d → st'.heap i = st.heap i) ∧
      ((d = st.next ∧ (OMap.find? st.map (originalName pol name) = none ∨
          OMap.find? st.map (originalName pol name) = some sym) ∧
          st'.heap d = Sym.new.merge (st.heap sym)) ∨
       (OMap.find? st.map (originalName pol name) = some d ∧ d ≠ sym ∧
          st'.heap d = (st.heap d).merge (st.heap sym))) := by
  set orig := originalName pol name with horig
  have hsym := hi.alloc _ _ hf
  have hse := hi.sorted.erase name
  have hfo : OMap.find? (OMap.erase name st.map) orig = OMap.find? st.map orig := by
    rw [OMap.find?_erase hi.sorted, if_neg hne]
  -- the fresh-symbol case, common to two branches
  have hfresh : (OMap.find? st.map orig = none ∨ OMap.find? st.map orig = some sym) →
      ∀ st', st' = (⟨(OMap.set orig st.next (OMap.erase name st.map)).map
          (fun p => (p.1, if p.2 = sym then st.next else p.2)),
        setHeap (setHeap st.heap st.next Sym.new) st.next (Sym.new.merge (st.heap sym)),
        st.next + 1⟩ : Store) → 
      st'.Inv ∧ (∀ k, OMap.find? st'.map k =
        if k = orig then some st.next else if k = name then none
        else (OMap.find? st.map k).map (fun i => if i = sym then st.next else i)) ∧
      (∀ i, i ≠ st.next → st'.heap i = st.heap i) ∧
      st'.heap st.next = Sym.new.merge (st.heap sym) := by
    rintro hcase st' rfl
    have hs2 : OMap.Sorted (OMap.set orig st.next (OMap.erase name st.map)) := hse.upsert _ _
    have hlk : ∀ k, OMap.find? ((OMap.set orig st.next (OMap.erase name st.map)).map
          (fun p => (p.1, if p.2 = sym then st.next else p.2))) k =
        if k = orig then some st.next else if k = name then none
        else (OMap.find? st.map k).map (fun i => if i = sym then st.next else i) := by
      intro k
      rw [find?_map_vals _ (fun i => if i = sym then st.next else i), OMap.set, OMap.find?_upsert hse, OMap.find?_erase hi.sorted]
      by_cases h1 : k = orig
      · rw [if_pos h1, if_pos h1]
        simp
      · rw [if_neg h1, if_neg h1]
        by_cases h2 : k = name
        · rw [if_pos h2, if_pos h2]; rfl
        · rw [if_neg h2, if_neg h2]
    refine ⟨⟨sorted_map_vals hs2 (fun i => if i = sym then st.next else i), ?_, ?_⟩, hlk, ?_, ?_⟩
    · intro k i hk
      simp only at hk
      rw [hlk] at hk
      split at hk
      · cases hk; simp
      · split at hk
        · cases hk
        · obtain ⟨j, hj, rfl⟩ := Option.map_eq_some_iff.1 hk
          have := hi.alloc _ _ hj
          simp only
          split <;> omega
    · intro i hlt
      simp only [setHeap]
      split
      · exact Sym.WF.merge _ Sym.WF.new _ (hi.wf _ hsym)
      · exact hi.wf _ (by simp only at hlt; omega)
    · intro i hne'
      simp [setHeap, hne']
    · simp [setHeap]
  unfold elideOne
  rw [hf]
  simp only [← horig, hfo]
  cases ho : OMap.find? st.map orig with
  | none =>
    obtain ⟨a, b, c, d⟩ := hfresh (Or.inl ho) _ rfl
    exact ⟨st.next, _, rfl, a, b, c, Or.inl ⟨rfl, Or.inl rfl, d⟩⟩
  | some d =>
    simp only
    by_cases hsd : sym = d
    · rw [if_pos hsd]
      subst hsd
      obtain ⟨a, b, c, d'⟩ := hfresh (Or.inr ho) _ rfl
      exact ⟨st.next, _, rfl, a, b, c, Or.inl ⟨rfl, Or.inr rfl, d'⟩⟩
    · rw [if_neg hsd]
      have hda := hi.alloc _ _ ho
      have hlk : ∀ k, OMap.find? ((OMap.erase name st.map).map
            (fun p => (p.1, if p.2 = sym then d else p.2))) k =
          if k = orig then some d else if k = name then none
          else (OMap.find? st.map k).map (fun i => if i = sym then d else i) := by
        intro k
        rw [find?_map_vals _ (fun i => if i = sym then d else i), OMap.find?_erase hi.sorted]
        by_cases h1 : k = orig
        · rw [if_pos h1, h1, if_neg hne, ho]
          simp
        · rw [if_neg h1]
          by_cases h2 : k = name
          · rw [if_pos h2, if_pos h2]; rfl
          · rw [if_neg h2, if_neg h2]
      refine ⟨d, _, rfl, ⟨sorted_map_vals hse (fun i => if i = sym then d else i), ?_, ?_⟩, hlk, ?_, Or.inr ⟨rfl, Ne.symm hsd, ?_⟩⟩
      · intro k i hk
        simp only at hk
        rw [hlk] at hk
        split at hk
        · cases hk; exact hda
        · split at hk
          · cases hk
          · obtain ⟨j, hj, rfl⟩ := Option.map_eq_some_iff.1 hk
            have := hi.alloc _ _ hj
            simp only
            split
            · exact hda
            · exact this
      · intro i hlt
        simp only [setHeap]
        split
        · exact Sym.WF.merge _ (hi.wf _ hda) _ (hi.wf _ hsym)
        · exact hi.wf _ hlt
      · intro i hne'
        simp [setHeap, hne']
      · simp [setHeap]

/-- A number read off a symbol profile that merging adds up. -/
structure Additive (f : Sym → Nat) : Prop where
  zero : f Sym.new = 0
  add : ∀ a b, a.WF → b.WF → f (a.merge b) = f a + f b

theorem additive_total (p : List Callsite) : Additive (·.totalAt p) where
  zero := by simp only [Sym.totalAt, Sym.new_node?]; split <;> rfl
  add a b ha hb := (merge_adds a b ha hb p).2.1

theorem additive_head (p : List Callsite) : Additive (·.headAt p) where
  zero := by simp only [Sym.headAt, Sym.new_node?]; split <;> rfl
  add a b ha hb := (merge_adds a b ha hb p).2.2.1

theorem additive_count (p : List Callsite) (loc : Nat) : Additive (·.countAt p loc) where
  zero := by simp only [Sym.countAt, Sym.new_node?]; split <;> rfl
  add a b ha hb := ((merge_adds a b ha hb p).2.2.2 loc).1

theorem additive_target (p : List Callsite) (loc : Nat) (n : Name) :
    Additive (·.targetAt p loc n) where
  zero := by simp only [Sym.targetAt, Sym.new_node?]; split <;> rfl
  add a b ha hb := ((merge_adds a b ha hb p).2.2.2 loc).2.2 n

theorem elideOne_conserves (pol : Policy) (st : Store) (hi : st.Inv) (name : Name) (sym : Nat)
    (hf : OMap.find? st.map name = some sym) (hne : originalName pol name ≠ name) :
    ∃ st', elideOne pol st name = some st' ∧ st'.Inv ∧
      (∀ k, k ≠ name → (OMap.find? st.map k).isSome → (OMap.find? st'.map k).isSome) ∧
      ∀ f, Additive f → ∑ i ∈ st'.live, f (st'.heap i) = ∑ i ∈ st.live, f (st.heap i) := by
  obtain ⟨d, st', he, hinv, hlk, hheap, hcase⟩ := elideOne_spec pol st hi name sym hf hne
  refine ⟨st', he, hinv, ?_, ?_⟩
  · intro k hk hs
    rw [hlk, if_neg hk]
    split
    · rfl
    · simpa using hs
  · intro f hadd
    have hsl : sym ∈ st.live := (Store.mem_live hi.sorted _).2 ⟨name, hf⟩
    have hlive : st'.live = insert d (st.live.erase sym) := by
      ext i
      rw [Store.mem_live hinv.sorted, Finset.mem_insert, Finset.mem_erase, Store.mem_live hi.sorted]
      constructor
      · rintro ⟨k, hk⟩
        rw [hlk] at hk
        split at hk
        · left; cases hk; rfl
        · split at hk
          · cases hk
          · obtain ⟨j, hj, rfl⟩ := Option.map_eq_some_iff.1 hk
            by_cases hjs : j = sym
            · left; simp [hjs]
            · right; simp only [if_neg hjs]; exact ⟨hjs, k, hj⟩
      · rintro (rfl | ⟨hne', k, hk⟩)
        · exact ⟨originalName pol name, by rw [hlk, if_pos rfl]⟩
        · by_cases hko : k = originalName pol name
          · refine ⟨originalName pol name, ?_⟩
            rw [hlk, if_pos rfl]
            rw [hko] at hk
            rcases hcase with ⟨_, h | h, _⟩ | ⟨h, _, _⟩
            · rw [h] at hk; cases hk
            · rw [h] at hk; cases hk; exact absurd rfl hne'
            · rw [h] at hk; exact hk
          · refine ⟨k, ?_⟩
            rw [hlk, if_neg hko, if_neg (by rintro rfl; rw [hf] at hk; cases hk; exact hne' rfl), hk]
            simp [hne']
    have hsw : (st.heap sym).WF := hi.wf _ (hi.alloc _ _ hf)
    rw [hlive]
    rcases hcase with ⟨hd, -, hh⟩ | ⟨hd, hds, hh⟩
    · have hnl : d ∉ st.live := by
        intro h
        obtain ⟨k, hk⟩ := (Store.mem_live hi.sorted _).1 h
        have := hi.alloc _ _ hk
        omega
      rw [Finset.sum_insert (fun h => hnl (Finset.mem_of_mem_erase h)), hh,
        hadd.add _ _ Sym.WF.new hsw, hadd.zero, Nat.zero_add]
      rw [← Finset.add_sum_erase st.live _ hsl]
      congr 1
      apply Finset.sum_congr rfl
      intro i hi'
      rw [hheap i (fun e => hnl (e ▸ Finset.mem_of_mem_erase hi'))]
    · have hdl : d ∈ st.live := (Store.mem_live hi.sorted _).2 ⟨_, hd⟩
      have hde : d ∈ st.live.erase sym := Finset.mem_erase.2 ⟨hds, hdl⟩
      rw [Finset.insert_eq_of_mem hde, ← Finset.add_sum_erase _ _ hde, hh,
        hadd.add _ _ (hi.wf _ (hi.alloc _ _ hd)) hsw, ← Finset.add_sum_erase st.live _ hsl,
        ← Finset.add_sum_erase (st.live.erase sym) (fun i => f (st.heap i)) hde]
      have : ∑ x ∈ (st.live.erase sym).erase d, f (st'.heap x) =
          ∑ x ∈ (st.live.erase sym).erase d, f (st.heap x) := by
        apply Finset.sum_congr rfl
        intro i hi'
        rw [hheap i (Finset.ne_of_mem_erase hi')]
      rw [this]
      omega

theorem elide_loop (pol : Policy) (l : List Name) (hn : l.Nodup) (st : Store) (hi : st.Inv)
    (hl : ∀ n ∈ l, originalName pol n ≠ n ∧ (OMap.find? st.map n).isSome) :
    ∃ st', l.foldlM (elideOne pol) st = some st' ∧ st'.Inv ∧
      ∀ f, Additive f → ∑ i ∈ st'.live, f (st'.heap i) = ∑ i ∈ st.live, f (st.heap i) := by
  induction l generalizing st with
  | nil => exact ⟨st, rfl, hi, fun f _ => rfl⟩
  | cons n t ih =>
    have h0 := hl n List.mem_cons_self
    obtain ⟨sym, hs⟩ := Option.isSome_iff_exists.1 h0.2
    obtain ⟨st1, h1, h2, h3, h4⟩ := elideOne_conserves pol st hi n sym hs h0.1
    rw [List.nodup_cons] at hn
    obtain ⟨st', g1, g2, g3⟩ := ih hn.2 st1 h2 (fun m hm => by
      have := hl m (List.mem_cons_of_mem _ hm)
      exact ⟨this.1, h3 m (by rintro rfl; exact hn.1 hm) this.2⟩)
    refine ⟨st', ?_, g2, fun f hf => by rw [g3 f hf, h4 f hf]⟩
    rw [List.foldlM_cons, h1]
    exact g1

theorem elideSet_ok (pol : Policy) (st : Store) (hi : st.Inv) :
    (elideSet pol st.map).Nodup ∧
    ∀ n ∈ elideSet pol st.map, originalName pol n ≠ n ∧ (OMap.find? st.map n).isSome := by
  have hnd : (st.map.map Prod.fst).Nodup := by
    have := hi.sorted
    unfold OMap.Sorted at this
    rw [List.Nodup, List.pairwise_map]
    exact this.imp (fun h => ne_of_lt h)
  refine ⟨hnd.filter _, fun n hn => ?_⟩
  simp only [elideSet, List.mem_filter, decide_eq_true_eq] at hn
  exact ⟨hn.2, (OMap.mem_keys_iff n).1 hn.1⟩

/-- C12 (conservation, aliases allowed): eliding suffixes never aborts and conserves the total
count, entry count, location count and call-target count summed over the distinct symbols of the
map, at every inline path. -/
theorem elide_conserves (pol : Policy) (st : Store) (hi : st.Inv) :
    ∃ st', elide pol st = some st' ∧ st'.Inv ∧
      (∀ path, ∑ i ∈ st'.live, (st'.heap i).totalAt path = ∑ i ∈ st.live, (st.heap i).totalAt path) ∧
      (∀ path, ∑ i ∈ st'.live, (st'.heap i).headAt path = ∑ i ∈ st.live, (st.heap i).headAt path) ∧
      (∀ path loc, ∑ i ∈ st'.live, (st'.heap i).countAt path loc =
        ∑ i ∈ st.live, (st.heap i).countAt path loc) ∧
      (∀ path loc n, ∑ i ∈ st'.live, (st'.heap i).targetAt path loc n =
        ∑ i ∈ st.live, (st.heap i).targetAt path loc n) := by
  obtain ⟨h1, h2⟩ := elideSet_ok pol st hi
  obtain ⟨st', g1, g2, g3⟩ := elide_loop pol (elideSet pol st.map) h1 st hi h2
  exact ⟨st', g1, g2, fun p => g3 _ (additive_total p), fun p => g3 _ (additive_head p),
    fun p loc => g3 _ (additive_count p loc), fun p loc n => g3 _ (additive_target p loc n)⟩

/-! ## Exact result when names do not share symbols -/

/-- No two names share a symbol. -/
def Store.NoAlias (st : Store) : Prop :=
  ∀ k₁ k₂ i, OMap.find? st.map k₁ = some i → OMap.find? st.map k₂ = some i → k₁ = k₂

/-- The names in the map. -/
def Store.names (st : Store) : Finset Name := (st.map.map Prod.fst).toFinset

theorem Store.mem_names (st : Store) (n : Name) :
    n ∈ st.names ↔ (OMap.find? st.map n).isSome := by
  rw [Store.names, List.mem_toFinset, OMap.mem_keys_iff]

/-- The symbol a name refers to (an empty symbol when the name is unknown). -/
def Store.sym (st : Store) (n : Name) : Sym :=
  match OMap.find? st.map n with
  | none => Sym.new
  | some i => st.heap i

/-- Loop invariant: `done` names were replaced by their base name. -/
structure Mid (pol : Policy) (st₀ st : Store) (f : Sym → Nat) (done : Name → Bool) : Prop where
  inv : st.Inv
  noalias : st.NoAlias
  keys : ∀ k, (OMap.find? st.map k).isSome ↔
    ∃ n ∈ st₀.names, (if done n then originalName pol n else n) = k
  vals : ∀ k, (OMap.find? st.map k).isSome → f (st.sym k) =
    ∑ n ∈ st₀.names, if (if done n then originalName pol n else n) = k then f (st₀.sym n) else 0

theorem elideOne_mid (pol : Policy) (st₀ st : Store) (f : Sym → Nat) (hadd : Additive f)
    (done : Name → Bool)
    (hid : ∀ n ∈ st₀.names, originalName pol (originalName pol n) = originalName pol n)
    (h : Mid pol st₀ st f done) (name : Name) (hn : name ∈ st₀.names) (hd : done name = false)
    (hne : originalName pol name ≠ name) :
    ∃ st', elideOne pol st name = some st' ∧
      Mid pol st₀ st' f (fun n => done n || decide (n = name)) := by
  have hsome : (OMap.find? st.map name).isSome := (h.keys name).2 ⟨name, hn, by simp [hd]⟩
  obtain ⟨sym, hf⟩ := Option.isSome_iff_exists.1 hsome
  obtain ⟨d, st', he, hinv, hlk, hheap, hcase⟩ := elideOne_spec pol st h.inv name sym hf hne
  -- only `name` itself is currently mapped to `name`
  have honly : ∀ m ∈ st₀.names, (if done m then originalName pol m else m) = name → m = name := by
    intro m hm hg
    by_cases hdm : done m
    · rw [if_pos hdm] at hg
      have := hid m hm
      rw [hg] at this
      exact absurd this hne
    · simpa [hdm] using hg
  have hother : ∀ k i, k ≠ name → OMap.find? st.map k = some i → i ≠ sym := by
    rintro k i hk hki rfl
    exact hk (h.noalias _ _ _ hki hf)
  have hlk' : ∀ k, OMap.find? st'.map k = if k = originalName pol name then some d
      else if k = name then none else OMap.find? st.map k := by
    intro k
    rw [hlk]
    by_cases h1 : k = originalName pol name
    · simp [h1]
    · rw [if_neg h1, if_neg h1]
      by_cases h2 : k = name
      · simp [h2]
      · rw [if_neg h2, if_neg h2]
        cases hk : OMap.find? st.map k with
        | none => rfl
        | some i => simp [hother k i h2 hk]
  -- `d` is referenced by the base name only
  have hdn : ∀ k, k ≠ originalName pol name → k ≠ name → OMap.find? st.map k ≠ some d := by
    intro k h1 h2 hk
    rcases hcase with ⟨hd', _, _⟩ | ⟨hd', _, _⟩
    · have := h.inv.alloc _ _ hk; omega
    · exact h1 (h.noalias _ _ _ hk hd')
  have hsymne : ∀ k, k ≠ originalName pol name → k ≠ name → st'.sym k = st.sym k := by
    intro k h1 h2
    unfold Store.sym
    rw [hlk', if_neg h1, if_neg h2]
    cases hk : OMap.find? st.map k with
    | none => rfl
    | some i =>
      simp only
      exact hheap i (fun e => hdn k h1 h2 (e ▸ hk))
  have hnamesym : st.sym name = st.heap sym := by simp [Store.sym, hf]
  have horigval : f (st'.sym (originalName pol name)) =
      f (st.sym (originalName pol name)) + f (st.heap sym) := by
    have hs' : st'.sym (originalName pol name) = st'.heap d := by
      simp [Store.sym, hlk']
    have hsw := h.inv.wf _ (h.inv.alloc _ _ hf)
    rw [hs']
    rcases hcase with ⟨_, ho | ho, hh⟩ | ⟨ho, _, hh⟩
    · rw [hh, hadd.add _ _ Sym.WF.new hsw]; simp [Store.sym, ho]
    · exact absurd (h.noalias _ _ _ ho hf) hne
    · rw [hh, hadd.add _ _ (h.inv.wf _ (h.inv.alloc _ _ ho)) hsw]; simp [Store.sym, ho]
  refine ⟨st', he, hinv, ?_, ?_, ?_⟩
  · -- no aliases
    intro k₁ k₂ i h1 h2
    rw [hlk'] at h1 h2
    split at h1
    · rename_i e1
      cases h1
      split at h2
      · rename_i e2; rw [e1, e2]
      · rename_i e2
        split at h2
        · cases h2
        · rename_i e3; exact absurd h2 (hdn _ e2 e3)
    · rename_i e1
      split at h1
      · cases h1
      · rename_i e1'
        split at h2
        · cases h2; exact absurd h1 (hdn _ e1 e1')
        · split at h2
          · cases h2
          · exact h.noalias _ _ _ h1 h2
  · -- keys
    intro k
    rw [hlk']
    by_cases h1 : k = originalName pol name
    · simp only [h1, if_true, Option.isSome_some, true_iff]
      exact ⟨name, hn, by simp⟩
    · rw [if_neg h1]
      by_cases h2 : k = name
      · subst h2
        simp only [if_true, Option.isSome_none, Bool.false_eq_true, false_iff]
        rintro ⟨m, hm, hg⟩
        by_cases hmk : m = k
        · subst hmk; simp at hg; exact hne hg
        · simp only [hmk, decide_false, Bool.or_false] at hg
          exact hmk (honly m hm hg)
      · rw [if_neg h2, h.keys]
        constructor
        · rintro ⟨m, hm, hg⟩
          refine ⟨m, hm, ?_⟩
          by_cases hmn : m = name
          · subst hmn; simp [hd] at hg; exact absurd hg.symm h2
          · simpa [hmn] using hg
        · rintro ⟨m, hm, hg⟩
          refine ⟨m, hm, ?_⟩
          by_cases hmn : m = name
          · subst hmn; simp at hg; exact absurd hg.symm h1
          · simpa [hmn] using hg
  · -- values
    intro k hk
    have hsplit : ∀ g : Name → Nat, ∑ n ∈ st₀.names, g n = g name + ∑ n ∈ st₀.names.erase name, g n :=
      fun g => (Finset.add_sum_erase _ _ hn).symm
    have hrest : ∀ k, ∑ n ∈ st₀.names.erase name,
        (if (if (done n || decide (n = name)) then originalName pol n else n) = k
          then f (st₀.sym n) else 0) =
        ∑ n ∈ st₀.names.erase name,
        (if (if done n then originalName pol n else n) = k then f (st₀.sym n) else 0) := by
      intro k
      apply Finset.sum_congr rfl
      intro m hm
      have : m ≠ name := Finset.ne_of_mem_erase hm
      simp [this]
    have hvalname : f (st.heap sym) = f (st₀.sym name) := by
      have := h.vals name hsome
      rw [hnamesym, hsplit] at this
      rw [this]
      simp only [hd, Bool.false_eq_true, if_false, if_true]
      have hz : ∑ n ∈ st₀.names.erase name,
        (if (if done n then originalName pol n else n) = name then f (st₀.sym n) else 0) = 0 := by
        apply Finset.sum_eq_zero
        intro m hm
        rw [if_neg]
        intro hg
        exact Finset.ne_of_mem_erase hm (honly m (Finset.mem_of_mem_erase hm) hg)
      rw [hz]; rfl
    rw [hsplit, hrest]
    by_cases h1 : k = originalName pol name
    · subst h1
      rw [horigval, hvalname]
      simp only [decide_true, Bool.or_true, if_true]
      by_cases ho : (OMap.find? st.map (originalName pol name)).isSome
      · have := h.vals _ ho
        rw [hsplit] at this
        simp only [hd, Bool.false_eq_true, if_false, if_neg (Ne.symm hne)] at this
        rw [this]
        omega
      · have hz : f (st.sym (originalName pol name)) = 0 := by
          have : OMap.find? st.map (originalName pol name) = none := by simpa using ho
          simp [Store.sym, this, hadd.zero]
        have hz2 : ∑ n ∈ st₀.names.erase name,
          (if (if done n then originalName pol n else n) = originalName pol name
            then f (st₀.sym n) else 0) = 0 := by
          apply Finset.sum_eq_zero
          intro m hm
          rw [if_neg]
          intro hg
          exact ho ((h.keys _).2 ⟨m, Finset.mem_of_mem_erase hm, hg⟩)
        rw [hz, hz2]; omega
    · by_cases h2 : k = name
      · rw [hlk', if_neg h1, if_pos h2] at hk
        cases hk
      · rw [hsymne k h1 h2]
        rw [hlk', if_neg h1, if_neg h2] at hk
        have := h.vals k hk
        rw [hsplit] at this
        rw [this]
        simp only [hd, Bool.false_eq_true, if_false, if_neg (Ne.symm h2), decide_true, Bool.or_true,
          if_true, if_neg (Ne.symm h1)]

theorem elide_mid_loop (pol : Policy) (st₀ : Store) (f : Sym → Nat) (hadd : Additive f)
    (hid : ∀ n ∈ st₀.names, originalName pol (originalName pol n) = originalName pol n)
    (l : List Name) (hnd : l.Nodup) (st : Store) (done : Name → Bool)
    (h : Mid pol st₀ st f done)
    (hl : ∀ n ∈ l, n ∈ st₀.names ∧ done n = false ∧ originalName pol n ≠ n) :
    ∃ st', l.foldlM (elideOne pol) st = some st' ∧
      Mid pol st₀ st' f (fun n => done n || l.contains n) := by
  induction l generalizing st done with
  | nil => exact ⟨st, rfl, by simpa using h⟩
  | cons n t ih =>
    obtain ⟨a, b, c⟩ := hl n List.mem_cons_self
    rw [List.nodup_cons] at hnd
    obtain ⟨st1, e1, m1⟩ := elideOne_mid pol st₀ st f hadd done hid h n a b c
    obtain ⟨st', e2, m2⟩ := ih hnd.2 st1 _ m1 (fun m hm => by
      have := hl m (List.mem_cons_of_mem _ hm)
      refine ⟨this.1, ?_, this.2.2⟩
      have : m ≠ n := by rintro rfl; exact hnd.1 hm
      simp [this, (hl m (List.mem_cons_of_mem _ hm)).2.1])
    refine ⟨st', ?_, ?_⟩
    · rw [List.foldlM_cons, e1]; exact e2
    · have : (fun x => done x || (n :: t).contains x) =
          (fun x => (done x || decide (x = n)) || t.contains x) := by
        funext x
        by_cases hx : x = n
        · simp [hx]
        · simp [hx]
      rw [this]; exact m2

/-- C12 (exact result): under a policy whose base names are stable (`all` and `none`, see
`original_name_idem_partial`), for a map whose names do not share symbols, elision succeeds; the names of the
result are exactly the base names of the original names; and the counts found under a base name are
the sums of the counts of all the original symbols with that base name. -/
theorem elide_exact (pol : Policy) (st : Store) (hi : st.Inv) (hna : st.NoAlias)
    (hp : pol ≠ .selected) :
    ∃ st', elide pol st = some st' ∧
      (∀ b, (OMap.find? st'.map b).isSome ↔ ∃ n ∈ st.names, originalName pol n = b) ∧
      (∀ b, (OMap.find? st'.map b).isSome → originalName pol b = b ∧
        (∀ path, (st'.sym b).totalAt path =
          ∑ n ∈ st.names with originalName pol n = b, (st.sym n).totalAt path) ∧
        (∀ path, (st'.sym b).headAt path =
          ∑ n ∈ st.names with originalName pol n = b, (st.sym n).headAt path) ∧
        (∀ path loc, (st'.sym b).countAt path loc =
          ∑ n ∈ st.names with originalName pol n = b, (st.sym n).countAt path loc) ∧
        (∀ path loc t, (st'.sym b).targetAt path loc t =
          ∑ n ∈ st.names with originalName pol n = b, (st.sym n).targetAt path loc t)) := by
  have hid := fun n (_ : n ∈ st.names) => original_name_idem_partial pol hp n
  obtain ⟨hnd, hset⟩ := elideSet_ok pol st hi
  have hstart : ∀ f, Additive f → Mid pol st st f (fun _ => false) := by
    intro f hf
    refine ⟨hi, hna, fun k => ?_, fun k hk => ?_⟩
    · simp [Store.mem_names]
    · have hk' := (Store.mem_names st k).2 hk
      simp only [Bool.false_eq_true, if_false]
      rw [Finset.sum_ite_eq' st.names k (fun n => f (st.sym n)), if_pos hk']
  have hg : ∀ n ∈ st.names, (if (false || (elideSet pol st.map).contains n) then originalName pol n
      else n) = originalName pol n := by
    intro n hn
    by_cases h : n ∈ elideSet pol st.map
    · simp [h]
    · have : originalName pol n = n := by
        by_contra hc
        exact h (by simp only [elideSet, List.mem_filter, decide_eq_true_eq]
                    exact ⟨by simpa [Store.names] using hn, hc⟩)
      simp [h, this]
  have hall : ∀ f, Additive f → ∃ st', elide pol st = some st' ∧
      (∀ b, (OMap.find? st'.map b).isSome ↔ ∃ n ∈ st.names, originalName pol n = b) ∧
      ∀ b, (OMap.find? st'.map b).isSome → f (st'.sym b) =
        ∑ n ∈ st.names with originalName pol n = b, f (st.sym n) := by
    intro f hf
    obtain ⟨st', e, m⟩ := elide_mid_loop pol st f hf hid (elideSet pol st.map) hnd st _ (hstart f hf)
      (fun n hn => ⟨(Store.mem_names st n).2 (hset n hn).2, rfl, (hset n hn).1⟩)
    refine ⟨st', e, fun b => ?_, fun b hb => ?_⟩
    · rw [m.keys]
      constructor
      · rintro ⟨n, hn, h⟩; exact ⟨n, hn, by rw [← h, hg n hn]⟩
      · rintro ⟨n, hn, h⟩; exact ⟨n, hn, by rw [hg n hn, h]⟩
    · rw [m.vals b hb, Finset.sum_filter]
      apply Finset.sum_congr rfl
      intro n hn
      rw [hg n hn]
  obtain ⟨st', e, hk, _⟩ := hall _ (additive_total [])
  have hall' : ∀ f, Additive f → ∀ b, (OMap.find? st'.map b).isSome → f (st'.sym b) =
        ∑ n ∈ st.names with originalName pol n = b, f (st.sym n) := by
    intro f hf
    obtain ⟨st'', e', _, hv⟩ := hall f hf
    rw [e] at e'
    cases e'
    exact hv
  refine ⟨st', e, hk, fun b hb => ⟨?_, fun p => hall' _ (additive_total p) b hb,
    fun p => hall' _ (additive_head p) b hb, fun p loc => hall' _ (additive_count p loc) b hb,
    fun p loc t => hall' _ (additive_target p loc t) b hb⟩⟩
  obtain ⟨n, _, rfl⟩ := (hk b).1 hb
  exact original_name_idem_partial pol hp n

/-- Non-vacuity: a map with `f`, `f.cold` and `g.x`, no sharing. -/
def exampleStore : Store :=
  ⟨[([102], 0), (102 :: sufCold, 1), ([103, 46, 120], 2)],
   fun i => if i = 0 then exampleA else if i = 1 then exampleB else exampleA, 3⟩

example : exampleStore.Inv ∧ exampleStore.NoAlias := by
  have hf : ∀ k i, OMap.find? exampleStore.map k = some i →
      (k, i) ∈ [([102], 0), (102 :: sufCold, 1), ([103, 46, 120], (2 : Nat))] :=
    fun k i h => OMap.mem_of_find?_some h
  have wa : exampleA.WF := by simp [exampleA, Sym.WF, WFCalls, OMap.Sorted]
  have wb : exampleB.WF := by
    simp [exampleB, Sym.WF, WFCalls, OMap.Sorted, List.cons_lt_cons_iff]
  refine ⟨⟨?_, ?_, ?_⟩, ?_⟩
  · simp [exampleStore, OMap.Sorted, sufCold, List.cons_lt_cons_iff]
  · intro k i h
    have := hf k i h
    simp at this
    show i < 3
    rcases this with ⟨_, rfl⟩ | ⟨_, rfl⟩ | ⟨_, rfl⟩ <;> decide
  · intro i _
    simp only [exampleStore]
    split
    · exact wa
    · split
      · exact wb
      · exact wa
  · intro k₁ k₂ i h1 h2
    have a := hf k₁ i h1
    have b := hf k₂ i h2
    simp at a b
    rcases a with ⟨rfl, rfl⟩ | ⟨rfl, rfl⟩ | ⟨rfl, rfl⟩ <;> simp at b <;> exact b.symm

end Verif.SymbolMap

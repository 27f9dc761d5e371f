import Verif.ElideProps
import Mathlib.Logic.Relation

/-!
# Suffix elision on a map in which names share symbols (C12 for aliases)
-/
namespace Verif.SymbolMap
open Verif
open scoped Classical

/-- Two symbols are put together: they have names with the same base name, or this can be said of each pair of neighbours in a
sequence of symbols from one to the other. -/
def Linked (pol : Policy) (st : Store) : Nat → Nat → Prop :=
  Relation.EqvGen fun i j => ∃ n n', OMap.find? st.map n = some i ∧ OMap.find? st.map n' = some j ∧
    originalName pol n = originalName pol n'

/-- Loop invariant: `cls i` is the symbol that symbol `i` of the start has become part of. -/
structure Classes (pol : Policy) (st₀ st : Store) (cls : Nat → Nat) (done : Name → Bool) : Prop where
  inv : st.Inv
  keys : ∀ k, (OMap.find? st.map k).isSome →
    ∃ n ∈ st₀.names, (if done n then originalName pol n else n) = k
  ptr : ∀ n i, OMap.find? st₀.map n = some i →
    OMap.find? st.map (if done n then originalName pol n else n) = some (cls i)
  sound : ∀ i ∈ st₀.live, ∀ j ∈ st₀.live, cls i = cls j → Linked pol st₀ i j
  vals : ∀ f, Additive f → ∀ i ∈ st₀.live, f (st.heap (cls i)) = ∑ j ∈ st₀.live with cls j = cls i, f (st₀.heap j)

theorem elideOne_classes (pol : Policy) (st₀ st : Store) (hi₀ : st₀.Inv) (cls : Nat → Nat) (done : Name → Bool)
    (hid : ∀ n, originalName pol (originalName pol n) = originalName pol n)
    (h : Classes pol st₀ st cls done) (name : Name) (hn : name ∈ st₀.names) (hd : done name = false)
    (hne : originalName pol name ≠ name) :
    ∃ st' cls', elideOne pol st name = some st' ∧
      Classes pol st₀ st' cls' (fun n => done n || decide (n = name)) := by
  obtain ⟨i₀, hi0⟩ := Option.isSome_iff_exists.1 ((Store.mem_names st₀ name).1 hn)
  have hf : OMap.find? st.map name = some (cls i₀) := by
    have := h.ptr name i₀ hi0
    simpa [hd] using this
  obtain ⟨d, st', he, hinv, hlk, hheap, hcase⟩ := elideOne_spec pol st h.inv name (cls i₀) hf hne
  have hlive : ∀ j ∈ st₀.live, ∃ k, OMap.find? st.map k = some (cls j) := by
    intro j hj
    obtain ⟨k, hk⟩ := (Store.mem_live hi₀.sorted j).1 hj
    exact ⟨_, h.ptr k j hk⟩
  have hlt : ∀ j ∈ st₀.live, cls j < st.next := by
    intro j hj
    obtain ⟨k, hk⟩ := hlive j hj
    exact h.inv.alloc k _ hk
  have hi0l : i₀ ∈ st₀.live := (Store.mem_live hi₀.sorted _).2 ⟨name, hi0⟩
  have honly : ∀ m, (if done m then originalName pol m else m) = name → m = name := by
    intro m hg
    by_cases hdm : done m
    · rw [if_pos hdm] at hg
      have := hid m
      rw [hg] at this
      exact absurd this hne
    · simpa [hdm] using hg
  -- the base name stands for `d`; if `d` is an old symbol, some symbol linked to `i₀` has become part of it
  have hold : d ≠ st.next → ∃ i₁ ∈ st₀.live, cls i₁ = d ∧ Linked pol st₀ i₀ i₁ := by
    intro hnew
    rcases hcase with ⟨h1, _, _⟩ | ⟨h1, h2, _⟩
    · exact absurd h1 hnew
    · obtain ⟨n1, hn1, hk1⟩ := h.keys _ (by rw [h1]; rfl)
      obtain ⟨i1, hi1⟩ := Option.isSome_iff_exists.1 ((Store.mem_names st₀ n1).1 hn1)
      have hp := h.ptr n1 i1 hi1
      rw [hk1, h1] at hp
      cases hp
      refine ⟨i1, (Store.mem_live hi₀.sorted _).2 ⟨n1, hi1⟩, rfl, Relation.EqvGen.rel _ _ ⟨name, n1, hi0, hi1, ?_⟩⟩
      by_cases hdm : done n1
      · rw [if_pos hdm] at hk1; exact hk1.symm
      · rw [if_neg hdm] at hk1; rw [hk1, hid]
  have hdl : d ∉ st₀.live.image cls → d = st.next := by
    intro hh
    by_contra hc
    obtain ⟨i1, h1, h2, _⟩ := hold hc
    exact hh (Finset.mem_image.2 ⟨i1, h1, h2⟩)
  have hdn : d = cls i₀ → False := by
    intro hc
    rcases hcase with ⟨h1, _, _⟩ | ⟨_, h2, _⟩
    · have := hlt i₀ hi0l; omega
    · exact h2 hc
  refine ⟨st', fun i => if cls i = cls i₀ then d else cls i, he, hinv, ?_, ?_, ?_, ?_⟩
  · intro k hk
    rw [hlk] at hk
    split at hk
    · rename_i hk'
      exact ⟨name, hn, by simp [hk']⟩
    · split at hk
      · cases hk
      · rename_i h1 h2
        obtain ⟨n, hn', hnk⟩ := h.keys k (by simpa using hk)
        refine ⟨n, hn', ?_⟩
        have : n ≠ name := by
          rintro rfl
          rw [hd] at hnk
          exact h2 (by simpa using hnk.symm)
        simpa [this] using hnk
  · intro n i hni
    by_cases hnn : n = name
    · subst hnn
      rw [hi0] at hni
      cases hni
      simp only [decide_true, Bool.or_true, if_true]
      rw [hlk, if_pos rfl]
    · have hkey : (if (done n || decide (n = name)) = true then originalName pol n else n) =
          if done n then originalName pol n else n := by simp [hnn]
      rw [hkey]
      have hp := h.ptr n i hni
      have hon := honly n
      generalize (if done n = true then originalName pol n else n) = K at hp hon ⊢
      rw [hlk]
      split
      · rename_i hk
        rw [hk] at hp
        rcases hcase with ⟨_, h1 | h1, _⟩ | ⟨h1, h2, _⟩
        · rw [h1] at hp; cases hp
        · rw [h1] at hp
          injection hp with hp
          rw [if_pos hp.symm]
        · rw [h1] at hp
          injection hp with hp
          rw [← hp, if_neg h2]
      · rw [if_neg (fun hk => hnn (hon hk)), hp]
        rfl
  · intro i hi j hj hij
    by_cases h1 : cls i = cls i₀ <;> by_cases h2 : cls j = cls i₀
    · exact h.sound i hi j hj (h1.trans h2.symm)
    · rw [if_pos h1, if_neg h2] at hij
      have : d ≠ st.next := by rw [hij]; exact (hlt j hj).ne
      obtain ⟨i1, hl1, hc1, hlk1⟩ := hold this
      exact ((h.sound i hi i₀ hi0l h1).trans _ _ _ hlk1).trans _ _ _ (h.sound i1 hl1 j hj (hc1.trans hij))
    · rw [if_neg h1, if_pos h2] at hij
      have : d ≠ st.next := by rw [← hij]; exact (hlt i hi).ne
      obtain ⟨i1, hl1, hc1, hlk1⟩ := hold this
      exact ((h.sound i hi i1 hl1 (hij.trans hc1.symm)).trans _ _ _ (hlk1.symm _ _)).trans _ _ _
        (h.sound i₀ hi0l j hj h2.symm)
    · rw [if_neg h1, if_neg h2] at hij
      exact h.sound i hi j hj hij
  · intro f hadd i hi
    have hsw : (st.heap (cls i₀)).WF := h.inv.wf _ (hlt i₀ hi0l)
    have hv := h.vals f hadd
    by_cases hid' : (if cls i = cls i₀ then d else cls i) = d
    · rw [hid']
      have hset : (st₀.live.filter fun j => (if cls j = cls i₀ then d else cls j) = d) =
          (st₀.live.filter fun j => cls j = cls i₀) ∪ (st₀.live.filter fun j => cls j = d) := by
        ext j
        simp only [Finset.mem_filter, Finset.mem_union]
        by_cases hj : cls j = cls i₀ <;> simp [hj]
        intro hc; exact fun hd' => absurd hd'.symm (fun hx => hdn (by rw [hx]))
      have hdisj : Disjoint (st₀.live.filter fun j => cls j = cls i₀) (st₀.live.filter fun j => cls j = d) := by
        rw [Finset.disjoint_left]
        intro j h1 h2
        simp only [Finset.mem_filter] at h1 h2
        exact hdn (h2.2.symm.trans h1.2)
      rw [hset, Finset.sum_union hdisj, ← hv i₀ hi0l]
      rcases hcase with ⟨h1, _, h3⟩ | ⟨h1, h2, h3⟩
      · rw [h3, hadd.add _ _ Sym.WF.new hsw, hadd.zero]
        have : (st₀.live.filter fun j => cls j = d) = ∅ := by
          rw [Finset.filter_eq_empty_iff]
          intro j hj hc
          have := hlt j hj
          omega
        rw [this]; simp
      · obtain ⟨i1, hl1, hc1, _⟩ := hold (by have := h.inv.alloc _ _ h1; omega)
        rw [h3, hadd.add _ _ (h.inv.wf _ (h.inv.alloc _ _ h1)) hsw, ← hc1, hv i1 hl1, Nat.add_comm]
    · have hne' : cls i ≠ cls i₀ := fun hc => hid' (by rw [if_pos hc])
      rw [if_neg hne'] at hid' ⊢
      rw [hheap _ hid', hv i hi]
      congr 1
      ext j
      simp only [Finset.mem_filter, and_congr_right_iff]
      intro _
      by_cases hj : cls j = cls i₀
      · rw [if_pos hj]
        constructor
        · intro hc; exact absurd (hc.symm.trans hj) hne'
        · intro hc; exact absurd hc.symm hid'
      · rw [if_neg hj]

theorem elide_classes_loop (pol : Policy) (st₀ : Store) (hi₀ : st₀.Inv)
    (hid : ∀ n, originalName pol (originalName pol n) = originalName pol n) (l : List Name) (hnd : l.Nodup) (st : Store)
    (cls : Nat → Nat) (done : Name → Bool) (h : Classes pol st₀ st cls done)
    (hl : ∀ n ∈ l, n ∈ st₀.names ∧ done n = false ∧ originalName pol n ≠ n) :
    ∃ st' cls', l.foldlM (elideOne pol) st = some st' ∧ Classes pol st₀ st' cls' (fun n => done n || l.contains n) := by
  induction l generalizing st cls done with
  | nil => exact ⟨st, cls, rfl, by simpa using h⟩
  | cons a t ih =>
    rw [List.nodup_cons] at hnd
    obtain ⟨h1, h2, h3⟩ := hl a List.mem_cons_self
    obtain ⟨st1, cls1, e1, m1⟩ := elideOne_classes pol st₀ st hi₀ cls done hid h a h1 h2 h3
    obtain ⟨st', cls', e2, m2⟩ := ih hnd.2 st1 cls1 _ m1 (fun n hn => by
      obtain ⟨g1, g2, g3⟩ := hl n (List.mem_cons_of_mem _ hn)
      exact ⟨g1, by simp [g2]; rintro rfl; exact hnd.1 hn, g3⟩)
    refine ⟨st', cls', by rw [List.foldlM_cons, e1]; exact e2, ?_⟩
    have : (fun n => done n || (a :: t).contains n) = fun n => (done n || decide (n = a)) || t.contains n := by
      funext n
      by_cases hna : n = a <;> simp [hna]
    rw [this]
    exact m2

/-- **C12 (exact result, names may share symbols).** Under a policy whose base names are stable, for every map: elision succeeds;
the names of the result are exactly the base names; two base names share a symbol exactly if symbols of theirs are linked by a
chain of common base names and common symbols; and the counts found under a base name are the sums of the counts of all symbols
linked to a symbol of that base name, each counted once. -/
theorem elide_exact_aliases (pol : Policy) (st : Store) (hi : st.Inv) (hp : pol ≠ .selected) :
    ∃ st', elide pol st = some st' ∧ st'.Inv ∧
      (∀ b, (OMap.find? st'.map b).isSome ↔ ∃ n ∈ st.names, originalName pol n = b) ∧
      ∀ n i, OMap.find? st.map n = some i → ∃ k, OMap.find? st'.map (originalName pol n) = some k ∧
        (∀ n' i', OMap.find? st.map n' = some i' →
          (OMap.find? st'.map (originalName pol n') = some k ↔ Linked pol st i i')) ∧
        (∀ path, (st'.heap k).totalAt path = ∑ j ∈ st.live with Linked pol st i j, (st.heap j).totalAt path) ∧
        (∀ path, (st'.heap k).headAt path = ∑ j ∈ st.live with Linked pol st i j, (st.heap j).headAt path) ∧
        (∀ path loc, (st'.heap k).countAt path loc =
          ∑ j ∈ st.live with Linked pol st i j, (st.heap j).countAt path loc) ∧
        (∀ path loc t, (st'.heap k).targetAt path loc t =
          ∑ j ∈ st.live with Linked pol st i j, (st.heap j).targetAt path loc t) := by
  have hid := original_name_idem_partial pol hp
  obtain ⟨hnd, hset⟩ := elideSet_ok pol st hi
  have hstart : Classes pol st st id (fun _ => false) := by
    refine ⟨hi, fun k hk => ⟨k, (Store.mem_names st k).2 hk, by simp⟩, fun n i h => by simpa using h,
      fun i _ j _ h => by cases h; exact Relation.EqvGen.refl _, fun f _ i hi' => ?_⟩
    simp only [id]
    rw [Finset.sum_filter, Finset.sum_ite_eq' st.live i (fun j => f (st.heap j)), if_pos hi']
  obtain ⟨st', cls, e, m⟩ := elide_classes_loop pol st hi hid (elideSet pol st.map) hnd st id _ hstart
    (fun n hn => ⟨(Store.mem_names st n).2 (hset n hn).2, rfl, (hset n hn).1⟩)
  have hg : ∀ n ∈ st.names, (if (false || (elideSet pol st.map).contains n) then originalName pol n
      else n) = originalName pol n := by
    intro n hn
    by_cases h : n ∈ elideSet pol st.map
    · simp [h]
    · have : originalName pol n = n := by
        by_contra hc
        exact h (by simp only [elideSet, List.mem_filter, decide_eq_true_eq]
                    exact ⟨by simpa [Store.names] using hn, hc⟩)
      simp [h, this]
  have hname : ∀ n i, OMap.find? st.map n = some i → n ∈ st.names := fun n i h => (Store.mem_names st n).2 (by rw [h]; rfl)
  have hptr : ∀ n i, OMap.find? st.map n = some i → OMap.find? st'.map (originalName pol n) = some (cls i) := by
    intro n i h
    have := m.ptr n i h
    rwa [hg n (hname n i h)] at this
  have hcl : ∀ i ∈ st.live, ∀ j ∈ st.live, (cls i = cls j ↔ Linked pol st i j) := by
    intro i hi' j hj
    refine ⟨m.sound i hi' j hj, fun hl => ?_⟩
    clear hi' hj
    unfold Linked at hl
    induction hl with
    | rel x y hxy =>
      obtain ⟨n, n', h1, h2, h3⟩ := hxy
      have a := hptr n x h1
      have b := hptr n' y h2
      rw [h3, b] at a
      injection a with a
      exact a.symm
    | refl x => rfl
    | symm x y _ ih => exact ih.symm
    | trans x y z _ _ ih1 ih2 => exact ih1.trans ih2
  refine ⟨st', e, m.inv, ?_, ?_⟩
  · intro b
    constructor
    · intro hb
      obtain ⟨n, hn, hk⟩ := m.keys b hb
      exact ⟨n, hn, by rw [← hk, hg n hn]⟩
    · rintro ⟨n, hn, rfl⟩
      obtain ⟨i, hi'⟩ := Option.isSome_iff_exists.1 ((Store.mem_names st n).1 hn)
      rw [hptr n i hi']; rfl
  · intro n i hni
    have hil : i ∈ st.live := (Store.mem_live hi.sorted _).2 ⟨n, hni⟩
    have hsum : ∀ f, Additive f → f (st'.heap (cls i)) = ∑ j ∈ st.live with Linked pol st i j, f (st.heap j) := by
      intro f hadd
      rw [m.vals f hadd i hil]
      apply Finset.sum_congr _ (fun _ _ => rfl)
      ext j
      simp only [Finset.mem_filter, and_congr_right_iff]
      intro hj
      rw [← hcl i hil j hj]
      exact eq_comm
    refine ⟨cls i, hptr n i hni, ?_, fun p => hsum _ (additive_total p), fun p => hsum _ (additive_head p),
      fun p loc => hsum _ (additive_count p loc), fun p loc t => hsum _ (additive_target p loc t)⟩
    intro n' i' h'
    rw [hptr n' i' h', Option.some.injEq, ← hcl i hil i' ((Store.mem_live hi.sorted _).2 ⟨n', h'⟩)]
    exact eq_comm

end Verif.SymbolMap

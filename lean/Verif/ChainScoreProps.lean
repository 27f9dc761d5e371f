import Verif.ChainScore
import Mathlib.Tactic.IntervalCases

/-! # C30: the predicted gain of a merge is the true difference of the layout scores -/
namespace Verif.Chain
open Verif

variable {P : Nodes} {sc : Edge → Int → Rat} {st : State} {E : List Edge}

/-! ### Slices -/

/-- A slice is a nonempty run of bundles of a live chain. -/
structure SliceOk (st : State) (x : Slice) : Prop where
  live : x.chain ∈ st.chains
  lt : x.lo < x.hi
  le : x.hi ≤ (st.C x.chain).bundles.length

theorem slice_geom (w : WF P st) {x : Slice} (h : SliceOk st x) :
    (st.C x.chain).bundles = (st.C x.chain).bundles.take x.lo ++ (x.bundles st ++ (st.C x.chain).bundles.drop x.hi) ∧
    x.beginOff st = P.sz (nodesIn st.B ((st.C x.chain).bundles.take x.lo)) ∧
    x.endOff st = x.beginOff st + P.sz (nodesIn st.B (x.bundles st)) := by
  have hlt := h.lt
  have hle := h.le
  have hb : ∀ i, i < (st.C x.chain).bundles.length →
      (((st.C x.chain).bundles[i]?).map fun b => (st.B b).off).getD 0 = P.sz (nodesIn st.B ((st.C x.chain).bundles.take i)) := by
    intro i hi
    rw [List.getElem?_eq_getElem hi]
    exact (w.placed _ h.live).off i _ (List.getElem?_eq_getElem hi)
  have h1 : (st.C x.chain).bundles.take x.hi = (st.C x.chain).bundles.take x.lo ++ x.bundles st := by
    unfold Slice.bundles
    conv_lhs => rw [← List.take_append_drop x.lo ((st.C x.chain).bundles.take x.hi)]
    rw [List.take_take, Nat.min_eq_left (Nat.le_of_lt hlt)]
  have h2 : x.beginOff st = P.sz (nodesIn st.B ((st.C x.chain).bundles.take x.lo)) := hb _ (by omega)
  refine ⟨?_, h2, ?_⟩
  · rw [← List.append_assoc, ← h1, List.take_append_drop]
  · rw [h2, ← sz_append, ← nodesIn_append, ← h1]
    unfold Slice.endOff
    split
    · rename_i hx
      rw [w.size _ h.live, hx, List.take_length]; rfl
    · exact hb _ (by omega)

theorem pos_le (l : List Nat) {n : Nat} (h : n ∈ l) : pos P l n + P.size n ≤ P.sz l := by
  obtain ⟨a, b, rfl, hn⟩ := List.eq_append_cons_of_mem h
  rw [pos_append P hn, sz_append, sz_cons]; omega

theorem pos_append_left {a b : List Nat} {n : Nat} (h : n ∈ a) : pos P (a ++ b) n = pos P a n := by
  unfold pos
  induction a with
  | nil => cases h
  | cons x t ih =>
    by_cases hx : x = n
    · subst hx; simp
    · have : n ∈ t := by
        rcases List.mem_cons.1 h with h | h
        · exact absurd h.symm hx
        · exact h
      simpa [hx, sz_cons] using ih this

theorem pos_append_right {a b : List Nat} {n : Nat} (h : n ∉ a) : pos P (a ++ b) n = P.sz a + pos P b n := by
  unfold pos
  rw [List.takeWhile_append_of_pos fun x hx => by simp; exact fun he => h (he ▸ hx), sz_append]

/-- Offset of a node of a slice. -/
theorem off_slice (w : WF P st) {x : Slice} (h : SliceOk st x) {n : Nat} (hn : n ∈ nodesIn st.B (x.bundles st)) :
    offOf st n = x.beginOff st + pos P (nodesIn st.B (x.bundles st)) n ∧ chainOf st n = some x.chain := by
  obtain ⟨g1, g2, _⟩ := slice_geom w h
  have hN : nodesOf st x.chain = nodesIn st.B ((st.C x.chain).bundles.take x.lo) ++ (nodesIn st.B (x.bundles st) ++
      nodesIn st.B ((st.C x.chain).bundles.drop x.hi)) := by
    rw [← nodesIn_append, ← nodesIn_append, ← g1]; rfl
  have hin : n ∈ nodesOf st x.chain := by rw [hN]; simp [hn]
  have hnd := w.toWF0.nodup h.live
  refine ⟨?_, (chainOf_iff w _ _).2 ⟨h.live, hin⟩⟩
  rw [offOf_pos w h.live hin, hN, pos_append_right, pos_append_left hn, g2]
  rw [hN] at hnd
  intro h'
  exact (List.nodup_append.1 hnd).2.2 n h' n (by simp [hn]) rfl

theorem scanBack_mem {n : Nat} {l : List Nat} (h : scanBack P n l = true) : n ∈ l := by
  simp only [scanBack, decide_eq_true_eq] at h
  exact List.mem_reverse.1 (List.takeWhile_subset _ h)

theorem scanFwd_mem {n : Nat} : ∀ {l : List Nat}, scanFwd P n l = true → n ∈ l
  | [], h => by cases h
  | m :: t, h => by
    unfold scanFwd at h
    split at h
    · rename_i hm; simp [hm]
    · split at h
      · cases h
      · exact List.mem_cons_of_mem _ (scanFwd_mem h)

theorem sz_zero {l : List Nat} (h : P.sz l = 0) : ∀ m ∈ l, P.size m = 0 := by
  induction l with
  | nil => intro m hm; cases hm
  | cons a t ih =>
    rw [sz_cons] at h
    intro m hm
    rcases List.mem_cons.1 hm with rfl | hm
    · omega
    · exact ih (by omega) m hm

theorem scanBack_of {n : Nat} (l r : List Nat) (hn : P.size n = 0) (hr : ∀ m ∈ r, P.size m = 0) :
    scanBack P n (l ++ n :: r) = true := by
  simp only [scanBack, decide_eq_true_eq, List.reverse_append, List.reverse_cons]
  rw [List.append_assoc, List.takeWhile_append_of_pos fun x hx => by simpa using hr x (List.mem_reverse.1 hx)]
  simp [hn]

theorem scanFwd_of {n : Nat} (r : List Nat) : ∀ l : List Nat, (∀ m ∈ l, P.size m = 0) → scanFwd P n (l ++ n :: r) = true
  | [], _ => by simp [scanFwd]
  | m :: t, h => by
    rw [List.cons_append, scanFwd]
    split
    · rfl
    · rw [if_neg (by simp [h m (by simp)])]
      exact scanFwd_of r t fun x hx => h x (List.mem_cons_of_mem _ hx)

/-- The offset and scans of `FindSliceIndex` recognise exactly the nodes of a slice, even with blocks of size zero. -/
theorem inSlice_iff (w : WF P st) {x : Slice} (h : SliceOk st x) {n : Nat} (hn : n ∈ nodesOf st x.chain) :
    inSlice P st n (offOf st n) x = true ↔ n ∈ nodesIn st.B (x.bundles st) := by
  obtain ⟨g1, g2, g3⟩ := slice_geom w h
  have hN : nodesOf st x.chain = nodesIn st.B ((st.C x.chain).bundles.take x.lo) ++ (nodesIn st.B (x.bundles st) ++
      nodesIn st.B ((st.C x.chain).bundles.drop x.hi)) := by
    rw [← nodesIn_append, ← nodesIn_append, ← g1]; rfl
  have hnd := w.toWF0.nodup h.live
  have hoff := offOf_pos w h.live hn
  unfold inSlice
  simp only [Bool.or_eq_true, Bool.and_eq_true, decide_eq_true_eq, List.any_eq_true, List.mem_reverse]
  constructor
  · rintro ((⟨h1, h2⟩ | ⟨_, b, hb, hs⟩) | ⟨_, b, hb, hs⟩)
    · by_contra hx
      rw [hN] at hn hoff hnd
      rcases List.mem_append.1 hn with ha | hz
      · rw [pos_append_left ha] at hoff
        have := pos_le (P := P) _ ha
        omega
      · rcases List.mem_append.1 hz with hz | hz
        · exact hx hz
        · rw [pos_append_right (fun h' => (List.nodup_append.1 hnd).2.2 n h' n (by simp [hz]) rfl), pos_append_right hx] at hoff
          omega
    · exact mem_nodesIn.2 ⟨b, hb, scanBack_mem hs⟩
    · exact mem_nodesIn.2 ⟨b, hb, scanFwd_mem hs⟩
  · intro hx
    obtain ⟨b, hb, hnb⟩ := mem_nodesIn.1 hx
    obtain ⟨X1, X2, hX⟩ := List.append_of_mem hb
    obtain ⟨l, r, hlr⟩ := List.append_of_mem hnb
    have hXn : nodesIn st.B (x.bundles st) = (nodesIn st.B X1 ++ l) ++ n :: (r ++ nodesIn st.B X2) := by
      rw [hX, nodesIn_append, nodesIn_cons, hlr]; simp
    obtain ⟨o1, _⟩ := off_slice w h hx
    have hXnd : (nodesIn st.B (x.bundles st)).Nodup := by
      rw [hN] at hnd; exact (List.nodup_append.1 (List.nodup_append.1 hnd).2.1).1
    rw [hXn] at hXnd
    have hp : pos P (nodesIn st.B (x.bundles st)) n = P.sz (nodesIn st.B X1) + P.sz l := by
      rw [hXn, pos_append P (fun h' => (List.nodup_append.1 hXnd).2.2 n h' n (by simp) rfl), sz_append]
    have hs : P.sz (nodesIn st.B (x.bundles st)) = P.sz (nodesIn st.B X1) + P.sz l + (P.size n + (P.sz r + P.sz (nodesIn st.B X2))) := by
      rw [hXn, sz_append, sz_append, sz_cons, sz_append]
    by_cases hc1 : P.sz (nodesIn st.B X1) + P.sz l = 0
    · refine .inr ⟨by omega, b, hb, ?_⟩
      rw [hlr]
      exact scanFwd_of r l (sz_zero (by omega))
    · by_cases hc2 : P.size n + (P.sz r + P.sz (nodesIn st.B X2)) = 0
      · refine .inl (.inr ⟨by omega, b, hb, ?_⟩)
        rw [hlr]
        exact scanBack_of l r (by omega) (sz_zero (by omega))
      · exact .inl (.inl ⟨by omega, by omega⟩)

/-- The slice position is inside the chain (`CHECK`s in `BuildNodeChainAssembly`, llvm_propeller_node_chain_assembly.cc:22-32). -/
def OrdOk (o : Order) (st : State) (s : Nat) : Prop := ∀ p, o.pos = some p → 0 < p ∧ p < (st.C s).bundles.length

theorem asm_ok (w : WF P st) {s u : Nat} (hs : s ∈ st.chains) (hu : u ∈ st.chains) {o : Order} (ho : OrdOk o st s) :
    ∀ x ∈ asmSlices o st s u, SliceOk st x := by
  have h1 := List.length_pos_iff.2 (w.ne s hs)
  have h2 := List.length_pos_iff.2 (w.ne u hu)
  have hU : SliceOk st ⟨u, 0, (st.C u).bundles.length⟩ := ⟨hu, h2, Nat.le_refl _⟩
  cases o with
  | SU =>
    intro x hx
    simp only [asmSlices, List.mem_cons, List.not_mem_nil, or_false] at hx
    rcases hx with rfl | rfl
    exacts [⟨hs, h1, Nat.le_refl _⟩, hU]
  | _ p =>
    obtain ⟨p1, p2⟩ := ho p rfl
    intro x hx
    simp only [asmSlices, List.mem_cons, List.not_mem_nil, or_false] at hx
    rcases hx with rfl | rfl | rfl
    all_goals first | exact hU | exact ⟨hs, p1, Nat.le_of_lt p2⟩ | exact ⟨hs, p2, Nat.le_refl _⟩

theorem asm_bundles (o : Order) (st : State) (s u : Nat) :
    (asmSlices o st s u).map (Slice.bundles st) = slices o (st.C s).bundles (st.C u).bundles := by
  cases o <;> simp [asmSlices, slices, Slice.bundles]

/-- `FindSliceIndex` finds the slice of every node of the two chains. -/
theorem findSlice_spec (w : WF P st) {s u : Nat} (hs : s ∈ st.chains) (hu : u ∈ st.chains) (hne : s ≠ u) {o : Order}
    (ho : OrdOk o st s) {n : Nat} (hn : chainOf st n = some s ∨ chainOf st n = some u) :
    ∃ i x, findSlice P o st s u n = some i ∧ (asmSlices o st s u)[i]? = some x ∧ n ∈ nodesIn st.B (x.bundles st) := by
  have h1 := List.length_pos_iff.2 (w.ne s hs)
  rcases Option.eq_none_or_eq_some (st.L n) with hl | ⟨⟨b, d⟩, hl⟩
  · unfold chainOf at hn; rw [hl] at hn; simp at hn
  have hc : chainOf st n = some (st.B b).chain := by unfold chainOf; rw [hl]; rfl
  have hoff : offOf st n = (st.B b).off + d := by unfold offOf; rw [hl]; rfl
  unfold findSlice
  rw [hl]
  simp only
  by_cases hbu : (st.B b).chain = u
  · rw [if_pos hbu]
    rw [hc, hbu] at hn
    have hnu : n ∈ nodesOf st u := ((chainOf_iff w n u).1 (by rw [hc, hbu])).2
    refine ⟨unsplitIdx o, ⟨u, 0, (st.C u).bundles.length⟩, rfl, ?_, ?_⟩
    · cases o <;> rfl
    · simpa [Slice.bundles, nodesOf] using hnu
  · have hbs : (st.B b).chain = s := by
      rw [hc] at hn
      rcases hn with h | h
      · exact Option.some.inj h
      · exact absurd (Option.some.inj h) hbu
    have hns : n ∈ nodesOf st s := ((chainOf_iff w n s).1 (by rw [hc, hbs])).2
    rw [if_neg hbu, if_neg (by rw [not_not]; exact hbs)]
    cases o with
    | SU =>
      rw [if_pos rfl]
      refine ⟨0, ⟨s, 0, (st.C s).bundles.length⟩, rfl, rfl, ?_⟩
      simpa [Slice.bundles, nodesOf] using hns
    | _ p =>
      obtain ⟨p1, p2⟩ := ho p rfl
      rw [if_neg (by simp), ← hoff]
      have e1 : inSlice P st n (offOf st n) ⟨s, 0, p⟩ = decide (n ∈ nodesIn st.B ((st.C s).bundles.take p)) := by
        rw [Bool.eq_iff_iff, decide_eq_true_eq, inSlice_iff w (x := ⟨s, 0, p⟩) ⟨hs, p1, Nat.le_of_lt p2⟩ hns]
        simp [Slice.bundles]
      have e2 : inSlice P st n (offOf st n) ⟨s, p, (st.C s).bundles.length⟩ =
          decide (n ∈ nodesIn st.B ((st.C s).bundles.drop p)) := by
        rw [Bool.eq_iff_iff, decide_eq_true_eq, inSlice_iff w (x := ⟨s, p, (st.C s).bundles.length⟩) ⟨hs, p2, Nat.le_refl _⟩ hns]
        simp [Slice.bundles]
      have hor : n ∈ nodesIn st.B ((st.C s).bundles.take p) ∨ n ∈ nodesIn st.B ((st.C s).bundles.drop p) := by
        rw [← List.mem_append, ← nodesIn_append, List.take_append_drop]; exact hns
      simp only [asmSlices, splitIdxs, List.find?_cons, List.getElem?_cons_zero, List.getElem?_cons_succ, Option.any_some, e1, e2]
      by_cases ha : n ∈ nodesIn st.B ((st.C s).bundles.take p) <;> by_cases hb : n ∈ nodesIn st.B ((st.C s).bundles.drop p) <;>
        simp only [ha, hb, decide_true, decide_false, Option.some.injEq, exists_and_left, exists_eq_left']
      all_goals first
        | (exfalso; rcases hor with hor | hor; exacts [ha hor, hb hor])
        | (refine ⟨_, rfl, ?_⟩; simpa [Slice.bundles] using ha; done)
        | (refine ⟨_, rfl, ?_⟩; simpa [Slice.bundles] using hb; done)

/-- Place of a node in the layout after merging. -/
theorem pos_flatten : ∀ (Xs : List (List Nat)) {i n : Nat} {X : List Nat}, Xs.flatten.Nodup → Xs[i]? = some X → n ∈ X →
    pos P Xs.flatten n = P.sz (Xs.take i).flatten + pos P X n
  | [], i, _, _, _, h, _ => by simp at h
  | Y :: t, 0, n, X, _, h, hn => by
    simp only [List.getElem?_cons_zero, Option.some.injEq] at h
    subst h
    rw [List.flatten_cons, pos_append_left hn]
    simp [Nodes.sz]
  | Y :: t, i + 1, n, X, hnd, h, hn => by
    rw [List.getElem?_cons_succ] at h
    rw [List.flatten_cons] at hnd ⊢
    have hin : n ∈ t.flatten := List.mem_flatten.2 ⟨X, List.mem_of_getElem? h, hn⟩
    rw [pos_append_right (fun h' => (List.nodup_append.1 hnd).2.2 n h' n hin rfl),
      pos_flatten t (List.nodup_append.1 hnd).2.1 h hn, List.take_succ_cons, List.flatten_cons, sz_append]
    omega

/-- The layout after merging. -/
theorem merged_flatten (o : Order) (st : State) (s u : Nat) : nodesIn st.B (mergedBundles o st s u) =
    ((asmSlices o st s u).map fun x => nodesIn st.B (x.bundles st)).flatten := by
  have h := asm_bundles o st s u
  unfold mergedBundles
  rw [← h]
  generalize asmSlices o st s u = xs
  induction xs with
  | nil => rfl
  | cons a t ih => simp only [List.map_cons, List.flatten_cons, nodesIn_append, ih]

theorem asm_length (o : Order) (st : State) (s u : Nat) : (asmSlices o st s u).length ≤ 3 := by
  cases o <;> simp [asmSlices]

theorem merged_nodup (w : WF P st) {s u : Nat} (hs : s ∈ st.chains) (hu : u ∈ st.chains) (hne : s ≠ u) (o : Order) :
    (nodesIn st.B (mergedBundles o st s u)).Nodup := by
  have hp := nodesIn_perm st.B (slices_perm o (st.C s).bundles (st.C u).bundles)
  rw [nodesIn_append] at hp
  have := (allNodes_perm st (w.split hs hu hne).1).nodup_iff.1 w.once
  simp only [List.flatMap_cons] at this
  rw [← List.append_assoc] at this
  exact (hp.trans List.perm_append_comm).nodup_iff.2 (List.nodup_append.1 this).1

/-- **The predicted distance of every edge is its distance in the merged layout.** -/
theorem edgeDist_spec (w : WF P st) {s u : Nat} (hs : s ∈ st.chains) (hu : u ∈ st.chains) (hne : s ≠ u) {o : Order}
    (ho : OrdOk o st s) {e : Edge} (h1 : chainOf st e.src = some s ∨ chainOf st e.src = some u)
    (h2 : chainOf st e.sink = some s ∨ chainOf st e.sink = some u) :
    edgeDist P o st s u e = some (dist P (nodesIn st.B (mergedBundles o st s u)) e) := by
  obtain ⟨i, x, f1, a1, m1⟩ := findSlice_spec w hs hu hne ho h1
  obtain ⟨j, y, f2, a2, m2⟩ := findSlice_spec w hs hu hne ho h2
  have hok := asm_ok w hs hu ho
  have hxo := hok x (List.mem_of_getElem? a1)
  have hyo := hok y (List.mem_of_getElem? a2)
  obtain ⟨ox, _⟩ := off_slice w hxo m1
  obtain ⟨oy, _⟩ := off_slice w hyo m2
  have gx := (slice_geom w hxo).2.2
  have gy := (slice_geom w hyo).2.2
  have hnd := merged_nodup w hs hu hne o
  rw [merged_flatten] at hnd ⊢
  have px := pos_flatten (P := P) _ (i := i) hnd (by rw [List.getElem?_map, a1]; rfl) m1
  have py := pos_flatten (P := P) _ (i := j) hnd (by rw [List.getElem?_map, a2]; rfl) m2
  have hlen := asm_length o st s u
  unfold edgeDist
  rw [f1, f2]
  simp only
  by_cases hij : i = j
  · subst hij
    rw [a1] at a2; cases a2
    rw [if_pos rfl]
    unfold dist
    rw [px, py]
    simp only [Option.some.injEq]; push_cast; omega
  · rw [if_neg hij, a1, a2]
    simp only [Option.some.injEq]
    unfold dist
    rw [px, py]
    generalize asmSlices o st s u = xs at *
    have hi := (List.getElem?_eq_some_iff.1 a1).1
    have hj := (List.getElem?_eq_some_iff.1 a2).1
    have key : ∀ z ∈ xs, z.endOff st = z.beginOff st + P.sz (nodesIn st.B (z.bundles st)) := fun z hz =>
      (slice_geom w (hok z hz)).2.2
    have hi3 : i < 3 := by omega
    have hj3 : j < 3 := by omega
    match xs, hlen with
    | [], _ => simp at hi
    | [x0], _ => simp at hi hj; omega
    | [x0, x1], _ =>
      have k0 := key x0 (by simp)
      have k1 := key x1 (by simp)
      interval_cases i <;> interval_cases j <;> simp at a1 a2 hij hi hj ⊢ <;> subst a1 <;> subst a2 <;>
        simp only [Nodes.sz, List.map_nil, List.sum_nil] at * <;> omega
    | [x0, x1, x2], _ =>
      have k0 := key x0 (by simp)
      have k1 := key x1 (by simp)
      have k2 := key x2 (by simp)
      interval_cases i <;> interval_cases j <;> simp [sz_append] at a1 a2 hij ⊢ <;> subst a1 <;> subst a2 <;>
        simp only [Nodes.sz, List.map_nil, List.sum_nil] at * <;> omega
    | _ :: _ :: _ :: _ :: _, h => simp at h

/-! ### The gain -/

theorem sumOn_zero {α : Type} {f : α → Rat} {l : List α} (h : ∀ a ∈ l, f a = 0) : sumOn f l = 0 := by
  rw [sumOn_congr (g := fun _ => 0) h]
  induction l with
  | nil => rfl
  | cons a t ih => rw [sumOn_cons, ih fun x hx => h x (List.mem_cons_of_mem _ hx), add_zero]

theorem sumM_eq (f : Edge → Option Rat) (g : Edge → Rat) (l : List Edge) (h : ∀ e ∈ l, f e = some (g e)) :
    sumM f l = some (sumOn g l) := by
  have : ∀ (l : List Edge) (a : Rat), (∀ e ∈ l, f e = some (g e)) →
      l.foldlM (fun a e => (f e).map (a + ·)) a = some (a + sumOn g l) := by
    intro l
    induction l with
    | nil => intro a _; simp [sumOn]
    | cons e t ih =>
      intro a h
      rw [List.foldlM_cons, h e (by simp)]
      show t.foldlM _ (a + g e) = _
      rw [ih _ fun x hx => h x (List.mem_cons_of_mem _ hx), sumOn_cons, add_assoc]
  rw [sumM, this l 0 h, zero_add]

/-- Two nodes of one slice keep their distance. -/
theorem same_slice (w : WF P st) {s u : Nat} (hs : s ∈ st.chains) (hu : u ∈ st.chains) (hne : s ≠ u) {o : Order}
    (ho : OrdOk o st s) {x : Slice} (hx : x ∈ asmSlices o st s u) {e : Edge} (h1 : e.src ∈ nodesIn st.B (x.bundles st))
    (h2 : e.sink ∈ nodesIn st.B (x.bundles st)) : dist P (nodesIn st.B (mergedBundles o st s u)) e = distOf P st e := by
  have hok := asm_ok w hs hu ho x hx
  obtain ⟨i, hi⟩ := List.mem_iff_getElem?.1 hx
  have hnd := merged_nodup w hs hu hne o
  rw [merged_flatten] at hnd ⊢
  unfold dist distOf
  rw [pos_flatten (P := P) _ (i := i) hnd (by rw [List.getElem?_map, hi]; rfl) h1,
    pos_flatten (P := P) _ (i := i) hnd (by rw [List.getElem?_map, hi]; rfl) h2, (off_slice w hok h1).1, (off_slice w hok h2).1]
  push_cast; omega

theorem takeWhile_eq_filter {α : Type} (q : α → Bool) : ∀ l : List α, l.Pairwise (fun a b => q b = true → q a = true) →
    l.takeWhile q = l.filter q
  | [], _ => rfl
  | a :: t, h => by
    obtain ⟨h1, h2⟩ := List.pairwise_cons.1 h
    cases hq : q a
    · rw [List.takeWhile_cons_of_neg (by simp [hq]), List.filter_cons_of_neg (by simp [hq]), eq_comm, List.filter_eq_nil_iff]
      intro b hb hqb
      rw [h1 b hb hqb] at hq; cases hq
    · rw [List.takeWhile_cons_of_pos hq, List.filter_cons_of_pos hq, takeWhile_eq_filter q t h2]

theorem sumOn_filter_or {α : Type} (f : α → Rat) (l : List α) (p q : α → Bool) (h : ∀ a ∈ l, p a = true → q a = false) :
    sumOn f (l.filter fun a => p a || q a) = sumOn f (l.filter p) + sumOn f (l.filter q) := by
  rw [← sumOn_perm f (filter_or_perm l p q h), sumOn_append]

/-- The bundle index of a node's bundle is its place in the chain. -/
theorem idx_lt (w : WF P st) {c n : Nat} (hc : chainOf st n = some c) (p : Nat) :
    (((st.L n).map fun q => (st.B q.1).idx).getD 0 < p → n ∈ nodesIn st.B ((st.C c).bundles.take p)) ∧
    (p ≤ ((st.L n).map fun q => (st.B q.1).idx).getD 0 → n ∈ nodesIn st.B ((st.C c).bundles.drop p)) := by
  obtain ⟨b, hb, hbn⟩ := bundleOf_of_chainOf w hc
  have hcl := ((chainOf_iff w n c).1 hc).1
  have hnb : n ∈ (st.B b).nodes := (bundleOf_iff w hcl hb n).1 hbn
  obtain ⟨i, hi⟩ := List.mem_iff_getElem?.1 hb
  have hidx := (w.placed c hcl).idx i b hi
  have hl : ((st.L n).map fun q => (st.B q.1).idx).getD 0 = i := by
    unfold bundleOf at hbn
    rcases Option.eq_none_or_eq_some (st.L n) with h | ⟨q, h⟩
    · rw [h] at hbn; cases hbn
    · rw [h] at hbn ⊢
      simp only [Option.map_some, Option.some.injEq] at hbn
      simp only [Option.map_some, Option.getD_some, hbn, hidx]
  rw [hl]
  constructor
  · intro hp
    refine mem_nodesIn.2 ⟨b, ?_, hnb⟩
    exact List.mem_iff_getElem?.2 ⟨i, by rw [List.getElem?_take_of_lt hp]; exact hi⟩
  · intro hp
    refine mem_nodesIn.2 ⟨b, ?_, hnb⟩
    exact List.mem_iff_getElem?.2 ⟨i - p, by rw [List.getElem?_drop, show p + (i - p) = i by omega]; exact hi⟩

/-- The recorded edges of a chain are those that run within it. -/
theorem outs_perm (w : WF P st) (h : EdgesOk E st) {c : Nat} (hc : c ∈ st.chains) :
    ((st.C c).bundles.flatMap fun b => (st.B b).outs).Perm (E.filter (within st c)) := by
  have h1 : ((st.C c).bundles.flatMap fun b => (st.B b).outs).Perm ((st.C c).bundles.flatMap fun b =>
      E.filter fun e => decide (bundleOf st e.src = some b) &&
        (decide (chainOf st e.sink = some c) && decide (bundleOf st e.sink ≠ bundleOf st e.src))) := by
    refine List.Perm.flatMap_left _ fun b hb => (h.intra c hc b hb).trans (List.Perm.of_eq (List.filter_congr fun e _ => ?_))
    by_cases hbe : bundleOf st e.src = some b
    · simp only [hbe]
    · simp [hbe]
  refine h1.trans ((flatMap_filter_perm E (fun e => bundleOf st e.src) _ _ (w.bundles_nodup hc)).trans
    (List.Perm.of_eq (List.filter_congr fun e _ => ?_)))
  rw [Bool.eq_iff_iff]
  simp only [within, Bool.and_eq_true, decide_eq_true_eq]
  refine and_congr_left fun _ => ⟨?_, fun hce => bundleOf_of_chainOf w hce⟩
  rintro ⟨b, hb, hbe⟩
  exact chainOf_of_bundleOf w hc hb hbe

/-- **The gain predicted for a merge (if it is not the shortcut 0 of a splitting order) is the layout score of the merged
chain minus the scores of the two chains.** -/
theorem scoreGain_exact (w : WF P st) (h : EdgesOk E st) (srt : OutsSorted st) {s u : Nat}
    (hs : s ∈ st.chains) (hu : u ∈ st.chains) (hne : s ≠ u) {o : Order} (ho : OrdOk o st s) :
    ∃ g, scoreGain P sc o st s u = some g ∧ (g ≠ 0 ∨ o = .SU →
      g = layoutScore P sc (E.filter (joint st s u)) (nodesIn st.B (mergedBundles o st s u)) -
        layoutScore P sc (E.filter (within st s)) (nodesOf st s) - layoutScore P sc (E.filter (within st u)) (nodesOf st u)) := by
  generalize hF : (fun e : Edge => sc e (dist P (nodesIn st.B (mergedBundles o st s u)) e)) = F
  have hsc : ∀ e : Edge, (chainOf st e.src = some s ∨ chainOf st e.src = some u) →
      (chainOf st e.sink = some s ∨ chainOf st e.sink = some u) → edgeScore P sc o st s u e = some (F e) := by
    intro e h1 h2
    rw [edgeScore, edgeDist_spec w hs hu hne ho h1 h2, ← hF]; rfl
  -- edges between the two chains
  have hin : ∀ f t, f ∈ st.chains → t ∈ st.chains → f ≠ t → (f = s ∨ f = u) → (t = s ∨ t = u) →
      interScore P sc o st s u f t = some (sumOn F (E.filter fun e =>
        decide (chainOf st e.src = some f) && decide (chainOf st e.sink = some t))) := by
    intro f t hf ht hft h1 h2
    have hp := h.inter f hf t ht hft
    rw [← sumOn_perm F hp]
    unfold interScore
    rcases Option.eq_none_or_eq_some (outTo st f t) with hn | ⟨es, hn⟩
    · rw [hn]; simp [sumOn]
    · rw [hn] at hp ⊢
      simp only [Option.getD_some] at hp ⊢
      refine sumM_eq _ _ _ fun e he => hsc e ?_ ?_
      · have := hp.mem_iff.1 he
        simp only [List.mem_filter, Bool.and_eq_true, decide_eq_true_eq] at this
        rw [this.2.1]; rcases h1 with rfl | rfl <;> simp
      · have := hp.mem_iff.1 he
        simp only [List.mem_filter, Bool.and_eq_true, decide_eq_true_eq] at this
        rw [this.2.2]; rcases h2 with rfl | rfl <;> simp
  -- the unsplit chain
  have hU : (⟨u, 0, (st.C u).bundles.length⟩ : Slice) ∈ asmSlices o st s u := by cases o <;> simp [asmSlices]
  have hwu : sumOn F (E.filter (within st u)) = layoutScore P sc (E.filter (within st u)) (nodesOf st u) := by
    unfold layoutScore
    refine sumOn_congr fun e he => ?_
    simp only [within, List.mem_filter, Bool.and_eq_true, decide_eq_true_eq] at he
    have m1 := ((chainOf_iff w _ _).1 he.2.1).2
    have m2 := ((chainOf_iff w _ _).1 he.2.2.1).2
    rw [← hF]
    simp only
    rw [same_slice w hs hu hne ho hU (by simpa [Slice.bundles, nodesOf] using m1) (by simpa [Slice.bundles, nodesOf] using m2),
      distOf_eq w hu he.2.1 he.2.2.1]
  -- the split chain
  have hws : ∃ g, splitGain P sc o st s u = some g ∧
      g = sumOn F (E.filter (within st s)) - layoutScore P sc (E.filter (within st s)) (nodesOf st s) := by
    have hD : sumOn F (E.filter (within st s)) - layoutScore P sc (E.filter (within st s)) (nodesOf st s) =
        sumOn (fun e => F e - sc e (distOf P st e)) (E.filter (within st s)) := by
      rw [← sumOn_sub]
      congr 1
      unfold layoutScore
      refine sumOn_congr fun e he => ?_
      simp only [within, List.mem_filter, Bool.and_eq_true, decide_eq_true_eq] at he
      rw [distOf_eq w hs he.2.1 he.2.2.1]
    rw [hD, ← sumOn_perm _ (outs_perm w h hs)]
    have hout : ∀ b ∈ (st.C s).bundles, ∀ e ∈ (st.B b).outs, bundleOf st e.src = some b ∧ chainOf st e.src = some s ∧
        chainOf st e.sink = some s := by
      intro b hb e he
      have := (h.intra s hs b hb).mem_iff.1 he
      simp only [List.mem_filter, Bool.and_eq_true, decide_eq_true_eq] at this
      exact ⟨this.2.1, chainOf_of_bundleOf w hs hb this.2.1, this.2.2.1⟩
    have hzero : ∀ (x : Slice), x ∈ asmSlices o st s u → ∀ e : Edge, e.src ∈ nodesIn st.B (x.bundles st) →
        e.sink ∈ nodesIn st.B (x.bundles st) → F e - sc e (distOf P st e) = 0 := by
      intro x hx e h1 h2
      rw [← hF]; simp only
      rw [same_slice w hs hu hne ho hx h1 h2, sub_self]
    unfold splitGain
    rcases Option.eq_none_or_eq_some o.pos with hp | ⟨p, hp⟩
    · rw [hp]
      refine ⟨0, rfl, ?_⟩
      have hSU : o = .SU := by cases o <;> first | rfl | cases hp
      rw [eq_comm]
      refine sumOn_zero fun e he => ?_
      obtain ⟨b, hb, he⟩ := List.mem_flatMap.1 he
      obtain ⟨_, c1, c2⟩ := hout b hb e he
      refine hzero ⟨s, 0, (st.C s).bundles.length⟩ (by rw [hSU]; simp [asmSlices]) e ?_ ?_
      · simpa [Slice.bundles, nodesOf] using ((chainOf_iff w _ _).1 c1).2
      · simpa [Slice.bundles, nodesOf] using ((chainOf_iff w _ _).1 c2).2
    · rw [hp]
      simp only
      have hcm : ∀ e ∈ crossing st s p, ∃ b ∈ (st.C s).bundles, e ∈ (st.B b).outs := by
        intro e he
        rcases List.mem_append.1 he with he | he
        · obtain ⟨b, hb, he⟩ := List.mem_flatMap.1 he
          exact ⟨b, List.mem_of_mem_take hb, List.mem_reverse.1 (List.takeWhile_subset _ he)⟩
        · obtain ⟨b, hb, he⟩ := List.mem_flatMap.1 he
          exact ⟨b, List.mem_of_mem_drop hb, List.takeWhile_subset _ he⟩
      refine ⟨_, sumM_eq _ (fun e => F e - sc e (distOf P st e)) _ fun e he => ?_, ?_⟩
      · obtain ⟨b, hb, he⟩ := hcm e he
        obtain ⟨_, c1, c2⟩ := hout b hb e he
        rw [hsc e (.inl c1) (.inl c2)]; rfl
      · conv_rhs => rw [← List.take_append_drop p (st.C s).bundles]
        unfold crossing
        rw [List.flatMap_append, sumOn_append, sumOn_append, sumOn_flatMap, sumOn_flatMap, sumOn_flatMap, sumOn_flatMap]
        have hx1 : (⟨s, 0, p⟩ : Slice) ∈ asmSlices o st s u := by cases o <;> cases hp <;> simp [asmSlices]
        have hx2 : (⟨s, p, (st.C s).bundles.length⟩ : Slice) ∈ asmSlices o st s u := by cases o <;> cases hp <;> simp [asmSlices]
        congr 1
        · refine sumOn_congr fun b hb => ?_
          have hbm := List.mem_of_mem_take hb
          rw [takeWhile_eq_filter _ _ (List.pairwise_reverse.2 ((srt s hs b hbm).imp fun {a a'} hle h' => by
            simp only [decide_eq_true_eq] at h' ⊢; omega)),
            sumOn_split _ (fun e => decide (p ≤ sinkIdx st e)) (st.B b).outs,
            sumOn_perm _ ((List.reverse_perm (st.B b).outs).filter _)]
          rw [sumOn_zero (l := (st.B b).outs.filter fun e => !decide (p ≤ sinkIdx st e)), add_zero]
          intro e he
          simp only [List.mem_filter, Bool.not_eq_true', decide_eq_false_iff_not] at he
          obtain ⟨c0, c1, c2⟩ := hout b hbm e he.1
          refine hzero _ hx1 e ?_ ?_
          · have : e.src ∈ nodesIn st.B ((st.C s).bundles.take p) := mem_nodesIn.2 ⟨b, hb, (bundleOf_iff w hs hbm _).1 c0⟩
            simpa [Slice.bundles] using this
          · have := (idx_lt w c2 p).1 (Nat.lt_of_not_le he.2)
            simpa [Slice.bundles] using this
        · refine sumOn_congr fun b hb => ?_
          have hbm := List.mem_of_mem_drop hb
          rw [takeWhile_eq_filter _ _ ((srt s hs b hbm).imp fun {a a'} hle h' => by
            simp only [decide_eq_true_eq] at h' ⊢; omega),
            sumOn_split _ (fun e => decide (sinkIdx st e < p)) (st.B b).outs]
          rw [sumOn_zero (l := (st.B b).outs.filter fun e => !decide (sinkIdx st e < p)), add_zero]
          intro e he
          simp only [List.mem_filter, Bool.not_eq_true', decide_eq_false_iff_not] at he
          obtain ⟨c0, c1, c2⟩ := hout b hbm e he.1
          refine hzero _ hx2 e ?_ ?_
          · have : e.src ∈ nodesIn st.B ((st.C s).bundles.drop p) := mem_nodesIn.2 ⟨b, hb, (bundleOf_iff w hs hbm _).1 c0⟩
            simpa [Slice.bundles] using this
          · have := (idx_lt w c2 p).2 (Nat.le_of_not_lt he.2)
            simpa [Slice.bundles] using this
  obtain ⟨g, hg1, hg2⟩ := hws
  -- all edges of the two chains
  have hj : layoutScore P sc (E.filter (joint st s u)) (nodesIn st.B (mergedBundles o st s u)) =
      (sumOn F (E.filter (within st s)) + sumOn F (E.filter (within st u))) +
      (sumOn F (E.filter fun e => decide (chainOf st e.src = some s) && decide (chainOf st e.sink = some u)) +
       sumOn F (E.filter fun e => decide (chainOf st e.src = some u) && decide (chainOf st e.sink = some s))) := by
    unfold layoutScore
    rw [hF, ← sumOn_filter_or, ← sumOn_filter_or, ← sumOn_filter_or]
    · congr 1
      refine List.filter_congr fun e _ => ?_
      rw [Bool.eq_iff_iff]
      simp only [joint, within, Bool.and_eq_true, Bool.or_eq_true, decide_eq_true_eq]
      have hb : ∀ c d, c ∈ st.chains → d ∈ st.chains → c ≠ d → chainOf st e.src = some c → chainOf st e.sink = some d →
          bundleOf st e.sink ≠ bundleOf st e.src := by
        intro c d hc hd hcd h1 h2 heq
        obtain ⟨b, hb, hbe⟩ := bundleOf_of_chainOf w h1
        rw [hbe] at heq
        rw [chainOf_of_bundleOf w hc hb heq] at h2
        exact hcd (Option.some.inj h2)
      constructor
      · rintro ⟨h1 | h1, h2 | h2, h3⟩
        · exact .inl (.inl ⟨h1, h2, h3⟩)
        · exact .inr (.inl ⟨h1, h2⟩)
        · exact .inr (.inr ⟨h1, h2⟩)
        · exact .inl (.inr ⟨h1, h2, h3⟩)
      · rintro ((⟨h1, h2, h3⟩ | ⟨h1, h2, h3⟩) | (⟨h1, h2⟩ | ⟨h1, h2⟩))
        · exact ⟨.inl h1, .inl h2, h3⟩
        · exact ⟨.inr h1, .inr h2, h3⟩
        · exact ⟨.inl h1, .inr h2, hb s u hs hu hne h1 h2⟩
        · exact ⟨.inr h1, .inl h2, hb u s hu hs (Ne.symm hne) h1 h2⟩
    all_goals
      intro e _ he
      simp only [within, Bool.and_eq_true, Bool.or_eq_true, decide_eq_true_eq] at he
      rw [Bool.eq_false_iff]
      simp only [within, ne_eq, Bool.and_eq_true, Bool.or_eq_true, decide_eq_true_eq]
    · rintro (⟨h1, h2⟩ | ⟨h1, h2⟩)
      · rcases he with ⟨e1, e2, _⟩ | ⟨e1, e2, _⟩
        · rw [e2] at h2; exact hne (Option.some.inj h2)
        · rw [e1] at h1; exact hne (Option.some.inj h1).symm
      · rcases he with ⟨e1, e2, _⟩ | ⟨e1, e2, _⟩
        · rw [e1] at h1; exact hne (Option.some.inj h1)
        · rw [e2] at h2; exact hne (Option.some.inj h2).symm
    · rintro ⟨h1, h2⟩
      rw [he.1] at h1; exact hne (Option.some.inj h1)
    · rintro ⟨h1, h2, _⟩
      rw [he.1] at h1; exact hne (Option.some.inj h1)
  unfold scoreGain
  rw [hin s u hs hu hne (.inl rfl) (.inr rfl), hin u s hu hs (Ne.symm hne) (.inr rfl) (.inl rfl), hj, ← hwu, hg1]
  simp only [Option.bind_some, Option.map_some]
  split
  · rename_i h0
    refine ⟨0, rfl, fun hor => ?_⟩
    rcases hor with hor | rfl
    · exact absurd rfl hor
    · have : g = 0 := by
        have := hg1; unfold splitGain at this; exact (Option.some.inj this).symm
      rw [this] at hg2
      linarith
  · refine ⟨_, rfl, fun _ => ?_⟩
    rw [hg2]; ring

end Verif.Chain

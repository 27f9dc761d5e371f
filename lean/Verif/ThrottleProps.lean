import Verif.Throttle
import Verif.MergeProps
import Mathlib.Data.List.Nodup

/-!
# Properties C13 (inline-instance throttling) and C14 (call-target trimming)
-/
namespace Verif.SymbolMap

/-! ## Helper lemmas -/

/-- Entries at location `l`. -/
def atLoc {A : Type} (l : Nat) (xs : List (Callsite × A)) : List (Callsite × A) :=
  xs.filter (fun p => p.1.1 == l)

theorem eraseLoop_atLoc (max : Nat) (l : Nat) (xs : List (Callsite × Nat)) (n : Nat)
    (hs : xs.Pairwise (fun a b => a.1.1 ≤ b.1.1)) :
    atLoc l (eraseLoop max n xs) =
      (atLoc l xs).drop (if (xs.head?.map (fun p => p.1.1)) = some l then max - n else max) := by
  induction xs generalizing n with
  | nil => simp [eraseLoop, atLoc]
  | cons x t ih =>
    rw [List.pairwise_cons] at hs
    have key : ∀ next, (if n ≥ max then x :: eraseLoop max next t else eraseLoop max next t) =
        (if n ≥ max then [x] else []) ++ eraseLoop max next t := by
      intro next; split <;> simp
    have hx : ∀ ys, atLoc l (x :: ys) = if x.1.1 = l then x :: atLoc l ys else atLoc l ys := by
      intro ys; unfold atLoc; by_cases h : x.1.1 = l <;> simp [h]
    have happ : ∀ a b : List (Callsite × Nat), atLoc l (a ++ b) = atLoc l a ++ atLoc l b := by
      intro a b; simp [atLoc]
    have he : atLoc l (if n ≥ max then [x] else []) =
        if n ≥ max ∧ x.1.1 = l then [x] else [] := by
      by_cases h1 : n ≥ max <;> by_cases h2 : x.1.1 = l <;> simp [h1, h2, atLoc]
    simp only [eraseLoop, key, happ, he, ih _ hs.2, hx, List.head?_cons, Option.map_some,
      Option.some.injEq]
    cases t with
    | nil =>
      by_cases h2 : x.1.1 = l <;> by_cases h1 : n ≥ max
      · have : max - n = 0 := by omega
        simp [h1, h2, this, atLoc]
      · have : max - n = (max - n - 1) + 1 := by omega
        rw [this]; simp [h1, h2, atLoc]
      · simp [h2, atLoc]
      · simp [h2, atLoc]
    | cons y u =>
      simp only [List.head?_cons, Option.map_some, Option.some.injEq]
      by_cases hy : y.1.1 = x.1.1
      · simp only [hy, ne_eq, not_true_eq_false, if_false]
        by_cases h2 : x.1.1 = l
        · by_cases h1 : n ≥ max
          · have e1 : max - n = 0 := by omega
            have e2 : max - (n + 1) = 0 := by omega
            simp [h1, h2, e1, e2]
          · have e1 : max - n = (max - (n + 1)) + 1 := by omega
            simp only [h1, h2, false_and, if_false, if_true, List.nil_append]
            rw [e1, List.drop_succ_cons]
        · simp [h2]
      · simp only [ne_eq, hy, not_false_eq_true, if_true]
        have hlt : ∀ z ∈ y :: u, x.1.1 < z.1.1 := by
          intro z hz
          have h1 := hs.1 y List.mem_cons_self
          rw [List.pairwise_cons] at hs
          rcases List.mem_cons.1 hz with rfl | hz
          · omega
          · have := hs.2.1 z hz; omega
        by_cases h2 : x.1.1 = l
        · have hnone : atLoc l (y :: u) = [] := by
            unfold atLoc
            rw [List.filter_eq_nil_iff]
            intro z hz; have := hlt z hz; simp; omega
          rw [hnone]
          by_cases h1 : n ≥ max
          · have e1 : max - n = 0 := by omega
            simp [h1, h2, e1]
          · have e1 : max - n = (max - n - 1) + 1 := by omega
            rw [e1]; simp [h1, h2]
        · simp [h2]

theorem hotterLe_trans (a b c : Callsite × Nat) (h1 : hotterLe a b = true)
    (h2 : hotterLe b c = true) : hotterLe a c = true := by
  simp only [hotterLe, Bool.or_eq_true, decide_eq_true_eq, Bool.and_eq_true, beq_iff_eq, ge_iff_le]
    at *
  omega

theorem hotterLe_total (a b : Callsite × Nat) : (hotterLe a b || hotterLe b a) = true := by
  simp only [hotterLe, Bool.or_eq_true, decide_eq_true_eq, Bool.and_eq_true, beq_iff_eq, ge_iff_le]
  omega

theorem hotterLe_sorted (xs : List (Callsite × Nat)) :
    (isort hotterLe xs).Pairwise (fun a b => a.1.1 < b.1.1 ∨ (a.1.1 = b.1.1 ∧ b.2 ≤ a.2)) := by
  refine (pairwise_isort hotterLe_trans hotterLe_total xs).imp ?_
  intro a b h
  simpa [hotterLe] using h

theorem atLoc_of_length_le {A : Type} (l : Nat) (xs : List (Callsite × A)) :
    (atLoc l xs).length ≤ xs.length := List.length_filter_le _ _

/-- What is erased at a location: everything beyond the `max` hottest. -/
theorem erasedCalls_atLoc (max : Nat) (l : Nat) (xs : List (Callsite × Nat)) :
    atLoc l (erasedCalls max xs) = (atLoc l (isort hotterLe xs)).drop max := by
  unfold erasedCalls
  by_cases h : (max : Int) < xs.length
  · rw [if_pos ⟨by omega, h⟩, eraseLoop_atLoc]
    · simp
    · refine (hotterLe_sorted xs).imp ?_
      intro a b h; omega
  · rw [if_neg (by omega), List.drop_eq_nil_of_le]
    · rfl
    · have := atLoc_of_length_le l (isort hotterLe xs)
      rw [length_isort] at this
      omega

theorem mem_atLoc {A : Type} {l : Nat} {xs : List (Callsite × A)} {p : Callsite × A} :
    p ∈ atLoc l xs ↔ p ∈ xs ∧ p.1.1 = l := by simp [atLoc]

theorem mem_erasedCalls (max : Nat) (xs : List (Callsite × Nat)) (p : Callsite × Nat) :
    p ∈ erasedCalls max xs ↔ p ∈ (atLoc p.1.1 (isort hotterLe xs)).drop max := by
  rw [← erasedCalls_atLoc, mem_atLoc]; simp

theorem erasedCalls_sub (max : Int) (xs : List (Callsite × Nat)) :
    (erasedCalls max xs).Sublist (isort hotterLe xs) := by
  have : ∀ (m n : Nat) (ys : List (Callsite × Nat)), (eraseLoop m n ys).Sublist ys := by
    intro m n ys
    induction ys generalizing n with
    | nil => simp [eraseLoop]
    | cons y t ih =>
      simp only [eraseLoop]
      by_cases h : n ≥ m
      · rw [if_pos h]; exact (ih _).cons_cons _
      · rw [if_neg h]; exact (ih _).cons _
  unfold erasedCalls
  split
  · exact this _ _ _
  · exact List.nil_sublist _

theorem totalsOf_eq (cs : List (Callsite × Sym)) :
    totalsOf cs = cs.map (fun p => (p.1, p.2.data.total)) := by
  induction cs with
  | nil => rfl
  | cons a t ih => obtain ⟨k, s⟩ := a; simp [totalsOf, ih]

theorem throttleCalls_eq (max : Int) (er : List Callsite) (cs : List (Callsite × Sym)) :
    throttleCalls max er cs =
      (cs.filter (fun p => decide (p.1 ∉ er))).map (fun p => (p.1, p.2.throttle max)) := by
  induction cs with
  | nil => simp [throttleCalls]
  | cons a t ih =>
    obtain ⟨k, s⟩ := a
    by_cases h : k ∈ er <;> simp [throttleCalls, h, ih]

/-- Keys erased below `s`. -/
def Sym.erasedKeys (s : Sym) (max : Int) : List Callsite :=
  (erasedCalls max (totalsOf s.calls)).map Prod.fst

theorem throttle_calls (s : Sym) (max : Int) : (s.throttle max).1.calls =
    (s.calls.filter (fun p => decide (p.1 ∉ s.erasedKeys max))).map
      (fun p => (p.1, (p.2.throttle max).1)) := by
  cases s with
  | mk d cs =>
    simp only [Sym.throttle, Sym.calls, throttleCalls_eq, List.map_map, Sym.erasedKeys]
    rfl

theorem throttle_removed (s : Sym) (max : Int) : (s.throttle max).2 =
    min (((erasedCalls max (totalsOf s.calls)).map Prod.snd).sum +
      ((s.calls.filter (fun p => decide (p.1 ∉ s.erasedKeys max))).map
        (fun p => (p.2.throttle max).2)).sum) s.data.total := by
  cases s with
  | mk d cs =>
    simp only [Sym.throttle, Sym.calls, throttleCalls_eq, List.map_map, Sym.erasedKeys, Sym.data]
    rfl

theorem throttle_data (s : Sym) (max : Int) : (s.throttle max).1.data =
    { s.data with total := s.data.total - (s.throttle max).2 } := by
  cases s with
  | mk d cs => rfl

theorem lookup_filter_map {A B : Type} (cs : List (Callsite × A)) (q : Callsite → Bool) (f : A → B)
    (k : Callsite) :
    lookup ((cs.filter (fun p => q p.1)).map (fun p => (p.1, f p.2))) k =
      if q k then (lookup cs k).map f else none := by
  induction cs with
  | nil => simp [lookup]
  | cons a t ih =>
    obtain ⟨k', s⟩ := a
    rw [List.filter_cons]
    by_cases hk : k = k'
    · subst hk
      by_cases hq : q k
      · simp [hq, lookup]
      · rw [if_neg hq]; rw [ih]; simp [hq]
    · by_cases hq : q k'
      · simp only [hq, if_true, List.map_cons, lookup, hk, if_false, ih]
      · rw [if_neg hq, ih]; simp only [lookup, hk, if_false]

theorem lookup_throttle (s : Sym) (max : Int) (k : Callsite) :
    lookup (s.throttle max).1.calls k =
      if k ∈ s.erasedKeys max then none
      else (lookup s.calls k).map (fun c => (c.throttle max).1) := by
  rw [throttle_calls, lookup_filter_map s.calls (fun k => decide (k ∉ s.erasedKeys max))
    (fun c => (c.throttle max).1)]
  by_cases h : k ∈ s.erasedKeys max <;> simp [h]

theorem mem_erasedKeys {s : Sym} (h : s.WF) (max : Nat) {k : Callsite} {c : Sym}
    (hk : lookup s.calls k = some c) :
    k ∈ s.erasedKeys max ↔
      (k, c.data.total) ∈ (atLoc k.1 (isort hotterLe (totalsOf s.calls))).drop max := by
  have hn := ((Sym.WF_iff s).1 h).2.2.1
  unfold Sym.erasedKeys
  rw [List.mem_map]
  constructor
  · rintro ⟨p, hp, rfl⟩
    rw [mem_erasedCalls] at hp
    have : p ∈ totalsOf s.calls := by
      have := mem_atLoc.1 (List.mem_of_mem_drop hp)
      exact mem_isort.1 this.1
    rw [totalsOf_eq, List.mem_map] at this
    obtain ⟨q, hq, rfl⟩ := this
    have := lookup_of_mem hn (k := q.1) (s := q.2) hq
    simp only at hk
    rw [this] at hk
    cases hk
    exact hp
  · intro hp
    exact ⟨_, (mem_erasedCalls _ _ _).2 hp, rfl⟩

theorem erasedKeys_nodup {s : Sym} (h : s.WF) (max : Int) : (s.erasedKeys max).Nodup := by
  have hn := ((Sym.WF_iff s).1 h).2.2.1
  unfold Sym.erasedKeys
  refine ((erasedCalls_sub max _).map Prod.fst).nodup ?_
  rw [((isort_perm _ _).map _).nodup_iff, totalsOf_eq, List.map_map]
  exact hn

theorem filter_notMem_drop {A : Type} [DecidableEq A] (l : List A) (hn : l.Nodup) (n : Nat) :
    l.filter (fun x => decide (x ∉ l.drop n)) = l.take n := by
  conv_lhs => rw [show l.filter (fun x => decide (x ∉ l.drop n)) =
    (l.take n ++ l.drop n).filter (fun x => decide (x ∉ l.drop n)) by rw [List.take_append_drop]]
  rw [List.filter_append]
  have hn' : (l.take n ++ l.drop n).Nodup := by rwa [List.take_append_drop]
  rw [List.nodup_append] at hn'
  rw [List.filter_eq_self.2, List.filter_eq_nil_iff.2, List.append_nil]
  · intro a ha; simpa using ha
  · intro a ha
    simp only [decide_eq_true_eq]
    intro hb
    exact hn'.2.2 a ha a hb rfl

theorem throttle_loc_length {s : Sym} (h : s.WF) (max : Nat) (l : Nat) :
    (atLoc l (s.throttle max).1.calls).length = min max (atLoc l s.calls).length := by
  have hn := ((Sym.WF_iff s).1 h).2.2.1
  let ys := atLoc l (isort hotterLe (totalsOf s.calls))
  have hys : ys.Perm (atLoc l (totalsOf s.calls)) := (isort_perm _ _).filter _
  have hlen : ys.length = (atLoc l s.calls).length := by
    rw [hys.length_eq, totalsOf_eq]
    unfold atLoc
    rw [List.filter_map, List.length_map]
    rfl
  have hnd : ys.Nodup := by
    have : (ys.map Prod.fst).Nodup := by
      rw [(hys.map _).nodup_iff]
      unfold atLoc
      refine (List.filter_sublist.map Prod.fst).nodup ?_
      rw [totalsOf_eq, List.map_map]; exact hn
    exact List.Nodup.of_map _ this
  rw [throttle_calls]
  have e1 : (atLoc l ((s.calls.filter (fun p => decide (p.1 ∉ s.erasedKeys max))).map
      (fun p => (p.1, (p.2.throttle max).1)))).length =
      ((atLoc l (totalsOf s.calls)).filter (fun p => decide (p ∉ ys.drop max))).length := by
    unfold atLoc
    rw [List.filter_map, List.length_map, List.filter_filter, totalsOf_eq, List.filter_map,
      List.filter_map, List.length_map, List.filter_filter]
    congr 1
    apply List.filter_congr
    rintro ⟨k, c⟩ hp
    by_cases hl : k.1 = l
    · have := mem_erasedKeys h max (lookup_of_mem hn hp)
      subst hl
      simp only [Function.comp, beq_self_eq_true, Bool.true_and, Bool.and_true, this]
      rfl
    · have hb : (k.1 == l) = false := by simpa using hl
      simp only [Function.comp, hb, Bool.false_and, Bool.and_false]
  have e2 : ys.filter (fun p => decide (p ∉ ys.drop max)) = ys.take max := by
    rw [← filter_notMem_drop _ hnd max]
    apply List.filter_congr
    intro x _; congr
  rw [e1, ← (hys.filter _).length_eq, e2, List.length_take, hlen]

/-! ## Specification -/

/-- The inline instance (subtree) at a path of callsites. -/
def Sym.at? : Sym → List Callsite → Option Sym
  | s, [] => some s
  | s, k :: p =>
    match lookup s.calls k with
    | none => none
    | some c => c.at? p

/-- Sum of the total counts of the callees of `n` that are absent from `n'`. -/
def droppedTotal (n n' : Sym) : Nat :=
  ((n.calls.filter (fun p => (lookup n'.calls p.1).isNone)).map (fun p => p.2.data.total)).sum

/-- By how much the totals of the callees kept in `n'` decreased. -/
def keptDecrease (n n' : Sym) : Nat :=
  (n.calls.map (fun p => match lookup n'.calls p.1 with
    | none => 0
    | some c' => p.2.data.total - c'.data.total)).sum

/-- `n'` is `n` with the instances at each location limited to the `max` hottest. -/
structure Throttled (max : Nat) (n n' : Sym) : Prop where
  /-- At most `max` instances per location; all of them are kept when there are no more. -/
  limit : ∀ l, (n'.calls.filter (fun p => p.1.1 == l)).length =
    min max (n.calls.filter (fun p => p.1.1 == l)).length
  /-- No instance appears. -/
  no_new : ∀ k, lookup n.calls k = none → lookup n'.calls k = none
  /-- Each dropped instance is at most as hot as each kept one at the same location. -/
  hottest : ∀ k c k' c', k.1 = k'.1 → lookup n.calls k = some c → lookup n'.calls k = none →
    lookup n.calls k' = some c' → lookup n'.calls k' ≠ none → c.data.total ≤ c'.data.total
  /-- The total decreases by what was removed below (not below 0). -/
  total : n'.data.total = n.data.total - (droppedTotal n n' + keptDecrease n n')
  /-- Nothing else in the symbol changes. -/
  head : n'.data.head = n.data.head
  pos : n'.data.pos = n.data.pos

theorem throttle_total_add (s : Sym) (max : Int) :
    (s.throttle max).1.data.total + (s.throttle max).2 = s.data.total := by
  rw [throttle_data, throttle_removed]
  simp only
  omega

theorem sum_filter_map {A : Type} (l : List A) (q : A → Bool) (f : A → Nat) :
    ((l.filter q).map f).sum = (l.map (fun x => if q x then f x else 0)).sum := by
  induction l with
  | nil => rfl
  | cons a t ih =>
    rw [List.filter_cons]
    by_cases h : q a <;> simp [h, ih]

theorem throttle_Throttled {s : Sym} (h : s.WF) (max : Nat) : Throttled max s (s.throttle max).1 where
  limit := throttle_loc_length h max
  no_new k hk := by rw [lookup_throttle, hk]; simp
  hottest := by
    intro k c k' c' hl hk hk2 hk' hk2'
    rw [lookup_throttle] at hk2 hk2'
    by_cases he : k ∈ s.erasedKeys max
    · by_cases he' : k' ∈ s.erasedKeys max
      · simp [he'] at hk2'
      · rw [mem_erasedKeys h max hk] at he
        rw [mem_erasedKeys h max hk', ← hl] at he'
        have hm : (k', c'.data.total) ∈ atLoc k.1 (isort hotterLe (totalsOf s.calls)) := by
          rw [mem_atLoc, mem_isort, totalsOf_eq, List.mem_map]
          exact ⟨⟨(k', c'), mem_of_lookup hk', rfl⟩, hl.symm⟩
        rw [← List.take_append_drop max (atLoc k.1 _), List.mem_append] at hm
        rcases hm with hm | hm
        · have hp := (hotterLe_sorted (totalsOf s.calls)).filter (fun p => p.1.1 == k.1)
          rw [show (isort hotterLe (totalsOf s.calls)).filter (fun p => p.1.1 == k.1) =
            atLoc k.1 (isort hotterLe (totalsOf s.calls)) from rfl,
            ← List.take_append_drop max (atLoc k.1 _), List.pairwise_append] at hp
          have := hp.2.2 _ hm _ he
          simp only at this
          omega
        · exact absurd hm he'
    · rw [if_neg he, hk] at hk2; simp at hk2
  total := by
    have hn := ((Sym.WF_iff s).1 h).2.2.1
    rw [throttle_data]
    simp only
    rw [throttle_removed]
    have e1 : ((erasedCalls max (totalsOf s.calls)).map Prod.snd).sum =
        droppedTotal s (s.throttle max).1 := by
      unfold droppedTotal
      have hperm : (erasedCalls max (totalsOf s.calls)).Perm
          ((totalsOf s.calls).filter (fun p => (lookup (s.throttle max).1.calls p.1).isNone)) := by
        have hnd : (totalsOf s.calls).Nodup := by
          refine List.Nodup.of_map Prod.fst ?_
          rw [totalsOf_eq, List.map_map]; exact hn
        refine (List.perm_ext_iff_of_nodup ?_ ?_).2 ?_
        · refine (erasedCalls_sub _ _).nodup ?_
          rwa [(isort_perm _ _).nodup_iff]
        · exact hnd.filter _
        · intro p
          rw [List.mem_filter]
          constructor
          · intro hp
            have hm := mem_isort.1 ((erasedCalls_sub max _).subset hp)
            refine ⟨hm, ?_⟩
            rw [lookup_throttle, if_pos]
            · rfl
            · exact List.mem_map.2 ⟨p, hp, rfl⟩
          · rintro ⟨hm, hi⟩
            rw [totalsOf_eq, List.mem_map] at hm
            obtain ⟨q, hq, rfl⟩ := hm
            have hlk := lookup_of_mem hn (k := q.1) (s := q.2) hq
            simp only at hi
            rw [lookup_throttle, hlk] at hi
            by_cases he : q.1 ∈ s.erasedKeys max
            · rw [mem_erasedCalls]
              exact (mem_erasedKeys h max hlk).1 he
            · simp [he] at hi
      rw [(hperm.map Prod.snd).sum_nat, totalsOf_eq, List.filter_map, List.map_map]
      rfl
    have e2 : ((s.calls.filter (fun p => decide (p.1 ∉ s.erasedKeys max))).map
        (fun p => (p.2.throttle max).2)).sum = keptDecrease s (s.throttle max).1 := by
      unfold keptDecrease
      rw [sum_filter_map]
      congr 1
      apply List.map_congr_left
      rintro ⟨k, c⟩ hp
      have hlk := lookup_of_mem hn hp
      simp only
      rw [lookup_throttle, hlk]
      by_cases he : k ∈ s.erasedKeys max
      · simp [he]
      · simp only [he, not_false_eq_true, decide_true, if_true, if_false, Option.map_some]
        have := throttle_total_add c max
        exact (Nat.sub_eq_of_eq_add (by omega)).symm
    rw [e1, e2]
    omega
  head := by rw [throttle_data]
  pos := by rw [throttle_data]

/-- C13: after limiting the inline instances to `max ≥ 0`, at *every* inline path of the result the
instance there is the instance at the same path of the input, limited to its `max` hottest callees
per location, and the number returned by the (recursive) call is exactly the decrease of its total. -/
theorem throttle_spec (s : Sym) (h : s.WF) (max : Nat) (path : List Callsite) (n' : Sym)
    (hp : (s.throttle max).1.at? path = some n') :
    ∃ n, s.at? path = some n ∧ Throttled max n n' ∧ n' = (n.throttle max).1 ∧
      n'.data.total + (n.throttle max).2 = n.data.total := by
  induction path generalizing s with
  | nil =>
    simp only [Sym.at?, Option.some.injEq] at hp ⊢
    subst hp
    exact ⟨s, rfl, throttle_Throttled h max, rfl, throttle_total_add s max⟩
  | cons k p ih =>
    simp only [Sym.at?] at hp ⊢
    rw [lookup_throttle] at hp
    by_cases he : k ∈ s.erasedKeys max
    · simp [he] at hp
    · rw [if_neg he] at hp
      cases hk : lookup s.calls k with
      | none => simp [hk] at hp
      | some c =>
        simp only [hk, Option.map_some] at hp
        exact ih c (h.child hk) hp

/-- C13: a negative limit changes nothing. -/
theorem throttle_negative (m : List (Name × Sym)) (max : Int) (h : max < 0) : throttleMap max m = m := by
  simp [throttleMap, h]

/-- A profile is consistent if every total is the sum of the location counts and of the totals of the
inlined callees. -/
def Sym.Consistent (s : Sym) : Prop :=
  ∀ path n, s.at? path = some n →
    n.data.total = (n.data.pos.map (fun p => p.2.count)).sum +
      (n.calls.map (fun p => p.2.data.total)).sum

theorem sum_split_calls {n n' : Sym} (hn : (n.calls.map Prod.fst).Nodup) {max : Nat}
    (h : n' = (n.throttle max).1) :
    (n.calls.map (fun p => p.2.data.total)).sum =
      (n'.calls.map (fun p => p.2.data.total)).sum + droppedTotal n n' + keptDecrease n n' := by
  subst h
  rw [throttle_calls, List.map_map]
  rw [show ((fun p : Callsite × Sym => p.2.data.total) ∘ fun p => (p.1, (p.2.throttle max).1)) =
    (fun p : Callsite × Sym => (p.2.throttle max).1.data.total) from rfl, sum_filter_map]
  unfold droppedTotal keptDecrease
  rw [sum_filter_map]
  have key : ∀ cs : List (Callsite × Sym), (∀ p ∈ cs, p ∈ n.calls) →
      (cs.map (fun p => p.2.data.total)).sum =
      (cs.map (fun x => if decide (x.1 ∉ n.erasedKeys max) = true then (x.2.throttle max).1.data.total
        else 0)).sum +
      (cs.map (fun x => if (lookup (n.throttle max).1.calls x.1).isNone = true then x.2.data.total
        else 0)).sum +
      (cs.map (fun p => match lookup (n.throttle max).1.calls p.1 with
        | none => 0
        | some c' => p.2.data.total - c'.data.total)).sum := by
    intro cs hcs
    induction cs with
    | nil => rfl
    | cons a t ih =>
      have := ih (fun p hp => hcs p (List.mem_cons_of_mem _ hp))
      simp only [List.map_cons, List.sum_cons]
      rw [this]
      have hlk := lookup_of_mem hn (k := a.1) (s := a.2) (hcs a List.mem_cons_self)
      have hl := lookup_throttle n max a.1
      rw [hlk] at hl
      have ha := throttle_total_add a.2 max
      by_cases he : a.1 ∈ n.erasedKeys max
      · rw [if_pos he] at hl
        simp only [hl, he, not_true_eq_false, decide_false, Bool.false_eq_true, if_false,
          Option.isNone_none, if_true]
        omega
      · rw [if_neg he] at hl
        simp only [hl, he, not_false_eq_true, decide_true, if_true, Option.map_some,
          Option.isNone_some, Bool.false_eq_true, if_false]
        have e : a.2.data.total - (a.2.throttle max).1.data.total = (a.2.throttle max).2 :=
          Nat.sub_eq_of_eq_add (by omega)
        rw [e]
        omega
  exact key n.calls (fun p hp => hp)

/-- C13: in a consistent profile throttling never has to cap: the result is again consistent, so the
samples removed are exactly those of the dropped instances. -/
theorem throttle_consistent (s : Sym) (h : s.WF) (hc : s.Consistent) (max : Nat) :
    (s.throttle max).1.Consistent := by
  intro path n' hp
  obtain ⟨n, hn, ht, he, _⟩ := throttle_spec s h max path n' hp
  have hwf : n.WF := by
    clear hc hp ht he
    induction path generalizing s with
    | nil => simp [Sym.at?] at hn; subst hn; exact h
    | cons k p ih =>
      simp only [Sym.at?] at hn
      cases hk : lookup s.calls k with
      | none => simp [hk] at hn
      | some c => simp only [hk] at hn; exact ih c (h.child hk) hn
  have h1 := hc path n hn
  have h2 := sum_split_calls (((Sym.WF_iff n).1 hwf).2.2.1) he
  rw [ht.total, ht.pos, h1, h2]
  omega

theorem throttle_WF (max : Int) : (s : Sym) → s.WF → (s.throttle max).1.WF
  | .mk d cs, h => by
    have hw := (Sym.WF_iff _).1 h
    rw [Sym.WF_iff, throttle_data, throttle_calls]
    refine ⟨hw.1, hw.2.1, ?_, ?_⟩
    · rw [List.map_map]
      exact (List.filter_sublist.map _).nodup hw.2.2.1
    · intro p hp
      rw [List.mem_map] at hp
      obtain ⟨q, hq, rfl⟩ := hp
      have hmem := List.mem_of_mem_filter hq
      have : sizeOf q.2 < 1 + sizeOf d + sizeOf cs := by
        have h1 := List.sizeOf_lt_of_mem hmem
        have h2 : sizeOf q.2 < sizeOf q := by cases q; simp
        simp only [Sym.calls] at h1
        omega
      exact throttle_WF max q.2 (hw.2.2.2 q hmem)
termination_by s => sizeOf s

theorem throttle_noop (max : Nat) : (s : Sym) → s.WF →
    (∀ path n, s.at? path = some n → ∀ l, (n.calls.filter (fun p => p.1.1 == l)).length ≤ max) →
    s.throttle max = (s, 0)
  | .mk d cs, h, hl => by
    have hw := (Sym.WF_iff _).1 h
    have he : erasedCalls max (totalsOf cs) = [] := by
      rw [List.eq_nil_iff_forall_not_mem]
      intro p hp
      rw [mem_erasedCalls] at hp
      have h1 := hl [] (.mk d cs) rfl p.1.1
      have : (atLoc p.1.1 (isort hotterLe (totalsOf cs))).length ≤ max := by
        have hp2 := ((isort_perm hotterLe (totalsOf cs)).filter
          (fun q => q.1.1 == p.1.1)).length_eq
        unfold atLoc
        rw [hp2, totalsOf_eq, List.filter_map, List.length_map]
        exact h1
      rw [List.drop_eq_nil_of_le this] at hp
      cases hp
    have hk : ∀ q ∈ cs, q.2.throttle max = (q.2, 0) := by
      intro q hq
      have : sizeOf q.2 < 1 + sizeOf d + sizeOf cs := by
        have h1 := List.sizeOf_lt_of_mem hq
        have h2 : sizeOf q.2 < sizeOf q := by cases q; simp
        omega
      refine throttle_noop max q.2 (hw.2.2.2 q hq) ?_
      intro path n hn
      refine hl (q.1 :: path) n ?_
      simp only [Sym.at?, Sym.calls]
      rw [lookup_of_mem (l := cs) hw.2.2.1 (k := q.1) (s := q.2) hq]
      exact hn
    simp only [Sym.throttle, he, throttleCalls_eq, List.map_nil, List.not_mem_nil,
      not_false_eq_true, decide_true, List.filter_true, List.map_map, List.sum_nil]
    have e1 : cs.map ((fun p : Callsite × (Sym × Nat) => (p.1, p.2.1)) ∘
        fun p => (p.1, p.2.throttle max)) = cs := by
      conv_rhs => rw [← List.map_id cs]
      apply List.map_congr_left
      intro q hq
      simp [hk q hq]
    have e2 : (cs.map ((fun p : Callsite × (Sym × Nat) => p.2.2) ∘
        fun p => (p.1, p.2.throttle max))).sum = 0 := by
      rw [List.sum_eq_zero_iff_forall_eq_nat]
      intro x hx
      rw [List.mem_map] at hx
      obtain ⟨q, hq, rfl⟩ := hx
      simp [hk q hq]
    rw [e1, e2]
    simp
termination_by s => sizeOf s

/-- C13: applying the limit again (as happens to symbols reachable under several alias names)
removes nothing more. -/
theorem throttle_idem (s : Sym) (h : s.WF) (max : Nat) :
    (s.throttle max).1.throttle max = ((s.throttle max).1, 0) := by
  refine throttle_noop max _ (throttle_WF _ s h) ?_
  intro path n' hn l
  obtain ⟨n, _, ht, _⟩ := throttle_spec s h max path n' hn
  rw [ht.limit]
  omega

/-- A concrete profile with three inlined callees at location 5, two with equal totals, and one at
location 9. -/
def exampleThrottle : Sym :=
  .mk ⟨100, 1, [(1, ⟨30, 1, []⟩)]⟩
    [((5, [97]), .mk ⟨20, 0, []⟩ []), ((9, [98]), .mk ⟨5, 0, []⟩ []),
     ((5, [99]), .mk ⟨25, 0, []⟩ []), ((5, [100]), .mk ⟨20, 0, []⟩ [])]

example : exampleThrottle.WF := by
  simp [exampleThrottle, Sym.WF, WFCalls, OMap.Sorted]

example : (exampleThrottle.throttle 2).2 = 20 ∧
    ((exampleThrottle.throttle 2).1.calls.map Prod.fst) = [(5, [97]), (9, [98]), (5, [99])] := by
  decide +kernel

/-! ## C14 -/

theorem targetLe_iff (a b : Name × Nat) :
    targetLe a b = true ↔ b.2 < a.2 ∨ (a.2 = b.2 ∧ a.1 ≤ b.1) := by
  simp [targetLe]

theorem targetLe_trans (a b c : Name × Nat) (h1 : targetLe a b = true)
    (h2 : targetLe b c = true) : targetLe a c = true := by
  rw [targetLe_iff] at *
  rcases h1 with h1 | ⟨h1, h1'⟩ <;> rcases h2 with h2 | ⟨h2, h2'⟩
  · left; omega
  · left; omega
  · left; omega
  · right; exact ⟨by omega, le_trans h1' h2'⟩

theorem targetLe_total (a b : Name × Nat) : (targetLe a b || targetLe b a) = true := by
  rw [Bool.or_eq_true, targetLe_iff, targetLe_iff]
  rcases Nat.lt_trichotomy a.2 b.2 with h | h | h
  · right; left; exact h
  · rcases le_total a.1 b.1 with h' | h'
    · left; right; exact ⟨h, h'⟩
    · right; right; exact ⟨h.symm, h'⟩
  · left; left; exact h

theorem insertAll_aux (xs : List (Name × Nat)) (hn : (xs.map Prod.fst).Nodup) (m : OMap Name Nat)
    (hm : OMap.Sorted m) (hd : ∀ p ∈ xs, OMap.find? m p.1 = none) :
    OMap.Sorted (xs.foldl (fun m x => OMap.upsert x.1 (fun o => o.getD x.2) m) m) ∧
    ∀ k v, OMap.find? (xs.foldl (fun m x => OMap.upsert x.1 (fun o => o.getD x.2) m) m) k = some v ↔
      OMap.find? m k = some v ∨ (k, v) ∈ xs := by
  induction xs generalizing m with
  | nil => simp [hm]
  | cons x t ih =>
    rw [List.map_cons, List.nodup_cons] at hn
    have hx := hd x List.mem_cons_self
    have := ih hn.2 (OMap.upsert x.1 (fun o => o.getD x.2) m) (hm.upsert _ _) (by
      intro p hp
      rw [OMap.find?_upsert hm, if_neg]
      · exact hd p (List.mem_cons_of_mem _ hp)
      · intro e; exact hn.1 (List.mem_map.2 ⟨p, hp, e⟩))
    refine ⟨this.1, ?_⟩
    intro k v
    rw [List.foldl_cons, this.2 k v, OMap.find?_upsert hm, List.mem_cons, hx]
    by_cases hk : k = x.1
    · subst hk
      simp only [if_true, Option.getD_none, Option.some.injEq, hx, reduceCtorEq, false_or]
      constructor
      · rintro (h | h)
        · left; rw [← h]
        · right; exact h
      · rintro (h | h)
        · left; rw [← h]
        · right; exact h
    · rw [if_neg hk]
      constructor
      · rintro (h | h)
        · left; exact h
        · right; right; exact h
      · rintro (h | h | h)
        · left; exact h
        · exact absurd (by rw [← h]) hk
        · right; exact h

theorem OMap_Sorted_keys_nodup {K V : Type} [LinearOrder K] {m : OMap K V} (h : OMap.Sorted m) :
    (m.map Prod.fst).Nodup := by
  unfold List.Nodup
  rw [List.pairwise_map]
  exact List.Pairwise.imp (fun h => ne_of_lt h) h

theorem insertAll_spec (xs : List (Name × Nat)) (hn : (xs.map Prod.fst).Nodup) :
    OMap.Sorted (insertAll xs) ∧ (insertAll xs).Perm xs := by
  have h := insertAll_aux xs hn [] OMap.sorted_nil (by simp [OMap.find?])
  refine ⟨h.1, ?_⟩
  refine (List.perm_ext_iff_of_nodup (List.Nodup.of_map Prod.fst (OMap_Sorted_keys_nodup h.1))
    (List.Nodup.of_map Prod.fst hn)).2 ?_
  rintro ⟨k, v⟩
  have := h.2 k v
  rw [OMap.find?_eq_some_iff h.1] at this
  exact this.trans (by simp [OMap.find?])

/-- `t'` is the target map `t` reduced to its `max` top targets (count descending, ties by name
ascending). -/
structure TopTargets (max : Nat) (t t' : OMap Name Nat) : Prop where
  sorted : OMap.Sorted t'
  /-- Exactly `min max (size)` targets are left. -/
  size : t'.length = min max t.length
  /-- Kept targets keep their counts. -/
  sub : ∀ p ∈ t', p ∈ t
  /-- Kept targets beat dropped targets. -/
  top : ∀ p ∈ t', ∀ q ∈ t, q ∉ t' → q.2 < p.2 ∨ (q.2 = p.2 ∧ p.1 < q.1)

theorem trimTargets_spec (max : Nat) (t : OMap Name Nat) (ht : OMap.Sorted t) :
    TopTargets max t (trimTargets max t) := by
  unfold trimTargets
  by_cases h : (max : Int) < 0 ∨ (t.length : Int) ≤ max
  · rw [if_pos h]
    have : t.length ≤ max := by omega
    exact ⟨ht, by omega, fun p hp => hp, fun p _ q hq hq' => absurd hq hq'⟩
  · rw [if_neg h, Int.toNat_natCast]
    have hp := isort_perm targetLe t
    have hn : (((isort targetLe t).take max).map Prod.fst).Nodup := by
      refine ((List.take_sublist _ _).map Prod.fst).nodup ?_
      rw [(hp.map _).nodup_iff]
      exact OMap_Sorted_keys_nodup ht
    obtain ⟨h1, h2⟩ := insertAll_spec _ hn
    refine ⟨h1, ?_, ?_, ?_⟩
    · rw [h2.length_eq, List.length_take, hp.length_eq]
    · intro p hm
      exact hp.mem_iff.1 (List.mem_of_mem_take (h2.mem_iff.1 hm))
    · intro p hm q hq hq'
      have hm1 := h2.mem_iff.1 hm
      have hq1 := hp.mem_iff.2 hq
      rw [h2.mem_iff] at hq'
      rw [← List.take_append_drop max (isort targetLe t), List.mem_append] at hq1
      have hq2 := hq1.resolve_left hq'
      have hs := pairwise_isort targetLe_trans targetLe_total t
      rw [← List.take_append_drop max (isort targetLe t), List.pairwise_append] at hs
      have := hs.2.2 p hm1 q hq2
      rw [targetLe_iff] at this
      rcases this with h | ⟨h, h'⟩
      · exact Or.inl h
      · right
        refine ⟨h.symm, lt_of_le_of_ne h' ?_⟩
        intro e
        exact hq' (by rw [show q = p from Prod.ext e.symm h.symm]; exact hm1)

theorem lookup_trimCalls (max : Int) (cs : List (Callsite × Sym)) (k : Callsite) :
    lookup (trimCalls max cs) k = (lookup cs k).map (Sym.trim max) := by
  induction cs with
  | nil => simp [trimCalls, lookup]
  | cons a t ih =>
    obtain ⟨k', s⟩ := a
    simp only [trimCalls, lookup]
    by_cases h : k = k' <;> simp [h, ih]

theorem trim_node? (max : Int) (s : Sym) (path : List Callsite) :
    (s.trim max).node? path =
      (s.node? path).map (fun d => { d with pos := trimPos max d.pos }) := by
  induction path generalizing s with
  | nil => cases s; simp [Sym.node?, Sym.trim, Sym.data]
  | cons k p ih =>
    cases s with
    | mk d cs =>
      simp only [Sym.node?, Sym.trim, Sym.calls, lookup_trimCalls]
      cases lookup cs k with
      | none => simp
      | some c => simpa using ih c

theorem find?_trimPos (max : Int) (m : PosMap) (loc : Nat) :
    OMap.find? (trimPos max m) loc =
      (OMap.find? m loc).map (fun i => { i with targets := trimTargets max i.targets }) := by
  unfold trimPos
  induction m with
  | nil => simp [OMap.find?]
  | cons a t ih =>
    simp only [List.map_cons, OMap.find?, ih]
    split <;> simp

/-- C14: trimming to `max ≥ 0` call targets leaves, at every inline path and every location, exactly
the top `max` targets (all of them if there are no more), each with its count, and changes no other
count, location or inline instance. -/
theorem trim_spec (s : Sym) (h : s.WF) (max : Nat) (path : List Callsite) :
    ((s.trim max).node? path).isSome = (s.node? path).isSome ∧
    ∀ d', (s.trim max).node? path = some d' → ∃ d, s.node? path = some d ∧
      d'.total = d.total ∧ d'.head = d.head ∧
      ∀ loc, (OMap.find? d'.pos loc).isSome = (OMap.find? d.pos loc).isSome ∧
        ∀ i', OMap.find? d'.pos loc = some i' → ∃ i, OMap.find? d.pos loc = some i ∧
          i'.count = i.count ∧ i'.numInst = i.numInst ∧ TopTargets max i.targets i'.targets := by
  rw [trim_node?]
  refine ⟨by simp, ?_⟩
  intro d' hd
  have hw := h.node path
  cases hn : s.node? path with
  | none => simp [hn] at hd
  | some d =>
    simp only [hn, Option.map_some, Option.some.injEq] at hd
    subst hd
    refine ⟨d, rfl, rfl, rfl, ?_⟩
    intro loc
    simp only [find?_trimPos]
    refine ⟨by simp, ?_⟩
    intro i' hi
    cases hf : OMap.find? d.pos loc with
    | none => simp [hf] at hi
    | some i =>
      simp only [hf, Option.map_some, Option.some.injEq] at hi
      subst hi
      refine ⟨i, rfl, rfl, rfl, trimTargets_spec max _ ?_⟩
      simp only [hn, Option.getD_some] at hw
      exact hw.2 _ (OMap.mem_of_find?_some hf)

/-- C14: a negative limit changes nothing (the comparison is done in `size_t`). -/
theorem trim_negative (max : Int) (hneg : max < 0) (s : Sym) (path : List Callsite) :
    (s.trim max).node? path = s.node? path := by
  rw [trim_node?]
  have : ∀ m : PosMap, trimPos max m = m := by
    intro m
    unfold trimPos trimTargets
    simp [hneg]
  cases s.node? path <;> simp [this]

example : trimTargets 2 [([97], 3), ([98], 7), ([99], 3)] = [([97], 3), ([98], 7)] := by
  decide +kernel

end Verif.SymbolMap

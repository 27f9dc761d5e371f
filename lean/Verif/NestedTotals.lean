import Verif.NestedMain
import Mathlib.Data.ZMod.Basic
import Mathlib.Algebra.BigOperators.Ring.Finset
import Mathlib.Tactic.LinearCombination

/-! # Totals under `FlattenNestedInlineCallsites` when no inline stack contains a function twice -/
namespace Verif.SymbolMap
open Verif.Compute

variable {R : Type} [CommRing R]

/-- The total at a place. -/
def totAt (m : SymMap) (x : Name × List Callsite) : Nat := ((view m x).map Data.total).getD 0
/-- The sum of the counts of all locations. -/
def cnt (d : Data) : Nat := (d.pos.map fun p => p.2.count).sum
/-- The sum of the counts of all locations at a place. -/
def cntAt (m : SymMap) (x : Name × List Callsite) : Nat := ((view m x).map cnt).getD 0

/-- The place reached by one more call. -/
def down (x : Name × List Callsite) (k : Callsite) : Name × List Callsite := (x.1, x.2 ++ [k])

/-- The total at a place is the sum of its counts and of the totals of its callees, in `R`. -/
def Ok (R : Type) [CommRing R] (m : SymMap) (x : Name × List Callsite) : Prop :=
  ∀ K : List Callsite, K.Nodup → (∀ k, (view m (down x k)).isSome = true → k ∈ K) → (totAt m x : R) = cntAt m x + (K.map fun k => (totAt m (down x k) : R)).sum

theorem totAt_none {m : SymMap} {x : Name × List Callsite} (h : ¬ (view m x).isSome = true) : totAt m x = 0 := by
  unfold totAt
  cases hv : view m x with
  | none => rfl
  | some d => rw [hv] at h; exact absurd rfl h

theorem sum_filter_zero (f : Callsite → R) (P : Callsite → Bool) : ∀ K : List Callsite, (∀ k ∈ K, P k = false → f k = 0) → (K.map f).sum = ((K.filter P).map f).sum
  | [], _ => rfl
  | k :: K, h => by
    have ih := sum_filter_zero f P K fun k' hk' => h k' (by simp [hk'])
    cases hp : P k with
    | true => rw [List.filter_cons_of_pos hp, List.map_cons, List.map_cons, List.sum_cons, List.sum_cons, ih]
    | false => rw [List.filter_cons_of_neg (by simp [hp]), List.map_cons, List.sum_cons, h k (by simp) hp, zero_add, ih]

theorem sum_cover {m : SymMap} {x : Name × List Callsite} {K K' : List Callsite} (h1 : K.Nodup) (h1' : K'.Nodup) (h2 : ∀ k, (view m (down x k)).isSome = true → k ∈ K)
    (h2' : ∀ k, (view m (down x k)).isSome = true → k ∈ K') : (K.map fun k => (totAt m (down x k) : R)).sum = (K'.map fun k => (totAt m (down x k) : R)).sum := by
  have hz : ∀ L : List Callsite, ∀ k ∈ L, (view m (down x k)).isSome = false → (totAt m (down x k) : R) = 0 := fun L k _ h => by
    rw [totAt_none (by rw [h]; simp)]; simp
  rw [sum_filter_zero _ (fun k => (view m (down x k)).isSome) K (hz K), sum_filter_zero _ (fun k => (view m (down x k)).isSome) K' (hz K')]
  have hp : (K.filter fun k => (view m (down x k)).isSome).Perm (K'.filter fun k => (view m (down x k)).isSome) := by
    refine (List.perm_ext_iff_of_nodup (h1.filter _) (h1'.filter _)).2 fun k => ?_
    rw [List.mem_filter, List.mem_filter]
    exact ⟨fun h => ⟨h2' k h.2, h.2⟩, fun h => ⟨h2 k h.2, h.2⟩⟩
  exact (hp.map _).sum_eq

theorem ok_of {m : SymMap} {x : Name × List Callsite} {K : List Callsite} (h1 : K.Nodup) (h2 : ∀ k, (view m (down x k)).isSome = true → k ∈ K)
    (h : (totAt m x : R) = cntAt m x + (K.map fun k => (totAt m (down x k) : R)).sum) : Ok R m x := fun K' h1' h2' => by
  rw [h, sum_cover h1 h1' h2 h2']

theorem ok_congr {m m' : SymMap} {x : Name × List Callsite} (h0 : (view m' x).map Data.body' = (view m x).map Data.body')
    (hc : ∀ k, (view m' (down x k)).map Data.body' = (view m (down x k)).map Data.body') (h : Ok R m x) : Ok R m' x := by
  have ht : ∀ y, (view m' y).map Data.body' = (view m y).map Data.body' → totAt m' y = totAt m y ∧ cntAt m' y = cntAt m y := by
    intro y hy
    unfold totAt cntAt
    cases h1 : view m' y <;> cases h2 : view m y <;> rw [h1, h2] at hy
    · exact ⟨rfl, rfl⟩
    · cases hy
    · cases hy
    · injection hy with hy
      have e1 := congrArg Prod.fst hy
      have e2 := congrArg Prod.snd hy
      simp only [Data.body'] at e1 e2
      refine ⟨e1, ?_⟩
      simp only [Option.map_some, Option.getD_some, cnt, e2]
  intro K h1 h2
  rw [(ht x h0).1, (ht x h0).2, h K h1 fun k hk => h2 k (by rw [isSome_of_body (hc k)]; exact hk)]
  congr 2
  exact List.map_congr_left fun k _ => by rw [(ht _ (hc k)).1]

/-- The calls of the symbol at a place. -/
theorem exists_keys {m : SymMap} (hm : m.WF) (x : Name × List Callsite) : ∃ K : List Callsite, K.Nodup ∧ ∀ k, (view m (down x k)).isSome = true ↔ k ∈ K := by
  cases hs : subAt m x.1 x.2 with
  | none =>
    refine ⟨[], List.nodup_nil, fun k => ?_⟩
    unfold down
    rw [view_none_below hs]; simp
  | some s => exact ⟨s.calls.map Prod.fst, ((Sym.WF_iff _).1 (subAt_wf hm hs)).2.2.1, fun k => calls_isSome hs k⟩

theorem cast_mod (hR : ((2 ^ 64 : ℕ) : R) = 0) (a : Nat) : ((a % 2 ^ 64 : ℕ) : R) = (a : R) := by
  have h := congrArg (fun n : ℕ => (n : R)) (Nat.div_add_mod a (2 ^ 64))
  simp only [Nat.cast_add, Nat.cast_mul] at h
  rw [hR, zero_mul, zero_add] at h
  exact h

theorem cast_wsub (hR : ((2 ^ 64 : ℕ) : R) = 0) (a b : Nat) : ((wsub a b : ℕ) : R) = (a : R) - (b : R) := by
  unfold wsub
  rw [cast_mod hR, Nat.cast_sub (by have := Nat.mod_lt b (show 0 < 2 ^ 64 by norm_num); omega), Nat.cast_add, hR, cast_mod hR, add_zero]

theorem sum_modify (k : Nat) (f : PInfo → PInfo) : ∀ m : PosMap, OMap.Sorted m →
    ((PosMap.modify m k f).map fun p => p.2.count).sum + m.countAt k = (m.map fun p => p.2.count).sum + (PosMap.modify m k f).countAt k := by
  intro m hm
  have h1 : (PosMap.modify m k f).countAt k = (f ((OMap.find? m k).getD PInfo.zero)).count := by
    unfold PosMap.countAt
    rw [PosMap.find?_modify hm, if_pos rfl]; rfl
  rw [h1]
  unfold PosMap.modify PosMap.countAt
  induction m with
  | nil => simp [OMap.upsert, OMap.find?, PInfo.zero]
  | cons x t ih =>
    obtain ⟨k', v⟩ := x
    have hs := List.pairwise_cons.1 hm
    rw [OMap.upsert]
    by_cases h1 : k < k'
    · rw [if_pos h1, OMap.find?_eq_none_of_lt (m := (k', v) :: t)]
      · simp [PInfo.zero]; omega
      · intro p hp
        rcases List.mem_cons.1 hp with rfl | hp
        · exact h1
        · exact lt_trans h1 (hs.1 p hp)
    · rw [if_neg h1]
      by_cases h2 : k = k'
      · subst h2
        rw [if_pos rfl, OMap.find?, if_pos rfl]
        simp; omega
      · rw [if_neg h2, OMap.find?, if_neg h2]
        have := ih hs.2 (by unfold PosMap.countAt; rw [PosMap.find?_modify hs.2, if_pos rfl]; rfl)
        simp only [List.map_cons, List.sum_cons]
        omega

theorem flattenInto_total (hR : ((2 ^ 64 : ℕ) : R) = 0) (k : Callsite) (c : Sym) (d : Data) (h1 : OMap.Sorted d.pos) (h2 : d.pos.TargetsOk) :
    ((flattenInto k c d).total : R) - cnt (flattenInto k c d) = (d.total : R) - cnt d := by
  have s1 : OMap.Sorted (flattenCallsite d.pos (k, c)) := PosMap.sorted_modify h1 _ _
  have a1 := sum_modify k.1 (fun p => { p with count := max p.count c.data.head, targets := OMap.add p.targets (k.2, c.data.head) }) d.pos h1
  have a2 := sum_modify k.1 (fun p => { p with count := max p.count (OMap.get0 p.targets k.2) }) _ s1
  have e := flatten_into k c d h1 h2
  have a3 : cnt (flattenInto k c d) + d.pos.countAt k.1 = cnt d + (flattenInto k c d).pos.countAt k.1 := by
    unfold cnt
    rw [flattenInto_pos]
    unfold flattenCallsite at a2 ⊢
    simp only at a1 a2 ⊢
    omega
  have hle : d.pos.countAt k.1 ≤ (flattenInto k c d).pos.countAt k.1 := by
    rw [e.2.2.2.2 k.1, if_pos rfl]; exact le_max_left _ _
  rw [e.2.1, cast_mod hR, Nat.cast_add, Nat.cast_sub hle]
  have a4 := congrArg (fun n : ℕ => (n : R)) a3
  simp only [Nat.cast_add] at a4
  linear_combination (-1 : R) * a4

/-- The place is reached before the one at `g`, `q`. -/
def Anc (g : Name) (q : List Callsite) (x : Name × List Callsite) : Prop := x.1 = g ∧ x.2 <+: q ∧ x.2 ≠ q

theorem anc_snoc {g : Name} {q : List Callsite} {k : Callsite} {x : Name × List Callsite} (h : Anc g (q ++ [k]) x) : Anc g q x ∨ x = (g, q) := by
  obtain ⟨h1, h2, h3⟩ := h
  obtain ⟨n, p⟩ := x
  simp only at h1 h2 h3
  subst h1
  rcases List.prefix_concat_iff.1 h2 with h | h
  · exact absurd h h3
  · by_cases e : p = q
    · exact Or.inr (by rw [e])
    · exact Or.inl ⟨rfl, h, e⟩

/-- No inline stack contains a function twice. -/
def NoRec (m : SymMap) : Prop := ∀ x, (view m x).isSome = true → (stack x).Nodup

theorem Eff.noRec {mx : Nat} {G D : Name × List Callsite → Prop} {m m' : SymMap} (h : Eff mx G D m m') (hn : NoRec m) : NoRec m' := fun x hx => by
  obtain ⟨y, hy, hs⟩ := h.names x hx
  exact (hn y hy).sublist hs.sublist

theorem noRec_ne {m : SymMap} (hn : NoRec m) {g : Name} {q : List Callsite} {k : Callsite} (h : (view m (g, q ++ [k])).isSome = true) : k.2 ≠ g := by
  have := hn _ h
  unfold stack at this
  simp only [List.map_append, List.map_cons, List.map_nil, List.nodup_cons] at this
  intro e
  exact this.1 (by rw [← e]; simp)

theorem down_eq {x : Name × List Callsite} {k : Callsite} {g : Name} {q : List Callsite} (h : down x k = (g, q)) : Anc g q x := by
  unfold down at h
  have h1 := congrArg Prod.fst h
  have h2 := congrArg Prod.snd h
  simp only at h1 h2
  refine ⟨h1, ⟨[k], h2⟩, fun e => ?_⟩
  rw [e] at h2
  have := congrArg List.length h2
  simp at this

theorem ok_onData {m : SymMap} (hm : m.WF) {g : Name} {q : List Callsite} (h : Data → Data) {x : Name × List Callsite} (h1 : ¬ Anc g q x) (h2 : x ≠ (g, q)) (hk : Ok R m x) :
    Ok R (modAt m g q (onData h)) x := by
  refine ok_congr ?_ (fun k => ?_) hk
  · rw [view_onData hm, if_neg h2]
  · rw [view_onData hm, if_neg fun e => h1 (down_eq e)]

theorem view_onData_self {m : SymMap} (hm : m.WF) (g : Name) (q : List Callsite) (h : Data → Data) : view (modAt m g q (onData h)) (g, q) = (view m (g, q)).map h := by
  rw [view_onData hm, if_pos rfl]

/-- The total at `g`, `q` is the sum of its counts and of the totals of the callees `ks`. -/
def Bal (R : Type) [CommRing R] (g : Name) (q : List Callsite) (ks : List Callsite) (m : SymMap) : Prop :=
  (totAt m (g, q) : R) = cntAt m (g, q) + (ks.map fun k => (totAt m (down (g, q) k) : R)).sum

theorem totAt_congr {m m' : SymMap} {x : Name × List Callsite} (h : (view m' x).map Data.body' = (view m x).map Data.body') : totAt m' x = totAt m x ∧ cntAt m' x = cntAt m x := by
  unfold totAt cntAt
  cases h1 : view m' x <;> cases h2 : view m x <;> rw [h1, h2] at h
  · exact ⟨rfl, rfl⟩
  · cases h
  · cases h
  · injection h with h
    have e1 := congrArg Prod.fst h
    have e2 := congrArg Prod.snd h
    simp only [Data.body'] at e1 e2
    refine ⟨e1, ?_⟩
    simp only [Option.map_some, Option.getD_some, cnt, e2]

theorem ok_merge {m : SymMap} (hm : m.WF) {g : Name} {q : List Callsite} {k : Callsite} {c : Sym} (hc : c.WF) (hs : ∀ p, c.node? p = view m (g, (q ++ [k]) ++ p))
    {x : Name × List Callsite} (hx : Ok R m x) (hy : x.1 = k.2 → Ok R m (g, (q ++ [k]) ++ x.2)) : Ok R (atName m k.2 fun t => t.merge c) x := by
  by_cases h : x.1 = k.2
  · have hadd : ∀ p, totAt (atName m k.2 fun t => t.merge c) (x.1, p) = totAt m (x.1, p) + totAt m (g, (q ++ [k]) ++ p) ∧
        cntAt (atName m k.2 fun t => t.merge c) (x.1, p) = cntAt m (x.1, p) + cntAt m (g, (q ++ [k]) ++ p) := by
      intro p
      unfold totAt cntAt
      rw [view_merge hm _ hc, if_pos h]
      simp only
      rw [hs p]
      cases view m (x.1, p) <;> cases view m (g, (q ++ [k]) ++ p)
      · exact ⟨rfl, rfl⟩
      · rename_i d
        refine ⟨by simp [mOpt, Data.add, Data.zero], ?_⟩
        simp only [mOpt, Option.map_some, Option.getD_some, cnt, Data.add, Option.map_none, Option.getD_none]
        exact sum_addAll _ _
      · exact ⟨rfl, rfl⟩
      · refine ⟨by simp [mOpt, Data.add], ?_⟩
        simp only [mOpt, Option.map_some, Option.getD_some, cnt, Data.add]
        exact sum_addAll _ _
    have hsup : ∀ p, (view m (x.1, p)).isSome = true ∨ (view m (g, (q ++ [k]) ++ p)).isSome = true → (view (atName m k.2 fun t => t.merge c) (x.1, p)).isSome = true := by
      intro p hp
      rw [view_merge hm _ hc, if_pos h]
      simp only
      rw [hs p]
      cases h1 : view m (x.1, p) <;> cases h2 : view m (g, (q ++ [k]) ++ p) <;> rw [h1, h2] at hp <;> first | rfl | simp at hp
    intro K h1 h2
    have a1 := hx K h1 fun k' hk' => h2 k' (hsup _ (Or.inl hk'))
    have a2 := hy h K h1 fun k' hk' => h2 k' (hsup _ (Or.inr (by unfold down at hk'; rw [← List.append_assoc]; exact hk')))
    have e := hadd x.2
    rw [show ((x.1, x.2) : Name × List Callsite) = x from rfl] at e
    rw [e.1, e.2, Nat.cast_add, Nat.cast_add, a1, a2]
    have hsum : (K.map fun k' => (totAt (atName m k.2 fun t => t.merge c) (down x k') : R)).sum =
        (K.map fun k' => (totAt m (down x k') : R)).sum + (K.map fun k' => (totAt m (down (g, (q ++ [k]) ++ x.2) k') : R)).sum := by
      rw [← List.sum_map_add]
      congr 1
      refine List.map_congr_left fun k' _ => ?_
      unfold down
      rw [(hadd _).1, Nat.cast_add]
      simp only [List.append_assoc]
    rw [hsum]
    ring
  · refine ok_congr ?_ (fun k' => ?_) hx
    · rw [view_merge hm _ hc, if_neg h]
    · rw [view_merge hm _ hc, if_neg (by exact h)]

/-- What is needed of the totals after the recursive call. -/
def RecTot (R : Type) [CommRing R] (rec : Name → List Callsite → SymMap → Option (SymMap × Nat)) (g : Name) (q : List Callsite) (m : SymMap) : Prop :=
  ∀ r, rec g q m = some r → (∀ p, ¬ q <+: p → view r.1 (g, p) = view m (g, p)) ∧ (∀ x, ¬ Anc g q x → Ok R r.1 x) ∧ (r.2 : R) = totAt r.1 (g, q) - totAt m (g, q)

theorem wt_zero : Wt (fun a b : Nat => a = b) (fun _ _ => 0) := ⟨fun _ => rfl, fun _ _ _ _ _ _ _ => rfl, fun _ _ _ _ => rfl, fun _ _ _ _ _ _ => rfl⟩

theorem not_prefix_self {q : List Callsite} {k : Callsite} : ¬ (q ++ [k]) <+: q := fun h => by
  have := h.length_le
  simp at this

theorem not_prefix_sib {q : List Callsite} {k k' : Callsite} (h : k' ≠ k) : ¬ (q ++ [k]) <+: (q ++ [k']) := fun hp => by
  have := hp.eq_of_length (by simp)
  have := List.append_cancel_left this
  injection this with e
  exact h e.symm

theorem not_anc_below {g : Name} {q : List Callsite} {k : Callsite} {p : List Callsite} : ¬ Anc g q (g, (q ++ [k]) ++ p) ∧ (g, (q ++ [k]) ++ p) ≠ (g, q) := by
  constructor
  · rintro ⟨_, h, _⟩
    have := h.length_le
    simp only [List.length_append, List.length_cons, List.length_nil] at this
    omega
  · intro h
    have := congrArg (fun x : Name × List Callsite => x.2.length) h
    simp at this

theorem bal_congr {g : Name} {q ks : List Callsite} {m m' : SymMap} (h0 : (view m' (g, q)).map Data.body' = (view m (g, q)).map Data.body')
    (hc : ∀ k ∈ ks, (view m' (down (g, q) k)).map Data.body' = (view m (down (g, q) k)).map Data.body') (h : Bal R g q ks m) : Bal R g q ks m' := by
  unfold Bal at h ⊢
  rw [(totAt_congr h0).1, (totAt_congr h0).2, h]
  congr 2
  exact List.map_congr_left fun k hk => by rw [(totAt_congr (hc k hk)).1]

theorem at_onData {m : SymMap} (hm : m.WF) {g : Name} {q : List Callsite} {h : Data → Data} {t : R}
    (ht : ∀ d : Data, OMap.Sorted d.pos → d.pos.TargetsOk → ((h d).total : R) - cnt (h d) = (d.total : R) - cnt d - t) (hv : (view m (g, q)).isSome = true) :
    (totAt (modAt m g q (onData h)) (g, q) : R) - cntAt (modAt m g q (onData h)) (g, q) = (totAt m (g, q) : R) - cntAt m (g, q) - t := by
  unfold totAt cntAt
  rw [view_onData_self hm]
  obtain ⟨s, hs⟩ := Option.isSome_iff_exists.1 ((subAt_isSome m g q).trans hv)
  have hd := view_sub hs []
  rw [List.append_nil, node_root] at hd
  have hw := (Sym.WF_iff _).1 (subAt_wf hm hs)
  rw [← hd]
  exact ht s.data hw.1 hw.2.1

theorem down_onData {m : SymMap} (hm : m.WF) {g : Name} {q : List Callsite} (h : Data → Data) (k : Callsite) : totAt (modAt m g q (onData h)) (down (g, q) k) = totAt m (down (g, q) k) := by
  unfold totAt
  rw [view_onData hm, if_neg]
  intro e
  exact (down_eq e).2.2 rfl

theorem bal_onData {m : SymMap} (hm : m.WF) {g : Name} {q ks : List Callsite} {h : Data → Data} {t : R}
    (ht : ∀ d : Data, OMap.Sorted d.pos → d.pos.TargetsOk → ((h d).total : R) - cnt (h d) = (d.total : R) - cnt d - t) (hv : (view m (g, q)).isSome = true)
    (hb : (totAt m (g, q) : R) = cntAt m (g, q) + (t + (ks.map fun k => (totAt m (down (g, q) k) : R)).sum)) : Bal R g q ks (modAt m g q (onData h)) := by
  have h1 := at_onData hm ht hv
  have h2 : (ks.map fun k => (totAt (modAt m g q (onData h)) (down (g, q) k) : R)) = ks.map fun k => (totAt m (down (g, q) k) : R) :=
    List.map_congr_left fun k _ => by rw [down_onData hm]
  unfold Bal
  rw [h2]
  generalize (totAt (modAt m g q (onData h)) (g, q) : R) = a at *
  generalize (cntAt (modAt m g q (onData h)) (g, q) : R) = b at *
  generalize (ks.map fun k => (totAt m (down (g, q) k) : R)).sum = c at *
  linear_combination h1 + hb

theorem flattenOne_tot (hR : ((2 ^ 64 : ℕ) : R) = 0) {mx : Nat} {rec : Name → List Callsite → SymMap → Option (SymMap × Nat)} {g : Name} {q : List Callsite} {m : SymMap} {k : Callsite}
    {ks : List Callsite} (hm : m.WF) (hn : NoRec m) (hk : (view m (g, q ++ [k])).isSome = true) (hkn : k ∉ ks)
    (hrec : ∀ m1 : SymMap, m1.WF → (∀ x, (view m1 x).isSome = (view m x).isSome) → RecOk (fun a b : Nat => a = b) (fun _ _ => 0) mx 1 rec g (q ++ [k]) m1)
    (hrecT : ∀ m1 : SymMap, m1.WF → (∀ x, (view m1 x).isSome = (view m x).isSome) → (∀ x, ¬ Anc g (q ++ [k]) x → Ok R m1 x) → RecTot R rec g (q ++ [k]) m1)
    (hok : ∀ x, ¬ Anc g q x → x ≠ (g, q) → Ok R m x) (hbal : Bal R g q (k :: ks) m) {m' : SymMap} (hm' : flattenOne rec g q m k = some m') :
    (∀ p, ¬ q <+: p → view m' (g, p) = view m (g, p)) ∧ (∀ x, ¬ Anc g q x → x ≠ (g, q) → Ok R m' x) ∧ Bal R g q ks m' := by
  have hks : (subAt m g (q ++ [k])).isSome = true := by rw [subAt_isSome]; exact hk
  obtain ⟨c0, hc0⟩ := Option.isSome_iff_exists.1 hks
  have hc0t : totAt m (down (g, q) k) = c0.data.total := by
    have := view_sub hc0 []
    rw [List.append_nil, node_root] at this
    unfold totAt down
    rw [← this]; rfl
  have hkg := noRec_ne hn hk
  unfold flattenOne at hm'
  rw [hc0, Option.bind_some] at hm'
  generalize hh1 : (fun d : Data => { d with total := wsub d.total c0.data.total }) = h1 at hm'
  have hp1 : ∀ d, (h1 d).pos = d.pos := by rw [← hh1]; exact fun d => rfl
  have hp2 : ∀ d, ((h1 d).total : R) = (d.total : R) - (c0.data.total : R) := fun d => by rw [← hh1]; exact cast_wsub hR _ _
  have e1 : Eff mx (fun _ => False) (fun x => x = (g, q)) m (modAt m g q (onData h1)) := eff_onData (D := fun x => x = (g, q)) hm rfl fun d a b => by rw [hp1]; exact ⟨a, b⟩
  have sup1 : ∀ x, (view (modAt m g q (onData h1)) x).isSome = (view m x).isSome := supp_onData hm g q h1
  have ok1 : ∀ x, ¬ Anc g q x → x ≠ (g, q) → Ok R (modAt m g q (onData h1)) x := fun x h2 h3 => ok_onData hm h1 h2 h3 (hok x h2 h3)
  have v1 : ∀ p, p ≠ q → view (modAt m g q (onData h1)) (g, p) = view m (g, p) := fun p h => by
    rw [view_onData hm, if_neg]
    intro e
    exact h (congrArg Prod.snd e)
  have vq : (view m (g, q)).isSome = true := by
    cases hs : subAt m g q with
    | none =>
      have := view_none_below hs [k]
      rw [this] at hk; cases hk
    | some s => rw [← subAt_isSome, hs]; rfl
  have b1 : Bal R g q ks (modAt m g q (onData h1)) := by
    unfold Bal at hbal
    rw [List.map_cons, List.sum_cons, hc0t] at hbal
    refine bal_onData hm (fun d _ _ => ?_) vq hbal
    have hcd : cnt (h1 d) = cnt d := by unfold cnt; rw [hp1]
    rw [hp2, hcd, sub_right_comm]
  generalize modAt m g q (onData h1) = m1 at e1 sup1 ok1 v1 b1 hm'
  obtain ⟨r, hrr, e2, len2, _⟩ := hrec m1 e1.wf sup1
  obtain ⟨A, B, _⟩ := hrecT m1 e1.wf sup1 (fun x hx => ok1 x (fun h => hx ⟨h.1, h.2.1.trans (List.prefix_append _ _), fun e => by
      have := h.2.1.length_le
      rw [e] at this
      simp at this⟩) fun h => hx (by rw [h]; exact ⟨rfl, List.prefix_append _ _, fun e => by have := congrArg List.length e; simp at this⟩)) r hrr
  rw [hrr, Option.bind_some] at hm'
  have b2 : Bal R g q ks r.1 := bal_congr (by rw [A q not_prefix_self]) (fun k' hk' => by
    unfold down
    rw [A _ (not_prefix_sib fun e => hkn (by rw [← e]; exact hk'))]) b1
  have ok2 : ∀ x, ¬ Anc g q x → x ≠ (g, q) → Ok R r.1 x := fun x h2 h3 => B x fun h => by
    rcases anc_snoc h with h | h
    · exact h2 h
    · exact h3 h
  have v2 : ∀ p, ¬ q <+: p → view r.1 (g, p) = view m (g, p) := fun p hp => by
    rw [A p fun h => hp ((List.prefix_append _ _).trans h), v1 p fun e => hp (by rw [e])]
  have e3 : Eff mx (fun _ => False) (Below g (q ++ [k])) r.1 (modAt r.1 g (q ++ [k]) Sym.estimate) := eff_estimate e2.wf fun _ h => h
  have body3 := fun x => view_estimate e2.wf g (q ++ [k]) x
  have v3 : ∀ p, ¬ q <+: p → view (modAt r.1 g (q ++ [k]) Sym.estimate) (g, p) = view m (g, p) := fun p hp => by
    rw [view_modAt_other e2.wf, v2 p hp]
    exact fun h => hp ((List.prefix_append _ _).trans h.2)
  generalize modAt r.1 g (q ++ [k]) Sym.estimate = m3 at e3 body3 v3 hm'
  have b3 : Bal R g q ks m3 := bal_congr (body3 _) (fun k' _ => body3 _) b2
  have ok3 : ∀ x, ¬ Anc g q x → x ≠ (g, q) → Ok R m3 x := fun x h2 h3 => ok_congr (body3 _) (fun k' => body3 _) (ok2 x h2 h3)
  obtain ⟨c, hc, hm'⟩ := Option.map_eq_some_iff.1 hm'
  have hcw := subAt_wf e3.wf hc
  have vq3 : (view m3 (g, q)).isSome = true := by
    cases hs : subAt m3 g q with
    | none =>
      rw [subAt_snoc, hs] at hc; cases hc
    | some s => rw [← subAt_isSome, hs]; rfl
  have b4 : Bal R g q ks (modAt m3 g q (onData (flattenInto k c))) :=
    bal_onData (t := 0) e3.wf (fun d h1 h2 => by rw [flattenInto_total hR k c d h1 h2, sub_zero]) vq3 (by rw [zero_add]; exact b3)
  have v4 : ∀ p, p ≠ q → view (modAt m3 g q (onData (flattenInto k c))) (g, p) = view m3 (g, p) := fun p h => by
    rw [view_onData e3.wf, if_neg]
    intro e
    exact h (congrArg Prod.snd e)
  have ok4 : ∀ x, ¬ Anc g q x → x ≠ (g, q) → Ok R (modAt m3 g q (onData (flattenInto k c))) x := fun x h2 h3 => ok_onData e3.wf _ h2 h3 (ok3 x h2 h3)
  have e4 : Eff mx (fun _ => False) (fun x => x = (g, q)) m3 (modAt m3 g q (onData (flattenInto k c))) := eff_onData (D := fun x => x = (g, q)) e3.wf rfl (flattenInto_ok k c)
  generalize modAt m3 g q (onData (flattenInto k c)) = m4 at b4 v4 ok4 e4 hm'
  have hsc : ∀ p, c.node? p = view m4 (g, (q ++ [k]) ++ p) := fun p => by
    rw [view_sub hc]
    exact (v4 _ fun e => not_anc_below.2 (congrArg (Prod.mk g) e)).symm
  have vg : ∀ p, view m' (g, p) = view m4 (g, p) := fun p => by
    rw [← hm', view_merge e4.wf _ hcw, if_neg (fun e => hkg e.symm)]
  refine ⟨fun p hp => ?_, fun x h2 h3 => ?_, ?_⟩
  · rw [vg, v4 p (fun e => hp (by rw [e])), v3 p hp]
  · rw [← hm']
    exact ok_merge e4.wf hcw hsc (ok4 x h2 h3) fun _ => ok4 _ not_anc_below.1 not_anc_below.2
  · exact bal_congr (by rw [vg]) (fun k' _ => by unfold down; rw [vg]) b4

theorem flatten_loop_tot (hR : ((2 ^ 64 : ℕ) : R) = 0) {mx H : Nat} (hH : mx ≤ H + 1) {rec : Name → List Callsite → SymMap → Option (SymMap × Nat)} {g : Name} {q : List Callsite} (hq : mx ≤ q.length + 1)
    (hrec : ∀ (k : Callsite) (m1 : SymMap), m1.WF → (view m1 (g, q ++ [k])).isSome = true → (∀ x, (view m1 x).isSome = true → x.2.length ≤ H) → RecOk (fun a b : Nat => a = b) (fun _ _ => 0) mx 1 rec g (q ++ [k]) m1)
    (hrecT : ∀ (k : Callsite) (m1 : SymMap), m1.WF → (view m1 (g, q ++ [k])).isSome = true → (∀ x, (view m1 x).isSome = true → x.2.length ≤ H) → NoRec m1 →
      (∀ x, ¬ Anc g (q ++ [k]) x → Ok R m1 x) → RecTot R rec g (q ++ [k]) m1) :
    ∀ (ks : List Callsite) (m : SymMap), ks.Nodup → m.WF → NoRec m → (∀ k ∈ ks, (view m (g, q ++ [k])).isSome = true) → (∀ x, (view m x).isSome = true → x.2.length ≤ H) →
    (∀ x, ¬ Anc g q x → x ≠ (g, q) → Ok R m x) → Bal R g q ks m → ∀ m', ks.foldlM (flattenOne rec g q) m = some m' →
    (∀ p, ¬ q <+: p → view m' (g, p) = view m (g, p)) ∧ (∀ x, ¬ Anc g q x → x ≠ (g, q) → Ok R m' x) ∧ Bal R g q [] m'
  | [], m, _, hm, _, _, _, hok, hbal, m', hm' => by
    have e : m = m' := by injection hm'
    rw [← e]
    exact ⟨fun _ _ => rfl, hok, hbal⟩
  | k :: ks, m, hn, hm, hnr, hk, hb, hok, hbal, m', hm' => by
    have hn' := List.nodup_cons.1 hn
    have hr1 : ∀ m1 : SymMap, m1.WF → (∀ x, (view m1 x).isSome = (view m x).isSome) → RecOk (fun a b : Nat => a = b) (fun _ _ => 0) mx 1 rec g (q ++ [k]) m1 := fun m1 hm1 hsup =>
      hrec k m1 hm1 (by rw [hsup]; exact hk k (by simp)) fun x hx => hb x (by rw [← hsup]; exact hx)
    obtain ⟨m1, c1, h1, hc1, e1, _, _⟩ := flattenOne_step rel_eq wt_zero hm hq (hk k (by simp)) hr1
    obtain ⟨A, B, C⟩ := flattenOne_tot hR hm hnr (hk k (by simp)) hn'.1 hr1 (fun m1 hm1 hsup hok1 => hrecT k m1 hm1 (by rw [hsup]; exact hk k (by simp))
      (fun x hx => hb x (by rw [← hsup]; exact hx)) (fun x hx => hnr x (by rw [← hsup]; exact hx)) hok1) hok hbal h1
    have hone : ∀ x : Name × List Callsite, Below g (q ++ [k]) x ∧ x.2 ≠ q ++ [k] → StrictOne g q [k] x := fun x h => ⟨k, by simp, h⟩
    rw [List.foldlM_cons, h1] at hm'
    obtain ⟨A', B', C'⟩ := flatten_loop_tot hR hH hq hrec hrecT ks m1 hn'.2 e1.wf (e1.noRec hnr)
      (fun k' hk' => e1.stays (hk k' (by simp [hk'])) fun h => not_strict (hone _ h)) (e1.bound hH hb) B C m' hm'
    exact ⟨fun p hp => by rw [A' p hp, A p hp], B', C'⟩

theorem sum_change (f f' : Callsite → R) (k : Callsite) (d : R) (hk : f' k = f k + d) (ho : ∀ k', k' ≠ k → f' k' = f k') : ∀ K : List Callsite, K.Nodup → k ∈ K → (K.map f').sum = (K.map f).sum + d
  | [], _, h => by cases h
  | a :: K, hn, h => by
    have hn' := List.nodup_cons.1 hn
    rw [List.map_cons, List.map_cons, List.sum_cons, List.sum_cons]
    by_cases e : a = k
    · subst e
      have : K.map f' = K.map f := List.map_congr_left fun b hb => ho b fun e => hn'.1 (by rw [← e]; exact hb)
      rw [this, hk]; ring
    · rw [ho a e, sum_change f f' k d hk ho K hn'.2 ((List.mem_cons.1 h).resolve_left fun h => e h.symm)]; ring

theorem descend_loop_tot {mx H depth : Nat} (hH : mx ≤ H + 1) {rec : Name → List Callsite → SymMap → Option (SymMap × Nat)} {g : Name} {q : List Callsite}
    (hrec : ∀ (k : Callsite) (m1 : SymMap), m1.WF → (view m1 (g, q ++ [k])).isSome = true → (∀ x, (view m1 x).isSome = true → x.2.length ≤ H) → RecOk (fun a b : Nat => a = b) (fun _ _ => 0) mx (depth + 1) rec g (q ++ [k]) m1)
    (hrecT : ∀ (k : Callsite) (m1 : SymMap), m1.WF → (view m1 (g, q ++ [k])).isSome = true → (∀ x, (view m1 x).isSome = true → x.2.length ≤ H) → NoRec m1 →
      (∀ x, ¬ Anc g (q ++ [k]) x → Ok R m1 x) → RecTot R rec g (q ++ [k]) m1)
    (h : Nat → Data → Data) (hh : ∀ n d, (h n d).pos = d.pos) (ht : ∀ n d, ((h n d).total : R) = (d.total : R) + n) {K : List Callsite} (hK : K.Nodup) :
    ∀ (ks : List Callsite) (m : SymMap), m.WF → NoRec m → (view m (g, q)).isSome = true → (∀ k ∈ ks, k ∈ K) → (∀ k ∈ K, (view m (g, q ++ [k])).isSome = true) →
    (∀ x, (view m x).isSome = true → x.2.length ≤ H) → (∀ x, ¬ Anc g q x → x ≠ (g, q) → Ok R m x) → Bal R g q K m →
    ∀ m', ks.foldlM (fun m k => (rec g (q ++ [k]) m).map fun r => modAt r.1 g q (onData (h r.2))) m = some m' →
    (∀ p, ¬ q <+: p → view m' (g, p) = view m (g, p)) ∧ (∀ x, ¬ Anc g q x → x ≠ (g, q) → Ok R m' x) ∧ Bal R g q K m' ∧ ∀ k, k ∉ K → view m' (g, q ++ [k]) = view m (g, q ++ [k])
  | [], m, _, _, _, _, _, _, hok, hbal, m', hm' => by
    have e : m = m' := by injection hm'
    rw [← e]
    exact ⟨fun _ _ => rfl, hok, hbal, fun _ _ => rfl⟩
  | k :: ks, m, hm, hnr, hq, hsub, hk, hb, hok, hbal, m', hm' => by
    have hkK := hsub k (by simp)
    obtain ⟨r, h1, e1, l1, _⟩ := hrec k m hm (hk k hkK) hb
    obtain ⟨A, B, C⟩ := hrecT k m hm (hk k hkK) hb hnr (fun x hx => hok x (fun h => hx ⟨h.1, h.2.1.trans (List.prefix_append _ _), fun e => by
      have := h.2.1.length_le
      rw [e] at this
      simp at this⟩) fun h => hx (by rw [h]; exact ⟨rfl, List.prefix_append _ _, fun e => by have := congrArg List.length e; simp at this⟩)) r h1
    have e2 : Eff mx (StrictOne g q [k]) (fun x => x = (g, q) ∨ BelowOne g q [k] x) m (modAt r.1 g q (onData (h r.2))) :=
      (e1.mono (fun x h => ⟨k, by simp, h⟩) (fun x h => Or.inr ⟨k, by simp, h⟩)).trans (eff_onData e1.wf (Or.inl rfl) fun d a b => by rw [hh]; exact ⟨a, b⟩)
    have ok2 : ∀ x, ¬ Anc g q x → x ≠ (g, q) → Ok R (modAt r.1 g q (onData (h r.2))) x := fun x h2 h3 => ok_onData e1.wf _ h2 h3 (B x fun h => by
      rcases anc_snoc h with h | h
      · exact h2 h
      · exact h3 h)
    have v2 : ∀ p, p ≠ q → view (modAt r.1 g q (onData (h r.2))) (g, p) = view r.1 (g, p) := fun p hp => by
      rw [view_onData e1.wf, if_neg]
      intro e
      exact hp (congrArg Prod.snd e)
    have hq1 : (view r.1 (g, q)).isSome = true := by rw [A q not_prefix_self]; exact hq
    have hs := sum_change (fun k' => (totAt m (down (g, q) k') : R)) (fun k' => (totAt r.1 (down (g, q) k') : R)) k (r.2 : R)
      (by rw [C]; unfold down; rw [add_sub_cancel])
      (fun k' hk' => by
        unfold totAt down
        rw [A _ (not_prefix_sib hk')]) K hK hkK
    have b2 : Bal R g q K (modAt r.1 g q (onData (h r.2))) := by
      refine bal_onData (t := -(r.2 : R)) e1.wf (fun d _ _ => ?_) hq1 ?_
      · have hcd : cnt (h r.2 d) = cnt d := by unfold cnt; rw [hh]
        rw [ht, hcd, sub_neg_eq_add, add_sub_right_comm]
      · rw [hs, neg_add_cancel_comm_assoc]
        have ec := totAt_congr (m := m) (m' := r.1) (x := (g, q)) (by rw [A q not_prefix_self])
        rw [ec.1, ec.2]
        exact hbal
    have hq2 : (view (modAt r.1 g q (onData (h r.2))) (g, q)).isSome = true := by rw [supp_onData e1.wf]; exact hq1
    rw [List.foldlM_cons, h1] at hm'
    have hm' : ks.foldlM (fun m k => (rec g (q ++ [k]) m).map fun r => modAt r.1 g q (onData (h r.2))) (modAt r.1 g q (onData (h r.2))) = some m' := hm'
    generalize modAt r.1 g q (onData (h r.2)) = m2 at e2 ok2 v2 b2 hq2 hm'
    have hne : ∀ k' : Callsite, q ++ [k'] ≠ q := fun k' e => by have := congrArg List.length e; simp at this
    obtain ⟨A', B', C', D'⟩ := descend_loop_tot hH hrec hrecT h hh ht hK ks m2 e2.wf (e2.noRec hnr) hq2 (fun k' hk' => hsub k' (by simp [hk']))
      (fun k' hk' => e2.stays (hk k' hk') not_strict) (e2.bound hH hb) ok2 b2 m' hm'
    refine ⟨fun p hp => ?_, B', C', fun k' hk' => ?_⟩
    · rw [A' p hp, v2 p (fun e => hp (by rw [e])), A p fun hh => hp ((List.prefix_append _ _).trans hh)]
    · rw [D' k' hk', v2 _ (hne k'), A _ (not_prefix_sib fun e => hk' (by rw [e]; exact hkK))]

theorem nested_tot (hR : ((2 ^ 64 : ℕ) : R) = 0) {mx H : Nat} (hH : mx ≤ H + 1) :
    ∀ (fuel depth : Nat) (g : Name) (q : List Callsite) (m : SymMap), m.WF → 1 ≤ depth → depth ≤ mx → depth ≤ q.length + 1 → (view m (g, q)).isSome = true →
    (∀ x, (view m x).isSome = true → x.2.length ≤ H) → H + 1 ≤ fuel + q.length → NoRec m → (∀ x, ¬ Anc g q x → Ok R m x) → RecTot R (nested mx fuel depth) g q m
  | 0, depth, g, q, m, _, _, _, _, hv, hb, hf, _, _ => by
    have := hb _ hv
    simp only at this
    omega
  | fuel + 1, depth, g, q, m, hm, hd1, hd2, hd3, hv, hb, hf, hnr, hok => by
    intro r hr
    have ih := nested_tot hR hH fuel
    obtain ⟨s, hs⟩ := Option.isSome_iff_exists.1 ((subAt_isSome m g q).trans hv)
    have hks : ∀ k ∈ s.calls.map Prod.fst, (view m (g, q ++ [k])).isSome = true := fun k hk => (calls_isSome hs k).2 hk
    have hnd := ((Sym.WF_iff _).1 (subAt_wf hm hs)).2.2.1
    have hlen : ∀ k : Callsite, (q ++ [k]).length = q.length + 1 := fun k => by simp
    have htot : ∀ {m : SymMap} {s : Sym}, subAt m g q = some s → totAt m (g, q) = s.data.total := fun {m s} h => by
      have := view_sub h []
      rw [List.append_nil, node_root] at this
      unfold totAt
      rw [← this]; rfl
    have hself : ¬ Anc g q (g, q) := fun h => h.2.2 rfl
    have hbal : Bal R g q (s.calls.map Prod.fst) m := hok (g, q) hself _ hnd fun k hk => (calls_isSome hs k).1 hk
    have hok' : ∀ x, ¬ Anc g q x → x ≠ (g, q) → Ok R m x := fun x h _ => hok x h
    rw [nested, hs, Option.bind_some] at hr
    obtain ⟨m', hm', hr⟩ := Option.bind_eq_some_iff.1 hr
    obtain ⟨s', hs', rfl⟩ := Option.map_eq_some_iff.1 hr
    suffices key : (∀ p, ¬ q <+: p → view m' (g, p) = view m (g, p)) ∧ ∀ x, ¬ Anc g q x → Ok R m' x by
      refine ⟨key.1, key.2, ?_⟩
      rw [cast_wsub hR, htot hs, htot hs']
    · by_cases hdm : depth = mx
      · rw [if_pos hdm] at hm'
        obtain ⟨m1, h1, h2⟩ := Option.map_eq_some_iff.1 hm'
        have hrec := fun (k : Callsite) (m1 : SymMap) (hm1 : m1.WF) (hv1 : (view m1 (g, q ++ [k])).isSome = true) (hb1 : ∀ x, (view m1 x).isSome = true → x.2.length ≤ H) =>
          nested_ok rel_eq wt_zero hH fuel 1 g (q ++ [k]) m1 hm1 le_rfl (by omega) (by rw [hlen]; omega) hv1 hb1 (by rw [hlen]; omega)
        obtain ⟨A, B, C⟩ := flatten_loop_tot hR hH (rec := nested mx fuel 1) (by omega) hrec
          (fun k m1 hm1 hv1 hb1 hn1 ho1 => ih 1 g (q ++ [k]) m1 hm1 le_rfl (by omega) (by rw [hlen]; omega) hv1 hb1 (by rw [hlen]; omega) hn1 ho1)
          (s.calls.map Prod.fst) m hnd hm hnr hks hb hok' hbal m1 h1
        obtain ⟨m1', h1', e1, _⟩ := flatten_loop rel_eq wt_zero hH (rec := nested mx fuel 1) (g := g) (q := q) (by omega) hrec (s.calls.map Prod.fst) m hnd hm hks hb
        rw [h1] at h1'
        injection h1' with h1'
        rw [← h1'] at e1
        have hvc := view_clear e1.wf g q
        rw [← h2]
        refine ⟨fun p hp => ?_, fun x hx => ?_⟩
        · rw [hvc, if_neg (fun h => hp h.2.1), A p hp]
        · by_cases hb' : x.1 = g ∧ q <+: x.2
          · by_cases e : x = (g, q)
            · subst e
              refine ok_of (K := []) List.nodup_nil (fun k hk => ?_) ?_
              · unfold down at hk
                rw [hvc, if_pos ⟨rfl, List.prefix_append _ _, fun e => by have := congrArg List.length e; simp at this⟩] at hk
                cases hk
              · unfold Bal at C
                have : view (modAt m1 g q fun s => .mk s.data []) (g, q) = view m1 (g, q) := by rw [hvc, if_neg (fun h => h.2.2 rfl)]
                unfold totAt cntAt at C ⊢
                rw [this]
                exact C
            · have hne : x.2 ≠ q := fun h => e (Prod.ext hb'.1 h)
              refine ok_of (K := []) List.nodup_nil (fun k hk => ?_) ?_
              · unfold down at hk
                rw [hvc, if_pos ⟨hb'.1, hb'.2.trans (List.prefix_append _ _), fun e => by
                  have := hb'.2.length_le
                  have := congrArg List.length e
                  simp at this
                  omega⟩] at hk
                cases hk
              · have : view (modAt m1 g q fun s => .mk s.data []) x = none := by rw [hvc, if_pos ⟨hb'.1, hb'.2, hne⟩]
                unfold totAt cntAt
                rw [this]
                simp
          · refine ok_congr ?_ (fun k => ?_) (B x hx fun e => hb' (by rw [e]; exact ⟨rfl, List.prefix_rfl⟩))
            · rw [hvc, if_neg (fun h => hb' ⟨h.1, h.2.1⟩)]
            · rw [hvc, if_neg]
              rintro ⟨h1, h2, h3⟩
              unfold down at h1 h2 h3
              simp only at h1 h2 h3
              rcases List.prefix_concat_iff.1 h2 with h | h
              · exact h3 h.symm
              · exact hb' ⟨h1, h⟩
      · rw [if_neg hdm] at hm'
        have hrec := fun (k : Callsite) (m1 : SymMap) (hm1 : m1.WF) (hv1 : (view m1 (g, q ++ [k])).isSome = true) (hb1 : ∀ x, (view m1 x).isSome = true → x.2.length ≤ H) =>
          nested_ok rel_eq wt_zero hH fuel (depth + 1) g (q ++ [k]) m1 hm1 (by omega) (by omega) (by rw [hlen]; omega) hv1 hb1 (by rw [hlen]; omega)
        obtain ⟨A, B, C, D⟩ := descend_loop_tot hH (rec := nested mx fuel (depth + 1)) hrec
          (fun k m1 hm1 hv1 hb1 hn1 ho1 => ih (depth + 1) g (q ++ [k]) m1 hm1 (by omega) (by omega) (by rw [hlen]; omega) hv1 hb1 (by rw [hlen]; omega) hn1 ho1)
          (fun n d => { d with total := (d.total + n) % 2 ^ 64 }) (fun n d => rfl) (fun n d => by simp only; rw [cast_mod hR, Nat.cast_add]) hnd
          (s.calls.map Prod.fst) m hm hnr hv (fun k hk => hk) hks hb hok' hbal m' hm'
        refine ⟨A, fun x hx => ?_⟩
        by_cases e : x = (g, q)
        · subst e
          refine ok_of hnd (fun k hk => ?_) C
          by_contra hc
          unfold down at hk
          rw [D k hc] at hk
          exact hc ((calls_isSome hs k).1 hk)
        · exact B x hx e

theorem nestedFrom_tot (hR : ((2 ^ 64 : ℕ) : R) = 0) {mx H rf : Nat} (h1 : 1 ≤ mx) (hH : mx ≤ H + 1) (hrf : H + 1 ≤ rf) :
    ∀ (fuel : Nat) (next : Option (Name × Sym)) (m : SymMap) (n : Nat), m.WF → (∀ x, (view m x).isSome = true → x.2.length ≤ H) → NoRec m → (∀ x, Ok R m x) →
    (∀ x, next = some x → (OMap.find? m x.1).isSome = true) → ∀ r, nestedFrom mx rf fuel next m n = some r → ∀ x, Ok R r.1 x
  | fuel, none, m, n, _, _, _, hok, _, r, hr => by
    have e : (m, n) = r := by cases fuel <;> · rw [nestedFrom] at hr; injection hr
    rw [← e]; exact hok
  | 0, some x, m, n, _, _, _, _, _, r, hr => by rw [nestedFrom] at hr; cases hr
  | fuel + 1, some x, m, n, hm, hb, hnr, hok, hx, r, hr => by
    have hv : (view m (x.1, [])).isSome = true := by rw [view_root]; exact hx x rfl
    obtain ⟨r1, hr1, e, _, _⟩ := nested_ok rel_eq wt_zero hH rf 1 x.1 [] m hm le_rfl h1 (by simp) hv hb (by simpa using hrf)
    obtain ⟨_, B, _⟩ := nested_tot hR hH rf 1 x.1 [] m hm le_rfl h1 (by simp) hv hb (by simpa using hrf) hnr (fun y _ => hok y) r1 hr1
    rw [nestedFrom, hr1, Option.bind_some] at hr
    refine nestedFrom_tot hR h1 hH hrf fuel _ r1.1 _ e.wf (e.bound hH hb) (e.noRec hnr) (fun y => B y ?_) (fun y hy => ?_) r hr
    · rintro ⟨_, h2, h3⟩
      exact h3 (List.prefix_nil.1 h2)
    · rw [OMap.find?_some_of_mem e.wf.1 (OMap.upper?_mem hy).1]; rfl

/-- The total of every inline instance is the sum of the counts of its locations and of the totals of the calls inlined into it, as far as 64 bits can tell. -/
def TotalsAddUp (m : SymMap) : Prop :=
  ∀ f s p c, (f, s) ∈ m → s.sub? p = some c →
    c.data.total ≡ (c.data.pos.map fun y => y.2.count).sum + (c.calls.map fun y => y.2.data.total).sum [MOD 2 ^ 64]

theorem ok_iff (hR : ∀ a b : ℕ, (a : R) = b ↔ a ≡ b [MOD 2 ^ 64]) {m : SymMap} (hm : m.WF) : TotalsAddUp m ↔ ∀ x, Ok R m x := by
  have loc : ∀ {x : Name × List Callsite} {c : Sym}, subAt m x.1 x.2 = some c → totAt m x = c.data.total ∧ cntAt m x = (c.data.pos.map fun y => y.2.count).sum ∧
      ((c.calls.map Prod.fst).map fun k => (totAt m (down x k) : R)).sum = ((c.calls.map fun y => y.2.data.total).sum : ℕ) := by
    intro x c hc
    have hv := view_sub hc []
    rw [List.append_nil, node_root] at hv
    have hnd := ((Sym.WF_iff _).1 (subAt_wf hm hc)).2.2.1
    refine ⟨?_, ?_, ?_⟩
    · unfold totAt
      rw [show x = (x.1, x.2) from rfl, ← hv]; rfl
    · unfold cntAt
      rw [show x = (x.1, x.2) from rfl, ← hv]; rfl
    · rw [Nat.cast_list_sum, List.map_map, List.map_map]
      congr 1
      refine List.map_congr_left fun y hy => ?_
      simp only [Function.comp_apply]
      have h2 : subAt m x.1 (x.2 ++ [y.1]) = some y.2 := by rw [subAt_snoc, hc, Option.bind_some, lookup_self hnd y hy]
      have h3 := view_sub h2 []
      rw [List.append_nil, node_root] at h3
      unfold totAt down
      rw [← h3]; rfl
  constructor
  · intro h x
    cases hc : subAt m x.1 x.2 with
    | none =>
      refine ok_of (K := []) List.nodup_nil (fun k hk => ?_) ?_
      · unfold down at hk
        rw [view_none_below hc] at hk; cases hk
      · have := view_none_below hc []
        rw [List.append_nil] at this
        unfold totAt cntAt
        rw [show x = (x.1, x.2) from rfl, this]
        simp
    | some c =>
      refine ok_of (K := c.calls.map Prod.fst) ((Sym.WF_iff _).1 (subAt_wf hm hc)).2.2.1 (fun k hk => (calls_isSome hc k).1 hk) ?_
      rw [(loc hc).1, (loc hc).2.1, (loc hc).2.2, ← Nat.cast_add]
      refine (hR _ _).2 ?_
      unfold subAt at hc
      obtain ⟨s, hs, hc⟩ := Option.bind_eq_some_iff.1 hc
      exact h x.1 s x.2 c (OMap.mem_of_find?_some hs) hc
  · intro h f s p c hs hc
    have hc' : subAt m f p = some c := by
      unfold subAt
      rw [OMap.find?_some_of_mem hm.1 hs]; exact hc
    have := h (f, p) (c.calls.map Prod.fst) ((Sym.WF_iff _).1 (subAt_wf hm hc')).2.2.1 (fun k hk => (calls_isSome hc' k).1 hk)
    rw [(loc (x := (f, p)) hc').1, (loc (x := (f, p)) hc').2.1, (loc (x := (f, p)) hc').2.2, ← Nat.cast_add] at this
    exact (hR _ _).1 this

/-- C55: when no inline stack of the profile contains a function twice, the totals still add up after the nesting has been limited. -/
theorem flatten_nested_totals {m : SymMap} (hm : m.WF) (hnr : ∀ x, (view m x).isSome = true → (stack x).Nodup) (ht : TotalsAddUp m) (mx : Int) :
    ∃ m' n F, (∀ fuel, F ≤ fuel → flattenNested fuel mx m = some (m', n)) ∧ TotalsAddUp m' ∧ ∀ x, (view m' x).isSome = true → (stack x).Nodup := by
  obtain ⟨m', n, F, hF, hw, _, _, _, hst, _⟩ := flatten_nested hm mx
  refine ⟨m', n, F, hF, ?_, fun x hx => ?_⟩
  · by_cases hmx : mx > 0
    · obtain ⟨H, hH1, hH2⟩ := exists_bound (allPlaces m) mx.toNat
      have hb : ∀ x, (view m x).isSome = true → x.2.length ≤ H := fun x hx => hH2 x ((mem_allPlaces hm x).2 hx)
      have hiff : ∀ a b : ℕ, (a : ZMod (2 ^ 64)) = b ↔ a ≡ b [MOD 2 ^ 64] := fun a b => ZMod.natCast_eq_natCast_iff a b _
      have hR : ((2 ^ 64 : ℕ) : ZMod (2 ^ 64)) = 0 := ZMod.natCast_self _
      have hrun := hF (max F (H + 1)) (le_max_left _ _)
      unfold flattenNested at hrun
      rw [if_pos hmx] at hrun
      refine (ok_iff hiff hw).2 ?_
      exact nestedFrom_tot hR (mx := mx.toNat) (H := H) (rf := max F (H + 1)) (by omega) hH1 (le_max_right _ _) _ m.head? m 0 hm hb hnr ((ok_iff hiff hm).1 ht)
        (fun x hx => by rw [OMap.find?_some_of_mem hm.1 (List.mem_of_mem_head? hx)]; rfl) _ hrun
    · have hrun := hF F le_rfl
      unfold flattenNested at hrun
      rw [if_neg hmx] at hrun
      injection hrun with hrun
      have : m = m' := congrArg Prod.fst hrun
      rw [← this]; exact ht
  · obtain ⟨y, hy, hs⟩ := hst x hx
    exact (hnr y hy).sublist hs.sublist

end Verif.SymbolMap

import Verif.Sym
import Verif.Sort
import Mathlib.Tactic.Ring
import Mathlib.Tactic.ByContra
import Mathlib.Tactic.Linarith
import Mathlib.Data.List.Sort

/-! # C21: profile summary (profile_writer.cc:272-353, profile_writer.h:114-148, 242-315)

Counts and sums are natural numbers: the code's `uint64_t` sums and `uint32_t` frequencies do not wrap
below 2^64 samples and 2^32 equal counts. -/
namespace Verif.Summary
open Verif Verif.SymbolMap

/-- `ProfileSummaryInformation` without the detailed part, and `count_frequencies_`
(profile_writer.h:242-278, 302-304).  The histogram is kept in increasing order of the count; the
`std::greater` map iterates over it backwards. -/
structure Acc where
  total : Nat
  maxCount : Nat
  maxFunction : Nat
  numCounts : Nat
  numFunctions : Nat
  hist : OMap Nat Nat

/-- Value-initialised `info_{}` and empty histogram. -/
def Acc.zero : Acc := ⟨0, 0, 0, 0, 0, []⟩

/-- One iteration of the loop in `Visit` (profile_writer.cc:312-318). -/
def Acc.count (a : Acc) (c : Nat) : Acc :=
  { a with total := a.total + c, maxCount := max a.maxCount c, numCounts := a.numCounts + 1,
           hist := OMap.add a.hist (c, 1) }

/-- `Visit` (profile_writer.cc:305-319). -/
def Acc.visit (a : Acc) (d : Data) : Acc := d.pos.foldl (fun a p => a.count p.2.count) a

/-- `VisitTopSymbol` (profile_writer.cc:298-303). -/
def Acc.visitTop (a : Acc) (d : Data) : Acc :=
  { a with numFunctions := a.numFunctions + 1, maxFunction := max a.maxFunction d.head }

mutual
/-- `Traverse` (profile_writer.h:139-147). -/
def traverse (a : Acc) : Sym → Acc
  | .mk d cs => traverseCalls (a.visit d) cs
/-- The callsite loop of `Traverse`. -/
def traverseCalls (a : Acc) : List (Callsite × Sym) → Acc
  | [] => a
  | (_, s) :: t => traverseCalls (traverse a s) t
end

/-- `Start` (profile_writer.h:124-132): `map()` in key order, functions above the threshold only. -/
def start (threshold : Nat) (m : List (Name × Sym)) : Acc :=
  m.foldl (fun a e => if e.2.data.total > threshold then traverse (a.visitTop e.2.data) e.2 else a) Acc.zero

/-- `DetailedSummary` (profile_writer.h:253-262). -/
structure Entry where
  cutoff : Nat
  minCount : Nat
  numCounts : Nat
deriving DecidableEq

/-- Loop state of `ComputeDetailedSummary` (profile_writer.cc:322-327). -/
structure Cursor where
  rest : List (Nat × Nat)
  seen : Nat
  sum : Nat
  count : Nat

/-- The `while` loop (profile_writer.cc:339-345). -/
def advance (desired : Nat) : List (Nat × Nat) → Nat → Nat → Nat → Cursor
  | [], seen, sum, count => ⟨[], seen, sum, count⟩
  | (c, f) :: rest, seen, sum, count =>
    if sum < desired then advance desired rest (seen + f) (sum + c * f) c
    else ⟨(c, f) :: rest, seen, sum, count⟩

/-- The `for` loop over the cutoffs (profile_writer.cc:329-352); the assertions of lines 330, 338 and 351
are theorem `asserts_hold`. -/
def detailed (total : Nat) : List Nat → Cursor → List Entry
  | [], _ => []
  | k :: ks, s =>
    let s' := advance (total * k / 1000000) s.rest s.seen s.sum s.count
    ⟨k, s'.count, s'.seen⟩ :: detailed total ks s'

/-- `Compute` (profile_writer.h:289-295). -/
def compute (threshold : Nat) (m : List (Name × Sym)) (cutoffs : List Nat) : Acc × List Entry :=
  let a := start threshold m
  (a, detailed a.total cutoffs ⟨a.hist.reverse, 0, 0, 0⟩)

/-! ## Specification -/

mutual
/-- All location counts of a function, including those of its inlined callees. -/
def symCounts : Sym → List Nat
  | .mk d cs => d.pos.map (·.2.count) ++ callCounts cs
def callCounts : List (Callsite × Sym) → List Nat
  | [] => []
  | (_, s) :: t => symCounts s ++ callCounts t
end

/-- The functions written to the profile. -/
def emitted (threshold : Nat) (m : List (Name × Sym)) : List Sym :=
  (m.filter (fun e => decide (e.2.data.total > threshold))).map Prod.snd

/-- All location counts of the profile. -/
def allCounts (threshold : Nat) (m : List (Name × Sym)) : List Nat :=
  (emitted threshold m).flatMap symCounts

/-- Sum of the counts that are at least (`geq`) or above (`gt`) `v`, and their number. -/
def sumGe (l : List Nat) (v : Nat) : Nat := (l.filter (fun c => decide (v ≤ c))).sum
def sumGt (l : List Nat) (v : Nat) : Nat := (l.filter (fun c => decide (v < c))).sum
def numGe (l : List Nat) (v : Nat) : Nat := (l.filter (fun c => decide (v ≤ c))).length

/-! ## The totals -/

theorem foldl_visit (ps : List (Nat × PInfo)) (a : Acc) :
    ps.foldl (fun a p => a.count p.2.count) a = (ps.map (·.2.count)).foldl Acc.count a := by
  rw [List.foldl_map]

mutual
theorem traverse_eq : ∀ (s : Sym) (a : Acc), traverse a s = (symCounts s).foldl Acc.count a
  | .mk d cs, a => by
    simp only [traverse, symCounts, List.foldl_append, Acc.visit, foldl_visit]
    exact traverseCalls_eq cs _
theorem traverseCalls_eq : ∀ (cs : List (Callsite × Sym)) (a : Acc),
    traverseCalls a cs = (callCounts cs).foldl Acc.count a
  | [], a => rfl
  | (k, s) :: t, a => by
    simp only [traverseCalls, callCounts, List.foldl_append]
    rw [traverseCalls_eq t, traverse_eq s]
end

theorem foldl_count (l : List Nat) (a : Acc) :
    l.foldl Acc.count a = ⟨a.total + l.sum, l.foldl max a.maxCount, a.maxFunction, a.numCounts + l.length,
        a.numFunctions, OMap.addAll a.hist (l.map (fun c => (c, 1)))⟩ := by
  induction l generalizing a with
  | nil => simp [OMap.addAll]
  | cons c l ih =>
    rw [List.foldl_cons, ih]
    simp [Acc.count, OMap.addAll, Nat.add_assoc, Nat.add_comm 1]

theorem start_eq (threshold : Nat) (m : List (Name × Sym)) :
    start threshold m =
      { total := (allCounts threshold m).sum
        maxCount := (allCounts threshold m).foldl max 0
        maxFunction := ((emitted threshold m).map (·.data.head)).foldl max 0
        numCounts := (allCounts threshold m).length
        numFunctions := (emitted threshold m).length
        hist := OMap.addAll [] ((allCounts threshold m).map (fun c => (c, 1))) } := by
  unfold start allCounts
  have key : ∀ (m : List (Name × Sym)) (a : Acc),
      m.foldl (fun a e => if e.2.data.total > threshold then traverse (a.visitTop e.2.data) e.2 else a) a =
      { total := a.total + ((emitted threshold m).flatMap symCounts).sum
        maxCount := ((emitted threshold m).flatMap symCounts).foldl max a.maxCount
        maxFunction := ((emitted threshold m).map (·.data.head)).foldl max a.maxFunction
        numCounts := a.numCounts + ((emitted threshold m).flatMap symCounts).length
        numFunctions := a.numFunctions + (emitted threshold m).length
        hist := OMap.addAll a.hist (((emitted threshold m).flatMap symCounts).map (fun c => (c, 1))) } := by
    intro m
    induction m with
    | nil => intro a; simp [emitted, OMap.addAll]
    | cons e m ih =>
      intro a
      rw [List.foldl_cons, ih]
      by_cases h : e.2.data.total > threshold
      · have he : emitted threshold (e :: m) = e.2 :: emitted threshold m := by simp [emitted, h]
        rw [if_pos h, traverse_eq, foldl_count, he]
        simp [Acc.visitTop, OMap.addAll, List.foldl_append, Nat.add_assoc, Nat.add_comm 1]
      · have he : emitted threshold (e :: m) = emitted threshold m := by simp [emitted, h]
        rw [if_neg h, he]
  rw [key]
  simp [Acc.zero]

theorem foldl_max_spec (l : List Nat) (b : Nat) :
    (∀ c ∈ l, c ≤ l.foldl max b) ∧ b ≤ l.foldl max b ∧
    (l.foldl max b = b ∨ l.foldl max b ∈ l) := by
  induction l generalizing b with
  | nil => simp
  | cons c l ih =>
    obtain ⟨h1, h2, h3⟩ := ih (max b c)
    simp only [List.foldl_cons]
    have hb : b ≤ max b c := Nat.le_max_left _ _
    have hc : c ≤ max b c := Nat.le_max_right _ _
    refine ⟨?_, Nat.le_trans hb h2, ?_⟩
    · intro x hx
      rcases List.mem_cons.1 hx with rfl | hx'
      · exact Nat.le_trans hc h2
      · exact h1 x hx'
    · rcases h3 with h | h
      · rw [h]
        by_cases hbc : b ≤ c
        · right; rw [show max b c = c from Nat.max_eq_right hbc]; exact List.mem_cons_self
        · left; exact Nat.max_eq_left (by omega)
      · right; exact List.mem_cons_of_mem _ h

/-- **C21, totals.** The summary reports the exact sum, maximum and number of all location counts of the
emitted functions (with their inlined callees), and the exact number and maximal entry count of the
emitted functions. -/
theorem summary_totals (threshold : Nat) (m : List (Name × Sym)) (cutoffs : List Nat) :
    let a := (compute threshold m cutoffs).1
    a.total = (allCounts threshold m).sum ∧
    a.numCounts = (allCounts threshold m).length ∧
    ((∀ c ∈ allCounts threshold m, c ≤ a.maxCount) ∧ (a.maxCount ∈ allCounts threshold m ∨ a.maxCount = 0)) ∧
    a.numFunctions = (emitted threshold m).length ∧
    ((∀ s ∈ emitted threshold m, s.data.head ≤ a.maxFunction) ∧
      (a.maxFunction ∈ (emitted threshold m).map (·.data.head) ∨ a.maxFunction = 0)) := by
  simp only [compute, start_eq]
  obtain ⟨a1, a2, a3⟩ := foldl_max_spec (allCounts threshold m) 0
  obtain ⟨b1, b2, b3⟩ := foldl_max_spec ((emitted threshold m).map (·.data.head)) 0
  refine ⟨trivial, trivial, ⟨a1, a3.symm⟩, trivial, ⟨fun s hs => b1 _ (List.mem_map_of_mem hs), b3.symm⟩⟩

/-! ## The detailed summary -/

/-- Sum over a histogram. -/
def wsum (h : List (Nat × Nat)) : Nat := (h.map (fun p => p.1 * p.2)).sum
/-- Number of counts of a histogram. -/
def fsum (h : List (Nat × Nat)) : Nat := (h.map Prod.snd).sum

@[simp] theorem wsum_nil : wsum [] = 0 := rfl
@[simp] theorem wsum_cons (p : Nat × Nat) (h) : wsum (p :: h) = p.1 * p.2 + wsum h := by simp [wsum]
@[simp] theorem wsum_append (a b) : wsum (a ++ b) = wsum a + wsum b := by simp [wsum]
@[simp] theorem fsum_nil : fsum [] = 0 := rfl
@[simp] theorem fsum_cons (p : Nat × Nat) (h) : fsum (p :: h) = p.2 + fsum h := by simp [fsum]
@[simp] theorem fsum_append (a b) : fsum (a ++ b) = fsum a + fsum b := by simp [fsum]

/-- The last consumed value. -/
def lastVal (p : List (Nat × Nat)) : Nat := (p.getLast?.map Prod.fst).getD 0

/-- Cursor after consuming the prefix `p` of the histogram `p ++ r`. -/
def at_ (p r : List (Nat × Nat)) : Cursor := ⟨r, fsum p, wsum p, lastVal p⟩

/-- The prefix is the shortest one whose sum reaches `D`. -/
def Reach (D : Nat) (p : List (Nat × Nat)) : Prop :=
  D ≤ wsum p ∧ (p = [] ∨ ∃ q x, p = q ++ [x] ∧ wsum q < D)

theorem advance_go (d : Nat) : ∀ (r p : List (Nat × Nat)), wsum p < d → d ≤ wsum (p ++ r) →
    ∃ q x t, r = q ++ [x] ++ t ∧
      advance d r (fsum p) (wsum p) (lastVal p) = at_ (p ++ (q ++ [x])) t ∧
      wsum (p ++ q) < d ∧ d ≤ wsum (p ++ (q ++ [x])) := by
  intro r
  induction r with
  | nil => intro p h1 h2; rw [List.append_nil] at h2; omega
  | cons y r ih =>
    intro p h1 h2
    obtain ⟨c, f⟩ := y
    have adv : advance d ((c, f) :: r) (fsum p) (wsum p) (lastVal p) =
        advance d r (fsum (p ++ [(c, f)])) (wsum (p ++ [(c, f)])) (lastVal (p ++ [(c, f)])) := by
      simp [advance, h1, lastVal]
    rw [adv]
    by_cases hge : d ≤ wsum (p ++ [(c, f)])
    · refine ⟨[], (c, f), r, rfl, ?_, by simpa using h1, hge⟩
      cases r with
      | nil => simp [advance, at_]
      | cons z r => simp only [advance]; rw [if_neg (by omega)]; rfl
    · obtain ⟨q, x, t, e1, e2, e3, e4⟩ := ih (p ++ [(c, f)]) (by omega) (by simpa using h2)
      refine ⟨(c, f) :: q, x, t, by rw [e1]; rfl, ?_, ?_, ?_⟩
      · rw [e2]; simp
      · simpa using e3
      · simpa using e4

theorem advance_spec (d : Nat) (r p : List (Nat × Nat)) (D : Nat) (hD : Reach D p) (hd : d ≤ wsum (p ++ r)) :
    ∃ q, (∃ t, r = q ++ t ∧ advance d r (fsum p) (wsum p) (lastVal p) = at_ (p ++ q) t) ∧
      Reach (max D d) (p ++ q) := by
  by_cases hlt : wsum p < d
  · obtain ⟨q, x, t, e1, e2, e3, e4⟩ := advance_go d r p hlt hd
    refine ⟨q ++ [x], ⟨t, e1, e2⟩, ?_, .inr ⟨p ++ q, x, by simp, by omega⟩⟩
    have := hD.1
    omega
  · refine ⟨[], ⟨r, rfl, ?_⟩, ?_⟩
    · rw [List.append_nil]
      cases r with
      | nil => rfl
      | cons x r => simp only [advance]; rw [if_neg hlt]; rfl
    · rw [List.append_nil]
      refine ⟨by have := hD.1; omega, ?_⟩
      rcases hD.2 with h | ⟨q, x, h, h'⟩
      · exact .inl h
      · exact .inr ⟨q, x, h, by omega⟩

theorem detailed_spec (total : Nat) (H : List (Nat × Nat)) (hH : wsum H = total) :
    ∀ (ks : List Nat) (p r : List (Nat × Nat)) (D : Nat), H = p ++ r → Reach D p →
      (∀ k ∈ ks, k ≤ 1000000) →
      ∀ i (hi : i < ks.length), ∃ p' r', H = p' ++ r' ∧
        (detailed total ks (at_ p r))[i]? = some ⟨ks[i], lastVal p', fsum p'⟩ ∧
        Reach ((ks.take (i + 1)).foldl (fun d k => max d (total * k / 1000000)) D) p' := by
  intro ks
  induction ks with
  | nil => intro p r D _ _ _ i hi; simp at hi
  | cons k ks ih =>
    intro p r D hpr hD hk i hi
    have hd : total * k / 1000000 ≤ wsum (p ++ r) := by
      rw [← hpr, hH]
      apply Nat.div_le_of_le_mul
      have := hk k List.mem_cons_self
      nlinarith
    obtain ⟨q, ⟨t, e1, e2⟩, e3⟩ := advance_spec _ r p D hD hd
    have hst : detailed total (k :: ks) (at_ p r) =
        ⟨k, lastVal (p ++ q), fsum (p ++ q)⟩ :: detailed total ks (at_ (p ++ q) t) := by
      simp only [detailed]
      have : advance (total * k / 1000000) (at_ p r).rest (at_ p r).seen (at_ p r).sum (at_ p r).count =
          at_ (p ++ q) t := e2
      rw [this]; rfl
    rw [hst]
    have hsplit : H = (p ++ q) ++ t := by rw [hpr, e1, List.append_assoc]
    cases i with
    | zero => exact ⟨p ++ q, t, hsplit, rfl, by simpa using e3⟩
    | succ i =>
      obtain ⟨p', r', h1, h2, h3⟩ := ih (p ++ q) t _ hsplit e3
        (fun k hk' => hk k (List.mem_cons_of_mem _ hk')) i (by simpa using hi)
      exact ⟨p', r', h1, by simpa using h2, by simpa using h3⟩

/-! From the histogram back to the list of counts. -/

/-- `Σ over the histogram of g(value)·frequency = Σ over the counts of g(count)`. -/
theorem hist_sum (g : Nat → Nat) (m : OMap Nat Nat) (l : List Nat) :
    ((OMap.addAll m (l.map (fun c => (c, 1)))).map (fun p => g p.1 * p.2)).sum =
      (m.map (fun p => g p.1 * p.2)).sum + (l.map g).sum := by
  induction l generalizing m with
  | nil => simp [OMap.addAll]
  | cons c l ih =>
    simp only [List.map_cons, OMap.addAll, List.foldl_cons] at *
    rw [ih]
    have : ∀ m : OMap Nat Nat, ((OMap.add m (c, 1)).map (fun p => g p.1 * p.2)).sum =
        (m.map (fun p => g p.1 * p.2)).sum + g c := by
      intro m
      unfold OMap.add
      induction m with
      | nil => simp [OMap.upsert]
      | cons x m ihm =>
        obtain ⟨k, v⟩ := x
        simp only [OMap.upsert] at *
        split
        · simp; omega
        · split
          · rename_i h; subst h; simp; ring
          · simp [ihm]; omega
    rw [this]; simp; omega

theorem hist_mem (l : List Nat) (p : Nat × Nat) (h : p ∈ OMap.addAll [] (l.map (fun c => (c, 1)))) :
    p.1 ∈ l ∧ 0 < p.2 := by
  have hs : OMap.Sorted (OMap.addAll ([] : OMap Nat Nat) (l.map (fun c => (c, 1)))) :=
    OMap.Sorted.addAll OMap.sorted_nil _
  have h1 := hist_sum (fun x => if x = p.1 then 1 else 0) [] l
  have key : ∀ (m : OMap Nat Nat) (xs : List Nat), (∀ q ∈ m, 0 < q.2 ∧ q.1 ∈ l) → (∀ x ∈ xs, x ∈ l) →
      ∀ q ∈ OMap.addAll m (xs.map (fun c => (c, 1))), 0 < q.2 ∧ q.1 ∈ l := by
    intro m xs
    induction xs generalizing m with
    | nil => intro hm _; simpa [OMap.addAll] using hm
    | cons c xs ih =>
      intro hm hx
      simp only [List.map_cons, OMap.addAll, List.foldl_cons] at *
      apply ih _ _ (fun x h => hx x (List.mem_cons_of_mem _ h))
      have hc := hx c List.mem_cons_self
      clear ih
      unfold OMap.add
      induction m with
      | nil =>
        intro q hq
        simp [OMap.upsert] at hq
        subst hq
        exact ⟨by simp, hc⟩
      | cons y m ihm =>
        obtain ⟨k, v⟩ := y
        intro q hq
        simp only [OMap.upsert] at hq
        split at hq
        · rcases List.mem_cons.1 hq with rfl | hq'
          · exact ⟨by simp, hc⟩
          · exact hm q hq'
        · split at hq
          · rcases List.mem_cons.1 hq with rfl | hq'
            · rename_i hk; subst hk
              exact ⟨by simp, hc⟩
            · exact hm q (List.mem_cons_of_mem _ hq')
          · rcases List.mem_cons.1 hq with rfl | hq'
            · exact hm _ List.mem_cons_self
            · exact ihm (fun z hz => hm z (List.mem_cons_of_mem _ hz)) q hq'
  exact (key [] l (by simp) (fun x h => h) p h).symm

/-- The histogram of a list of counts in decreasing order. -/
def histDesc (l : List Nat) : List (Nat × Nat) := (OMap.addAll [] (l.map (fun c => (c, 1)))).reverse

theorem histDesc_desc (l : List Nat) : (histDesc l).Pairwise (fun a b => b.1 < a.1) := by
  unfold histDesc
  rw [List.pairwise_reverse]
  exact OMap.Sorted.addAll OMap.sorted_nil _

theorem histDesc_sum (g : Nat → Nat) (l : List Nat) :
    ((histDesc l).map (fun p => g p.1 * p.2)).sum = (l.map g).sum := by
  unfold histDesc
  rw [List.map_reverse, List.sum_reverse, hist_sum]
  simp

theorem prefix_filter (H q r : List (Nat × Nat)) (x : Nat × Nat) (h : H = q ++ [x] ++ r)
    (hd : H.Pairwise (fun a b => b.1 < a.1)) (g : Nat → Nat) :
    ((q ++ [x]).map (fun p => g p.1 * p.2)).sum =
      (H.map (fun p => (if x.1 ≤ p.1 then g p.1 else 0) * p.2)).sum ∧
    (q.map (fun p => g p.1 * p.2)).sum =
      (H.map (fun p => (if x.1 < p.1 then g p.1 else 0) * p.2)).sum := by
  subst h
  have hd1 := List.pairwise_append.1 hd
  have hd2 := List.pairwise_append.1 hd1.1
  have hq : ∀ p ∈ q, x.1 < p.1 := fun p hp => hd2.2.2 p hp x (by simp)
  have hr : ∀ p ∈ r, p.1 < x.1 := fun p hp => hd1.2.2 x (by simp) p hp
  have zr : ∀ (f : Nat × Nat → Nat), (∀ p ∈ r, f p = 0) → (r.map f).sum = 0 := by
    intro f hf
    rw [List.map_congr_left hf]; simp
  have sq : ∀ (f f' : Nat × Nat → Nat), (∀ p ∈ q, f p = f' p) → (q.map f).sum = (q.map f').sum := by
    intro f f' hf
    rw [List.map_congr_left hf]
  constructor
  · simp only [List.map_append, List.sum_append, List.map_cons, List.map_nil, le_refl, if_true]
    rw [zr (fun p => (if x.1 ≤ p.1 then g p.1 else 0) * p.2)
      (fun p hp => by rw [if_neg (by have := hr p hp; omega)]; simp)]
    rw [sq (fun p => (if x.1 ≤ p.1 then g p.1 else 0) * p.2) (fun p => g p.1 * p.2)
      (fun p hp => by rw [if_pos (by have := hq p hp; omega)])]
    omega
  · simp only [List.map_append, List.sum_append, List.map_cons, List.map_nil, lt_irrefl, if_false]
    rw [zr (fun p => (if x.1 < p.1 then g p.1 else 0) * p.2)
      (fun p hp => by rw [if_neg (by have := hr p hp; omega)]; simp)]
    rw [sq (fun p => (if x.1 < p.1 then g p.1 else 0) * p.2) (fun p => g p.1 * p.2)
      (fun p hp => by rw [if_pos (hq p hp)])]
    simp

theorem sum_ite_filter (p : Nat → Prop) [DecidablePred p] (l : List Nat) :
    (l.map (fun c => if p c then c else 0)).sum = (l.filter (fun c => decide (p c))).sum ∧
    (l.map (fun c => if p c then 1 else 0)).sum = (l.filter (fun c => decide (p c))).length := by
  induction l with
  | nil => simp
  | cons c l ih => by_cases h : p c <;> simp [h, ih.1, ih.2]; omega

/-- **C21, cutoffs.** Let `D` be the largest fraction `⌊total·cutoff/10⁶⌋` among the cutoffs up to the
`i`-th (for increasing cutoffs: the `i`-th fraction).  If `D = 0` the entry is `(0, 0)`.  Otherwise the
reported minimum count `v` is one of the counts, the reported number is the number of counts `≥ v`, their
sum reaches `D`, and the counts `> v` alone do not: it is the smallest prefix of the decreasing counts,
completed to include all counts equal to its last one, that reaches the fraction. -/
theorem detailed_summary (threshold : Nat) (m : List (Name × Sym)) (cutoffs : List Nat)
    (hc : ∀ k ∈ cutoffs, k ≤ 999999) (i : Nat) (hi : i < cutoffs.length) :
    let l := allCounts threshold m
    let D := (cutoffs.take (i + 1)).foldl (fun d k => max d (l.sum * k / 1000000)) 0
    ∃ v n, (compute threshold m cutoffs).2[i]? = some ⟨cutoffs[i], v, n⟩ ∧
      (D = 0 → v = 0 ∧ n = 0) ∧
      (D ≠ 0 → v ∈ l ∧ n = numGe l v ∧ D ≤ sumGe l v ∧ sumGt l v < D) := by
  intro l D
  have hH : wsum (histDesc l) = l.sum := by
    have := histDesc_sum (fun x => x) l
    simpa [wsum] using this
  obtain ⟨p, r, e1, e2, e3⟩ := detailed_spec l.sum (histDesc l) hH cutoffs [] (histDesc l) 0 rfl
    ⟨Nat.zero_le _, .inl rfl⟩ (fun k hk => by have := hc k hk; omega) i hi
  refine ⟨lastVal p, fsum p, ?_, ?_, ?_⟩
  · simp only [compute, start_eq]; exact e2
  · intro hD
    rcases e3.2 with h | ⟨q, x, h, h'⟩
    · subst h; simp [lastVal]
    · exact absurd h' (by show ¬ wsum q < D; omega)
  · intro hD
    rcases e3.2 with h | ⟨q, x, h, h'⟩
    · subst h
      exact absurd e3.1 (by show ¬ D ≤ 0; omega)
    · subst h
      have hl : lastVal (q ++ [x]) = x.1 := by simp [lastVal]
      rw [hl]
      have hx : x ∈ histDesc l := by rw [e1]; simp
      have pf1 := prefix_filter (histDesc l) q r x e1 (histDesc_desc l) (fun c => c)
      have pf2 := prefix_filter (histDesc l) q r x e1 (histDesc_desc l) (fun _ => 1)
      have hs1 := histDesc_sum (fun c => if x.1 ≤ c then c else 0) l
      have hs2 := histDesc_sum (fun c => if x.1 < c then c else 0) l
      have hs3 := histDesc_sum (fun c => if x.1 ≤ c then 1 else 0) l
      have f1 := (sum_ite_filter (fun c => x.1 ≤ c) l)
      have f2 := (sum_ite_filter (fun c => x.1 < c) l)
      have w1 : wsum (q ++ [x]) = sumGe l x.1 := by
        unfold sumGe; rw [← f1.1, ← hs1]; exact pf1.1
      have w2 : wsum q = sumGt l x.1 := by
        unfold sumGt; rw [← f2.1, ← hs2]; exact pf1.2
      have w3 : fsum (q ++ [x]) = numGe l x.1 := by
        unfold numGe; rw [← f1.2, ← hs3, ← pf2.1]; simp [fsum]
      refine ⟨?_, w3, w1 ▸ e3.1, w2 ▸ h'⟩
      exact (hist_mem l x (by simpa [histDesc] using hx)).1

/-- C21: the asserted invariants of the loop hold: the desired sum never exceeds the total
(profile_writer.cc:338) and is reached (line 351). -/
theorem asserts_hold (l : List Nat) (k : Nat) (hk : k ≤ 999999) (p r : List (Nat × Nat))
    (h : histDesc l = p ++ r) (D : Nat) (hD : Reach D p) :
    l.sum * k / 1000000 ≤ l.sum ∧
    l.sum * k / 1000000 ≤ (advance (l.sum * k / 1000000) r (fsum p) (wsum p) (lastVal p)).sum := by
  have hH : wsum (histDesc l) = l.sum := by
    have := histDesc_sum (fun x => x) l
    simpa [wsum] using this
  have h1 : l.sum * k / 1000000 ≤ l.sum := by
    apply Nat.div_le_of_le_mul; nlinarith
  refine ⟨h1, ?_⟩
  obtain ⟨q, ⟨t, _, e2⟩, e3⟩ := advance_spec (l.sum * k / 1000000) r p D hD (by rw [← h, hH]; exact h1)
  rw [e2]
  exact Nat.le_trans (Nat.le_max_right _ _) e3.1

theorem foldl_max_mono (f : Nat → Nat) (l : List Nat) (d : Nat) :
    d ≤ l.foldl (fun d k => max d (f k)) d := by
  induction l generalizing d with
  | nil => exact Nat.le_refl _
  | cons k l ih => exact Nat.le_trans (Nat.le_max_left _ _) (ih _)

/-- **C21, monotone.** Along the list of entries the number of counts never decreases and, once positive,
the minimum count never increases. -/
theorem detailed_monotone (threshold : Nat) (m : List (Name × Sym)) (cutoffs : List Nat)
    (hc : ∀ k ∈ cutoffs, k ≤ 999999) (i j : Nat) (hij : i ≤ j) (hj : j < cutoffs.length) (x y : Entry)
    (hx : (compute threshold m cutoffs).2[i]? = some x) (hy : (compute threshold m cutoffs).2[j]? = some y) :
    x.numCounts ≤ y.numCounts ∧ (0 < x.numCounts → y.minCount ≤ x.minCount) := by
  obtain ⟨v, n, a1, a2, a3⟩ := detailed_summary threshold m cutoffs hc i (by omega)
  obtain ⟨v', n', b1, b2, b3⟩ := detailed_summary threshold m cutoffs hc j hj
  rw [hx] at a1; cases a1
  rw [hy] at b1; cases b1
  simp only at *
  generalize hl : allCounts threshold m = l at *
  have hDD : (cutoffs.take (i + 1)).foldl (fun d k => max d (l.sum * k / 1000000)) 0 ≤
      (cutoffs.take (j + 1)).foldl (fun d k => max d (l.sum * k / 1000000)) 0 := by
    have : cutoffs.take (j + 1) = cutoffs.take (i + 1) ++ (cutoffs.drop (i + 1)).take (j - i) := by
      rw [← List.take_add]; congr 1; omega
    rw [this, List.foldl_append]
    exact foldl_max_mono _ _ _
  generalize (cutoffs.take (i + 1)).foldl (fun d k => max d (l.sum * k / 1000000)) 0 = D at *
  generalize (cutoffs.take (j + 1)).foldl (fun d k => max d (l.sum * k / 1000000)) 0 = D' at *
  by_cases h0 : D = 0
  · obtain ⟨rfl, rfl⟩ := a2 h0
    exact ⟨Nat.zero_le _, fun h => absurd h (by omega)⟩
  · obtain ⟨c1, c2, c3, c4⟩ := a3 h0
    obtain ⟨d1, d2, d3, d4⟩ := b3 (by omega)
    have hv : v' ≤ v := by
      by_contra hlt
      have : sumGe l v' ≤ sumGt l v := by
        unfold sumGe sumGt
        rw [← (sum_ite_filter (fun c => v' ≤ c) l).1, ← (sum_ite_filter (fun c => v < c) l).1]
        clear * - hlt
        induction l with
        | nil => simp
        | cons c l ih =>
          simp only [List.map_cons, List.sum_cons]
          apply Nat.add_le_add _ ih
          split <;> split <;> omega
      omega
    refine ⟨?_, fun _ => hv⟩
    rw [c2, d2]
    apply List.Sublist.length_le
    apply List.monotone_filter_right
    intro c hc'
    simp only [decide_eq_true_eq] at hc' ⊢
    omega

/-- For increasing cutoffs the bound of `detailed_summary` is the fraction of the entry itself. -/
theorem maxDesired_sorted (total : Nat) (cutoffs : List Nat) (h : cutoffs.Pairwise (· ≤ ·)) (i : Nat)
    (hi : i < cutoffs.length) :
    (cutoffs.take (i + 1)).foldl (fun d k => max d (total * k / 1000000)) 0 =
      total * cutoffs[i] / 1000000 := by
  rw [List.take_succ_eq_append_getElem hi, List.foldl_append]
  simp only [List.foldl_cons, List.foldl_nil]
  apply Nat.max_eq_right
  have : ∀ (l : List Nat) (d : Nat), d ≤ total * cutoffs[i] / 1000000 → (∀ k ∈ l, k ≤ cutoffs[i]) →
      l.foldl (fun d k => max d (total * k / 1000000)) d ≤ total * cutoffs[i] / 1000000 := by
    intro l
    induction l with
    | nil => intro d hd _; exact hd
    | cons k l ih =>
      intro d hd hk
      apply ih
      · exact Nat.max_le.2 ⟨hd, Nat.div_le_div_right (Nat.mul_le_mul_left _ (hk k List.mem_cons_self))⟩
      · intro k' hk'; exact hk k' (List.mem_cons_of_mem _ hk')
  apply this _ _ (Nat.zero_le _)
  intro k hk
  rw [List.mem_take_iff_getElem] at hk
  obtain ⟨j, hj, rfl⟩ := hk
  exact List.pairwise_iff_getElem.1 h j i (by omega) hi (by omega)

/-- `default_cutoffs` (profile_writer.h:246-248). -/
def defaultCutoffs : List Nat :=
  [10000, 100000, 200000, 300000, 400000, 500000, 600000, 700000,
   800000, 900000, 950000, 990000, 999000, 999900, 999990, 999999]

theorem defaultCutoffs_ok : (∀ k ∈ defaultCutoffs, k ≤ 999999) ∧ defaultCutoffs.Pairwise (· ≤ ·) := by
  decide

/-- A profile for the theorems above: one function with an inlined callee, one below the threshold. -/
def exampleMap : List (Name × Sym) :=
  [([102], .mk ⟨100, 4, [(1, ⟨50, 1, []⟩), (2, ⟨30, 1, []⟩)]⟩
      [((3, [103]), .mk ⟨20, 0, [(1, ⟨15, 1, []⟩), (2, ⟨5, 1, []⟩)]⟩ [])]),
   ([104], .mk ⟨3, 1, [(1, ⟨3, 1, []⟩)]⟩ [])]

example : (compute 10 exampleMap [500000, 800000, 990000]).2 =
    [⟨500000, 50, 1⟩, ⟨800000, 30, 2⟩, ⟨990000, 5, 4⟩] ∧ (compute 10 exampleMap []).1.total = 100 := by
  decide +kernel

end Verif.Summary

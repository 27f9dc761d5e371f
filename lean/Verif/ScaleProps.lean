import Verif.Scale

/-! # C102: proofs -/
namespace Verif.Scale
open Verif Verif.SymbolMap Verif.Fl Verif.FloatUses

/-! ## One count -/

theorem scaleN_zero (r : ℚ) : scaleN r 0 = 0 := by
  have h : f64 ((0 : ℕ) : ℚ) = 0 := by simp [f64, rnd_zero]
  unfold scaleN roundHalfUp
  rw [h, zero_mul]
  have : f64 0 = 0 := rnd_zero 53
  rw [this]
  norm_num

theorem roundHalfUp_nat (n : ℕ) : roundHalfUp n = n := by
  unfold roundHalfUp
  have : ⌊(n : ℚ) + 1 / 2⌋ = n := by
    rw [Int.floor_eq_iff]
    constructor
    · simp
    · push_cast; linarith
  rw [this]
  rfl

/-- By a whole number: exact, as long as the result is below 2^53. -/
theorem scaleN_exact (n k : ℕ) (hn : n < 9007199254740992) (h : n * k < 9007199254740992) : scaleN k n = n * k := by
  unfold scaleN
  rw [d_nat hn, ← Nat.cast_mul, d_nat h, roundHalfUp_nat]

theorem roundHalfUp_mono {x y : ℚ} (h : x ≤ y) : roundHalfUp x ≤ roundHalfUp y := by
  unfold roundHalfUp
  exact Int.toNat_le_toNat (Int.floor_le_floor (by linarith))

/-- Larger counts and larger ratios do not give smaller results. -/
theorem scaleN_mono (r r' : ℚ) (m n : ℕ) (h0 : 0 ≤ r) (hr : r ≤ r') (h : m ≤ n) : scaleN r m ≤ scaleN r' n := by
  unfold scaleN
  apply roundHalfUp_mono
  have h1 : f64 (m : ℚ) ≤ f64 (n : ℚ) := d_mono (by positivity) (by exact_mod_cast h)
  have h2 : 0 ≤ f64 (m : ℚ) := d_nonneg (by positivity)
  apply d_mono (mul_nonneg h2 h0)
  exact mul_le_mul h1 hr h0 (h2.trans h1)

theorem roundHalfUp_err {x : ℚ} (h : 0 ≤ x) : |(roundHalfUp x : ℚ) - x| ≤ 1 / 2 := by
  unfold roundHalfUp
  have h0 : 0 ≤ ⌊x + 1 / 2⌋ := Int.floor_nonneg.2 (by linarith)
  have h1 : ((⌊x + 1 / 2⌋.toNat : ℕ) : ℚ) = (⌊x + 1 / 2⌋ : ℚ) := by
    have : ((⌊x + 1 / 2⌋.toNat : ℕ) : ℤ) = ⌊x + 1 / 2⌋ := Int.toNat_of_nonneg h0
    exact_mod_cast this
  rw [h1, abs_le]
  have := Int.floor_le (x + 1 / 2)
  have := Int.lt_floor_add_one (x + 1 / 2)
  constructor <;> linarith

/-- The result is half a unit, and a relative error of 2^-51, away from the product. -/
theorem scaleN_err (r : ℚ) (n : ℕ) (h0 : 0 ≤ r) : |(scaleN r n : ℚ) - n * r| ≤ 1 / 2 + n * r / 2 ^ 51 := by
  have hn : (0 : ℚ) ≤ n := by positivity
  have hf : 0 ≤ f64 (n : ℚ) := d_nonneg hn
  have hp : 0 ≤ f64 (n : ℚ) * r := mul_nonneg hf h0
  have h1 : Near 53 1 (f64 (n : ℚ) * r) (n * r) := by
    have := Near.mul_left r h0 (d_near hn)
    rwa [mul_comm r, mul_comm r] at this
  have h2 : Near 53 2 (f64 (f64 (n : ℚ) * r)) (n * r) := Near.round (by norm_num) hp h1
  have hq : 0 ≤ f64 (f64 (n : ℚ) * r) := d_nonneg hp
  have h3 := roundHalfUp_err hq
  unfold scaleN
  have hx : 0 ≤ (n : ℚ) * r := mul_nonneg hn h0
  generalize f64 (f64 (n : ℚ) * r) = q at *
  generalize (n : ℚ) * r = x at *
  obtain ⟨ha, hb⟩ := h2
  have hg : (1 + ulp 53) ^ 2 ≤ 1 + 1 / 2 ^ 51 - 1 / 2 ^ 53 := by norm_num [ulp]
  have h4 : |q - x| ≤ x / 2 ^ 51 := by
    rw [abs_le]
    constructor
    · -- `x (1 - e) ≤ q`
      have hc : x * (1 - 1 / 2 ^ 51) * (1 + ulp 53) ^ 2 ≤ q * (1 + ulp 53) ^ 2 := by
        refine le_trans ?_ hb
        have : (1 - 1 / 2 ^ 51) * (1 + ulp 53) ^ 2 ≤ (1 : ℚ) := by norm_num [ulp]
        calc x * (1 - 1 / 2 ^ 51) * (1 + ulp 53) ^ 2 = x * ((1 - 1 / 2 ^ 51) * (1 + ulp 53) ^ 2) := by ring
          _ ≤ x * 1 := mul_le_mul_of_nonneg_left this hx
          _ = x := mul_one x
      have hd := le_of_mul_le_mul_right hc (by have := ulp_pos 53; positivity)
      have : x * (1 - 1 / 2 ^ 51) = x - x / 2 ^ 51 := by ring
      linarith
    · have : x * (1 + ulp 53) ^ 2 ≤ x * (1 + 1 / 2 ^ 51) := mul_le_mul_of_nonneg_left (hg.trans (by norm_num)) hx
      have h5 : x * (1 + 1 / 2 ^ 51) = x + x / 2 ^ 51 := by ring
      linarith
  calc |(roundHalfUp q : ℚ) - x| = |((roundHalfUp q : ℚ) - q) + (q - x)| := by ring_nf
    _ ≤ |(roundHalfUp q : ℚ) - q| + |q - x| := abs_add_le _ _
    _ ≤ _ := by linarith

/-! ## One symbol -/

theorem find?_map {K V W : Type} [LinearOrder K] (g : V → W) (k : K) : ∀ m : OMap K V,
    OMap.find? (m.map fun p => (p.1, g p.2) : OMap K W) k = (OMap.find? m k).map g
  | [] => rfl
  | (k', v) :: t => by
    simp only [List.map_cons, OMap.find?]
    split_ifs
    · rfl
    · exact find?_map g k t

theorem sorted_map {K V W : Type} [LinearOrder K] (g : V → W) {m : OMap K V} (h : OMap.Sorted m) :
    OMap.Sorted (m.map fun p => (p.1, g p.2) : OMap K W) := by
  unfold OMap.Sorted at *
  rw [List.pairwise_map]
  exact h

theorem data_scaled (f : ℕ → ℕ) (d : Data) : Scaled f d (d.mapCounts f) := by
  refine ⟨rfl, rfl, fun off => ?_, fun off p q hp hq => ?_⟩
  · unfold Data.mapCounts
    rw [find?_map]
    simp
  · unfold Data.mapCounts at hq
    rw [find?_map, hp] at hq
    simp only [Option.map_some, Option.some.injEq] at hq
    subst hq
    exact ⟨rfl, rfl, fun t => find?_map f t p.targets⟩

theorem lookup_mapCalls (f : ℕ → ℕ) (k : Callsite) : ∀ cs : List (Callsite × Sym), lookup (mapCalls f cs) k = (lookup cs k).map (Sym.mapCounts f)
  | [] => by simp [mapCalls, lookup]
  | (k', s) :: t => by
    simp only [mapCalls, lookup]
    split_ifs
    · rfl
    · exact lookup_mapCalls f k t

theorem mapCounts_data (f : ℕ → ℕ) (s : Sym) : (s.mapCounts f).data = s.data.mapCounts f := by
  cases s; simp [Sym.mapCounts, Sym.data]

theorem mapCounts_calls (f : ℕ → ℕ) (s : Sym) : (s.mapCounts f).calls = mapCalls f s.calls := by
  cases s; simp [Sym.mapCounts, Sym.calls]

theorem node_mapCounts (f : ℕ → ℕ) : ∀ (p : List Callsite) (s : Sym), (s.mapCounts f).node? p = (s.node? p).map (Data.mapCounts f)
  | [], s => by simp [Sym.node?, mapCounts_data]
  | k :: p, s => by
    simp only [Sym.node?, mapCounts_calls, lookup_mapCalls]
    cases h : lookup s.calls k with
    | none => rfl
    | some c => exact node_mapCounts f p c

/-- A scaled symbol has the inlined calls it had, with the same positions and targets; every count is scaled on its own. -/
theorem scale_spec (r : ℚ) (s : Sym) (p : List Callsite) :
    ((s.scale r).node? p = none ↔ s.node? p = none) ∧
    ∀ a b, s.node? p = some a → (s.scale r).node? p = some b → Scaled (scaleN r) a b := by
  unfold Sym.scale
  rw [node_mapCounts]
  refine ⟨by simp, fun a b ha hb => ?_⟩
  rw [ha] at hb
  simp only [Option.map_some, Option.some.injEq] at hb
  subst hb
  exact data_scaled _ a

theorem mapCalls_keys (f : ℕ → ℕ) : ∀ cs : List (Callsite × Sym), (mapCalls f cs).map Prod.fst = cs.map Prod.fst
  | [] => rfl
  | (k, s) :: t => by simp [mapCalls, mapCalls_keys f t]

mutual
theorem mapCounts_wf (f : ℕ → ℕ) : ∀ s : Sym, s.WF → (s.mapCounts f).WF
  | .mk d cs, h => by
    simp only [Sym.WF] at h
    simp only [Sym.mapCounts, Sym.WF]
    refine ⟨sorted_map _ h.1, ?_, by rw [mapCalls_keys]; exact h.2.2.1, mapCalls_wf f cs h.2.2.2⟩
    intro p hp
    simp only [Data.mapCounts, List.mem_map] at hp
    obtain ⟨q, hq, rfl⟩ := hp
    exact sorted_map f (h.2.1 q hq)
theorem mapCalls_wf (f : ℕ → ℕ) : ∀ cs : List (Callsite × Sym), WFCalls cs → WFCalls (mapCalls f cs)
  | [], _ => by simp [mapCalls, WFCalls]
  | (k, s) :: t, h => by
    simp only [WFCalls] at h
    simp only [mapCalls, WFCalls]
    exact ⟨mapCounts_wf f s h.1, mapCalls_wf f t h.2⟩
end

/-! ## The profile -/

theorem foldl_scale (r : ℚ) : ∀ (l : List (Name × ℕ)) (st : Store),
    (l.foldl (fun s e => { s with heap := setHeap s.heap e.2 ((s.heap e.2).scale r) }) st).map = st.map ∧
    (l.foldl (fun s e => { s with heap := setHeap s.heap e.2 ((s.heap e.2).scale r) }) st).next = st.next ∧
    ∀ i, (l.foldl (fun s e => { s with heap := setHeap s.heap e.2 ((s.heap e.2).scale r) }) st).heap i =
      (Sym.scale r)^[(l.filter fun e => e.2 == i).length] (st.heap i)
  | [], st => ⟨rfl, rfl, fun _ => rfl⟩
  | e :: t, st => by
    obtain ⟨h1, h2, h3⟩ := foldl_scale r t { st with heap := setHeap st.heap e.2 ((st.heap e.2).scale r) }
    refine ⟨h1, h2, fun i => ?_⟩
    rw [List.foldl_cons, h3]
    simp only [setHeap]
    by_cases h : i = e.2
    · subst h
      simp [Function.iterate_succ_apply]
    · rw [if_neg h, List.filter_cons_of_neg (by simpa using fun h' => h h'.symm)]

/-- Scaling a profile scales the symbol of a function once for every name the function has, and changes nothing else. -/
theorem store_scale (r : ℚ) (st : Store) : (st.scale r).map = st.map ∧ (st.scale r).next = st.next ∧
    ∀ i, (st.scale r).heap i = (Sym.scale r)^[st.nameCount i] (st.heap i) := foldl_scale r st.map st

theorem iterate_wf (r : ℚ) {s : Sym} (h : s.WF) (k : ℕ) : ((Sym.scale r)^[k] s).WF := by
  induction k with
  | zero => exact h
  | succ k ih => rw [Function.iterate_succ_apply']; exact mapCounts_wf _ _ ih

theorem scale_inv (r : ℚ) (st : Store) (h : st.Inv) : (st.scale r).Inv := by
  obtain ⟨h1, h2, h3⟩ := store_scale r st
  refine ⟨by rw [h1]; exact h.sorted, ?_, ?_⟩
  · rw [h1, h2]; exact h.alloc
  · intro i hi
    rw [h2] at hi
    rw [h3]
    exact iterate_wf r (h.wf i hi) _

theorem nameCount_one {l : List (Name × ℕ)} (hs : l.Pairwise fun a b => a.1 < b.1) {n : Name} {i : ℕ} (hm : (n, i) ∈ l)
    (hinj : ∀ m, (m, i) ∈ l → m = n) : (l.filter fun e => e.2 == i).length = 1 := by
  have hn : l.Nodup := hs.imp (fun h h' => by rw [h'] at h; exact lt_irrefl _ h)
  have hn' := hn.filter (fun e => e.2 == i)
  have : (l.filter fun e => e.2 == i) ⊆ [(n, i)] := by
    intro e he
    rw [List.mem_filter, beq_iff_eq] at he
    obtain ⟨he, h2⟩ := he
    obtain ⟨a, b⟩ := e
    simp only at h2
    subst h2
    rw [hinj a he]
    simp
  have h1 : (l.filter fun e => e.2 == i).length ≤ 1 := (List.subperm_of_subset hn' this).length_le
  have h2 : (n, i) ∈ l.filter fun e => e.2 == i := by simp [hm]
  have := List.length_pos_of_mem h2
  omega

/-- A function that shares its symbol with no other name is scaled once. -/
theorem store_scale_once (r : ℚ) (st : Store) (h : st.Inv) (n : Name) (i : ℕ) (hf : OMap.find? st.map n = some i)
    (hinj : ∀ m, OMap.find? st.map m = some i → m = n) :
    OMap.find? (st.scale r).map n = some i ∧ (st.scale r).heap i = (st.heap i).scale r := by
  obtain ⟨h1, h2, h3⟩ := store_scale r st
  refine ⟨by rw [h1]; exact hf, ?_⟩
  rw [h3]
  unfold Store.nameCount
  rw [nameCount_one h.sorted (OMap.mem_of_find?_some hf) (fun m hm => hinj m (OMap.find?_some_of_mem h.sorted hm))]
  rfl

theorem foldl_sum (g : Name × ℕ → ℕ) : ∀ (l : List (Name × ℕ)) (a : ℕ), l.foldl (fun n e => n + g e) a = a + (l.map g).sum
  | [], a => by simp
  | e :: t, a => by
    rw [List.foldl_cons, foldl_sum g t]
    simp [Nat.add_assoc]

/-- The sum of the totals of a profile: every function counts once for every name it has. -/
theorem totalSum_spec (st : Store) : st.totalSum = ∑ i ∈ st.live, st.nameCount i * (st.heap i).data.total := by
  unfold Store.totalSum Store.live Store.nameCount
  rw [foldl_sum (fun e => (st.heap e.2).data.total), Nat.zero_add]
  generalize st.map = l
  have h : ∀ S : Finset ℕ, (∀ e ∈ l, e.2 ∈ S) →
      (l.map fun e => (st.heap e.2).data.total).sum = ∑ i ∈ S, (l.filter fun e => e.2 == i).length * (st.heap i).data.total := by
    intro S
    induction l with
    | nil => simp
    | cons e t ih =>
      intro hS
      rw [List.map_cons, List.sum_cons, ih (fun x hx => hS x (List.mem_cons_of_mem _ hx))]
      have : ∀ i, ((e :: t).filter fun e => e.2 == i).length * (st.heap i).data.total =
          (if e.2 = i then (st.heap i).data.total else 0) + (t.filter fun e => e.2 == i).length * (st.heap i).data.total := by
        intro i
        by_cases h : e.2 = i
        · simp [h, Nat.add_mul, Nat.add_comm]
        · simp [h]
      rw [Finset.sum_congr rfl (fun i _ => this i), Finset.sum_add_distrib, Finset.sum_ite_eq, if_pos (hS e (by simp))]
  exact h _ (fun e he => by simp only [List.mem_toFinset, List.mem_map]; exact ⟨e, he, rfl⟩)

/-- With one name per function it is the sum of the totals of the functions. -/
theorem totalSum_once (st : Store) (h : st.Inv) (hinj : ∀ n m i, OMap.find? st.map n = some i → OMap.find? st.map m = some i → n = m) :
    st.totalSum = ∑ i ∈ st.live, (st.heap i).data.total := by
  rw [totalSum_spec]
  apply Finset.sum_congr rfl
  intro i hi
  rw [Store.mem_live h.sorted] at hi
  obtain ⟨n, hn⟩ := hi
  unfold Store.nameCount
  rw [nameCount_one h.sorted (OMap.mem_of_find?_some hn) (fun m hm => hinj m n i (OMap.find?_some_of_mem h.sorted hm) hn), Nat.one_mul]

/-! ## Examples -/

/-- A function of 10 samples at two lines with a call target and an inlined call. -/
def exSym : Sym := .mk ⟨10, 3, [(1, ⟨4, 2, [([120], 4)]⟩), (2, ⟨1, 1, []⟩)]⟩ [((3, [121]), .mk ⟨5, 0, [(0, ⟨5, 1, []⟩)]⟩ [])]

/-- The names `a` and `b` of one function and `c` of another. -/
def exStore : Store := ⟨[([97], 0), ([98], 0), ([99], 1)], fun _ => exSym, 2⟩

theorem ex_scale : (exSym.scale (3 / 2)).data = ⟨15, 5, [(1, ⟨6, 2, [([120], 6)]⟩), (2, ⟨2, 1, []⟩)]⟩ ∧
    (exSym.scale (3 / 2)).node? [(3, [121])] = some ⟨8, 0, [(0, ⟨8, 1, []⟩)]⟩ ∧ ((exStore.scale (3 / 2)).heap 1).data.total = 15 := by
  refine ⟨by decide +kernel, by decide +kernel, by decide +kernel⟩

theorem ex_inv : exStore.Inv ∧ ∀ m, OMap.find? exStore.map m = some 1 → m = [99] := by
  refine ⟨⟨by unfold OMap.Sorted; decide +kernel, ?_, ?_⟩, ?_⟩
  · intro k i h
    have := OMap.mem_of_find?_some h
    simp only [exStore, List.mem_cons, Prod.mk.injEq, List.not_mem_nil, or_false] at this ⊢
    omega
  · intro i _
    simp [exStore, exSym, Sym.WF, WFCalls, OMap.Sorted]
  · intro m h
    have := OMap.mem_of_find?_some h
    simpa [exStore] using this

/-- Not claimed: a function that has two names is scaled twice (10 becomes 15, then 23), and counts twice in the sum. -/
theorem alias_violated : ((exStore.scale (3 / 2)).heap 0).data.total = 23 ∧ exStore.totalSum = 30 ∧ (∑ i ∈ exStore.live, (exStore.heap i).data.total) = 20 := by
  refine ⟨by decide +kernel, by decide +kernel, by decide +kernel⟩

/-- Not claimed: the total of a scaled function need not be the sum of its scaled counts: lines of 1 and 1, a total of 2, halved. -/
theorem sum_violated : ((Sym.mk ⟨2, 0, [(1, ⟨1, 1, []⟩), (2, ⟨1, 1, []⟩)]⟩ []).scale (1 / 2)).data = ⟨1, 0, [(1, ⟨1, 1, []⟩), (2, ⟨1, 1, []⟩)]⟩ := by
  decide +kernel

/-- Not claimed: from 2^53 on scaling by one can change counts. -/
theorem large_violated : scaleN 1 9007199254740993 = 9007199254740992 := by decide +kernel

end Verif.Scale

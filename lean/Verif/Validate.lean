import Verif.SymList
import Mathlib.Tactic.NormNum
import Mathlib.Tactic.Linarith

/-!
# C84: validation of a profile; C85: the entry count of a function
Model of `SymbolMap::Validate` (symbol_map.cc:1198-1265), `Symbol::EntryCount` (symbol_map.cc:716-738).  The float arithmetic of the last test of
`Validate` is exact: IEEE binary32, round to nearest even.  The number of locations is below 2^64.
-/
namespace Verif.Validate
open Verif Verif.SymbolMap

/-! ## `Validate` -/

/-- Round a natural number to 24 significant bits, to nearest, ties to even: the conversion of a `uint64_t` to `float`, and the rounding of a
product.  (IEEE 754 binary32; no overflow below 2^128.) -/
def rnd24 (n : Nat) : Nat :=
  if n < 2 ^ 24 then n
  else
    (if 2 * (n % 2 ^ (Nat.log2 n - 23)) < 2 ^ (Nat.log2 n - 23) then n / 2 ^ (Nat.log2 n - 23)
     else if 2 * (n % 2 ^ (Nat.log2 n - 23)) > 2 ^ (Nat.log2 n - 23) then n / 2 ^ (Nat.log2 n - 23) + 1
     else n / 2 ^ (Nat.log2 n - 23) + n / 2 ^ (Nat.log2 n - 23) % 2) * 2 ^ (Nat.log2 n - 23)

/-- `kMinNonZeroSrcFrac` (symbol_map.cc:1207) is the float `frac / 2^24` nearest to 0.6. -/
def frac : Nat := 10066330

/-- `num_srcs_non_zero < num_srcs * kMinNonZeroSrcFrac` (symbol_map.cc:1259), both sides times 2^24. -/
def tooFewNonZero (nonZero srcs : Nat) : Bool := decide (rnd24 nonZero * 2 ^ 24 < rnd24 (rnd24 srcs * frac))

/-- `has_call`, `num_srcs` and `num_srcs_non_zero`. -/
structure Stat where
  call : Bool
  srcs : Nat
  nonZero : Nat
deriving DecidableEq

/-- The body of the loop over the locations of a symbol (symbol_map.cc:1234-1240). -/
def posStep (s : Stat) (p : Nat × PInfo) : Stat :=
  ⟨if p.2.targets.length > 0 then true else s.call, s.srcs + 1, if p.1 ≠ 0 then s.nonZero + 1 else s.nonZero⟩

/-- The loop over the locations of a symbol (symbol_map.cc:1233-1241). -/
def posLoop (l : List (Nat × PInfo)) (s : Stat) : Stat := l.foldl posStep s

/-- What the loop pushes (symbol_map.cc:1242-1244), the top of the stack first. -/
def kids (cs : List (Callsite × Sym)) : List Sym := (cs.map Prod.snd).reverse

/-- The loop over the symbols (symbol_map.cc:1230-1245); the top of the stack first. -/
def walk : List Sym → Stat → Stat
  | [], s => s
  | .mk d cs :: t, s => walk (kids cs ++ t) (posLoop d.pos s)
termination_by l => (l.map sizeOf).sum
decreasing_by
  simp only [kids, List.map_append, List.map_reverse, List.sum_append, List.sum_reverse, List.map_map, List.map_cons, List.sum_cons]
  have h : ∀ cs : List (Callsite × Sym), (cs.map (sizeOf ∘ Prod.snd)).sum < sizeOf cs := by
    intro cs
    induction cs with
    | nil => simp
    | cons c t ih =>
      simp only [List.map_cons, List.sum_cons, Function.comp_apply, List.cons.sizeOf_spec]
      have : sizeOf c.2 < sizeOf c := by cases c; simp
      omega
  have := h cs
  have h2 : sizeOf (Sym.mk d cs) = 1 + sizeOf d + sizeOf cs := by simp
  omega

/-- The sum of the total counts, a `uint64_t` (symbol_map.cc:1220-1224). -/
def sumTotal (uniq : List Sym) : Nat :=
  uniq.foldl (fun t s => if s.data.total = 0 then t else (t + s.data.total) % 2 ^ 64) 0

/-- `has_inline_stack` (symbol_map.cc:1226-1228). -/
def inlineStack (uniq : List Sym) : Bool :=
  uniq.foldl (fun b s => if s.data.total = 0 then b else if s.calls.isEmpty then b else true) false

/-- The symbols pushed by the first loop (symbol_map.cc:1225), the top of the stack first. -/
def roots (uniq : List Sym) : List Sym := (uniq.filter fun s => decide (s.data.total ≠ 0)).reverse

/-- `SymbolMap::Validate` (symbol_map.cc:1209-1265); `names` is the number of names in `map_`, `uniq` is `unique_symbols_`. -/
def validate (names : Nat) (uniq : List Sym) : Bool :=
  if names < 10 then false
  else if sumTotal uniq < 1000000 then false
  else if !(walk (roots uniq) ⟨false, 0, 0⟩).call then false
  else if !inlineStack uniq then false
  else if tooFewNonZero (walk (roots uniq) ⟨false, 0, 0⟩).nonZero (walk (roots uniq) ⟨false, 0, 0⟩).srcs then false
  else true

/-! ## Specification -/

mutual
/-- The locations of a function and of everything inlined in it. -/
def locs : Sym → List (Nat × PInfo)
  | .mk d cs => d.pos ++ locsCalls cs
def locsCalls : List (Callsite × Sym) → List (Nat × PInfo)
  | [] => []
  | (_, s) :: t => locs s ++ locsCalls t
end

/-- The locations of the functions with samples. -/
def sampledLocs (uniq : List Sym) : List (Nat × PInfo) := (uniq.filter fun s => decide (s.data.total ≠ 0)).flatMap locs

/-- What the profile must have, apart from known locations. -/
structure Rich (names : Nat) (uniq : List Sym) : Prop where
  names : 10 ≤ names
  total : 1000000 ≤ (uniq.map fun s => s.data.total).sum % 2 ^ 64
  call : ∃ p ∈ sampledLocs uniq, p.2.targets ≠ []
  inlined : ∃ s ∈ uniq, s.data.total ≠ 0 ∧ s.calls ≠ []

/-! ## Proof -/

theorem posStep_fold (l : List (Nat × PInfo)) (s : Stat) :
    (l.foldl posStep s).call = (s.call || l.any fun p => !p.2.targets.isEmpty) ∧
    (l.foldl posStep s).srcs = s.srcs + l.length ∧
    (l.foldl posStep s).nonZero = s.nonZero + (l.filter fun p => decide (p.1 ≠ 0)).length := by
  induction l generalizing s with
  | nil => simp
  | cons p t ih =>
    obtain ⟨h1, h2, h3⟩ := ih (posStep s p)
    rw [List.foldl_cons, h1, h2, h3]
    refine ⟨?_, ?_, ?_⟩
    · simp only [posStep, List.any_cons]
      cases hp : p.2.targets with
      | nil => simp
      | cons a b => simp
    · simp only [posStep, List.length_cons]; omega
    · simp only [posStep]
      by_cases h : p.1 = 0
      · simp [h]
      · rw [List.filter_cons_of_pos (by simpa using h), if_pos h, List.length_cons]; omega

theorem locsCalls_perm (cs : List (Callsite × Sym)) : (locsCalls cs).Perm ((kids cs).flatMap locs) := by
  have : locsCalls cs = (cs.map Prod.snd).flatMap locs := by
    induction cs with
    | nil => rfl
    | cons c t ih => simp only [locsCalls, List.map_cons, List.flatMap_cons, ih]
  rw [this]
  exact (List.reverse_perm _).symm.flatMap_right locs

theorem walk_perm (l : List Sym) (s : Stat) : ∃ m : List (Nat × PInfo), m.Perm (l.flatMap locs) ∧ walk l s = m.foldl posStep s := by
  induction l, s using walk.induct with
  | case1 s => exact ⟨[], by simp, by simp [walk]⟩
  | case2 d cs t s ih =>
    obtain ⟨m, h1, h2⟩ := ih
    refine ⟨d.pos ++ m, ?_, ?_⟩
    · rw [List.flatMap_cons, show locs (.mk d cs) = d.pos ++ locsCalls cs by simp [locs], List.append_assoc]
      refine List.Perm.append_left _ (h1.trans ?_)
      rw [List.flatMap_append]
      exact (locsCalls_perm cs).symm.append_right _
    · rw [walk, h2, List.foldl_append]; rfl

theorem walk_spec (uniq : List Sym) :
    (walk (roots uniq) ⟨false, 0, 0⟩).call = ((sampledLocs uniq).any fun p => !p.2.targets.isEmpty) ∧
    (walk (roots uniq) ⟨false, 0, 0⟩).srcs = (sampledLocs uniq).length ∧
    (walk (roots uniq) ⟨false, 0, 0⟩).nonZero = ((sampledLocs uniq).filter fun p => decide (p.1 ≠ 0)).length := by
  obtain ⟨m, h1, h2⟩ := walk_perm (roots uniq) ⟨false, 0, 0⟩
  have hp : m.Perm (sampledLocs uniq) := h1.trans ((List.reverse_perm _).flatMap_right locs)
  obtain ⟨h3, h4, h5⟩ := posStep_fold m ⟨false, 0, 0⟩
  rw [h2, h3, h4, h5]
  refine ⟨?_, by simp [hp.length_eq], by simp [(hp.filter _).length_eq]⟩
  rw [Bool.false_or, Bool.eq_iff_iff, List.any_eq_true, List.any_eq_true]
  exact ⟨fun ⟨p, h, h'⟩ => ⟨p, hp.mem_iff.1 h, h'⟩, fun ⟨p, h, h'⟩ => ⟨p, hp.mem_iff.2 h, h'⟩⟩

theorem sumTotal_eq (uniq : List Sym) : sumTotal uniq = (uniq.map fun s => s.data.total).sum % 2 ^ 64 := by
  have h : ∀ (l : List Sym) (t : Nat), t < 2 ^ 64 →
      l.foldl (fun t s => if s.data.total = 0 then t else (t + s.data.total) % 2 ^ 64) t = (t + (l.map fun s => s.data.total).sum) % 2 ^ 64 := by
    intro l
    induction l with
    | nil => intro t ht; rw [List.foldl_nil, List.map_nil, List.sum_nil, Nat.add_zero, Nat.mod_eq_of_lt ht]
    | cons s r ih =>
      intro t ht
      rw [List.foldl_cons]
      by_cases h0 : s.data.total = 0
      · rw [if_pos h0, ih t ht, List.map_cons, List.sum_cons, h0, Nat.zero_add]
      · rw [if_neg h0, ih _ (Nat.mod_lt _ (by decide)), List.map_cons, List.sum_cons]
        omega
  unfold sumTotal
  rw [h uniq 0 (by decide), Nat.zero_add]

theorem inlineStack_iff (uniq : List Sym) : inlineStack uniq = true ↔ ∃ s ∈ uniq, s.data.total ≠ 0 ∧ s.calls ≠ [] := by
  have h : ∀ (l : List Sym) (b : Bool),
      l.foldl (fun b s => if s.data.total = 0 then b else if s.calls.isEmpty then b else true) b = true ↔
        b = true ∨ ∃ s ∈ l, s.data.total ≠ 0 ∧ s.calls ≠ [] := by
    intro l
    induction l with
    | nil => simp
    | cons s r ih =>
      intro b
      rw [List.foldl_cons, ih]
      by_cases h0 : s.data.total = 0
      · simp [h0]
      · rw [if_neg h0]
        by_cases hc : s.calls = []
        · simp [hc]
        · rw [if_neg (by simpa using hc)]
          simp [h0, hc]
  unfold inlineStack
  rw [h]
  simp

/-! ### Rounding -/

theorem rnd24_small (n : Nat) (h : n < 2 ^ 24) : rnd24 n = n := by unfold rnd24; rw [if_pos h]

/-- Rounding changes a number by at most one part in 2^24. -/
theorem rnd24_error (n : Nat) : rnd24 n * 2 ^ 24 ≤ n * (2 ^ 24 + 1) ∧ n * (2 ^ 24 - 1) ≤ rnd24 n * 2 ^ 24 := by
  unfold rnd24
  by_cases h : n < 2 ^ 24
  · rw [if_pos h]; constructor <;> omega
  · rw [if_neg h]
    have hn : n ≠ 0 := by omega
    have hlog : 2 ^ Nat.log2 n ≤ n := Nat.log2_self_le hn
    have h24 : 24 ≤ Nat.log2 n := (Nat.le_log2 hn).2 (by omega)
    obtain ⟨k, hk⟩ : ∃ k, Nat.log2 n = k + 24 := ⟨Nat.log2 n - 24, by omega⟩
    rw [hk] at hlog ⊢
    rw [show k + 24 - 23 = k + 1 by omega]
    have e1 : 2 ^ (k + 24) = 2 ^ 23 * 2 ^ (k + 1) := by rw [show k + 24 = 23 + (k + 1) by omega, Nat.pow_add]
    rw [e1] at hlog
    have hdm : 2 ^ (k + 1) * (n / 2 ^ (k + 1)) + n % 2 ^ (k + 1) = n := Nat.div_add_mod _ _
    have hlt : n % 2 ^ (k + 1) < 2 ^ (k + 1) := Nat.mod_lt _ (Nat.pow_pos (by decide))
    generalize hu : 2 ^ (k + 1) = u at *
    generalize hq : n / u = q at *
    generalize hr : n % u = r at *
    have hqu : u * q = q * u := Nat.mul_comm _ _
    split
    · constructor
      · omega
      · omega
    · split
      · rw [Nat.add_mul, Nat.one_mul]
        constructor <;> omega
      · have hm : q % 2 = 0 ∨ q % 2 = 1 := by omega
        rcases hm with hm | hm
        · rw [hm, Nat.add_zero]; constructor <;> omega
        · rw [hm, Nat.add_mul, Nat.one_mul]; constructor <;> omega

/-- The test of the share of known locations: 60 percent, up to one part in a million. -/
theorem tooFew_bound (nz n : Nat) :
    (nz * 1000000 ≥ n * 600001 → tooFewNonZero nz n = false) ∧ (nz * 1000000 < n * 599999 → tooFewNonZero nz n = true) := by
  unfold tooFewNonZero
  rw [decide_eq_false_iff_not, decide_eq_true_eq]
  obtain ⟨a1, a2⟩ := rnd24_error nz
  obtain ⟨b1, b2⟩ := rnd24_error n
  obtain ⟨c1, c2⟩ := rnd24_error (rnd24 n * frac)
  generalize rnd24 (rnd24 n * frac) = C at *
  generalize rnd24 nz = A at *
  generalize rnd24 n = B at *
  rw [show B * frac = 10066330 * B by unfold frac; omega] at c1 c2
  clear * - a1 a2 b1 b2 c1 c2
  norm_num at a1 a2 b1 b2 c1 c2 ⊢
  constructor
  · intro h; linarith
  · intro h; linarith

/-- **C84.** For every profile: `Validate` fails unless there are ten names, a sum of total counts of at least one million (modulo 2^64), a
location with a call target and a function with something inlined, among the functions with samples; if it has all of this, `Validate` accepts it
if 60.0001 percent of the locations of the functions with samples, inlined ones included, are known, and refuses it if less than 59.9999
percent are. -/
theorem validate_spec (names : Nat) (uniq : List Sym) :
    (validate names uniq = true → Rich names uniq) ∧
    (Rich names uniq → ((sampledLocs uniq).filter fun p => decide (p.1 ≠ 0)).length * 1000000 ≥ (sampledLocs uniq).length * 600001 →
      validate names uniq = true) ∧
    (((sampledLocs uniq).filter fun p => decide (p.1 ≠ 0)).length * 1000000 < (sampledLocs uniq).length * 599999 →
      validate names uniq = false) := by
  obtain ⟨w1, w2, w3⟩ := walk_spec uniq
  obtain ⟨t1, t2⟩ := tooFew_bound ((sampledLocs uniq).filter fun p : Nat × PInfo => decide (p.1 ≠ 0)).length (sampledLocs uniq).length
  unfold validate
  rw [w1, w2, w3, sumTotal_eq]
  have hcall : ((sampledLocs uniq).any fun p => !p.2.targets.isEmpty) = true ↔ ∃ p ∈ sampledLocs uniq, p.2.targets ≠ [] := by
    rw [List.any_eq_true]
    simp
  refine ⟨fun h => ?_, fun hr ht => ?_, fun ht => ?_⟩
  · split at h
    · cases h
    · rename_i h1
      split at h
      · cases h
      · rename_i h2
        split at h
        · cases h
        · rename_i h3
          split at h
          · cases h
          · rename_i h4
            exact ⟨by omega, by omega, hcall.1 (by simpa using h3), (inlineStack_iff uniq).1 (by simpa using h4)⟩
  · obtain ⟨r1, r2, r3, r4⟩ := hr
    rw [if_neg (by omega), if_neg (by omega), hcall.2 r3, (inlineStack_iff uniq).2 r4, t1 ht]
    rfl
  · rw [t2 ht]
    simp only [if_true, ite_self]

/-! ## `EntryCount` -/

/-- The offset of line 10000, discriminator 0 (symbol_map.cc:719-724). -/
def maxPos : Nat := 10000 * 2 ^ 32

mutual
/-- `Symbol::EntryCount` (symbol_map.cc:716-738). -/
def entryCount : Sym → Nat
  | .mk d cs =>
    (entryCalls cs (d.pos.foldl (fun (s : Nat × Nat) p => if p.1 < s.1 then (p.1, p.2.count) else s) (maxPos, 0))).2
/-- The loop over the callsites (symbol_map.cc:731-736): the lowest position so far and the count. -/
def entryCalls : List (Callsite × Sym) → Nat × Nat → Nat × Nat
  | [], s => s
  | (c, y) :: t, s => entryCalls t (if c.1 < s.1 then (c.1, entryCount y) else s)
end

/-- Something with a count begins at the position `p`: a location of the function itself, or a function inlined there. -/
def StartsAt (s : Sym) (p : Nat) : Prop := p ∈ s.data.pos.map Prod.fst ∨ p ∈ s.calls.map fun c => c.1.1

/-- The line of a position: its upper 32 bits. -/
def lineOf (p : Nat) : Nat := p / 2 ^ 32

/-- `e` is an entry count of `s`: that of the first position below line 10000; if it is a location of the function itself, its count; otherwise
an entry count of a function inlined there. -/
inductive Entry : Sym → Nat → Prop
  | none (s) : (∀ p, StartsAt s p → 10000 ≤ lineOf p) → Entry s 0
  | own (s p i) : (p, i) ∈ s.data.pos → lineOf p < 10000 → (∀ q, StartsAt s q → p ≤ q) → Entry s i.count
  | inlined (s p n y e) : ((p, n), y) ∈ s.calls → lineOf p < 10000 → p ∉ s.data.pos.map Prod.fst → (∀ q, StartsAt s q → p ≤ q) →
      Entry y e → Entry s e

theorem lt_maxPos (p : Nat) : p < maxPos ↔ lineOf p < 10000 := by
  unfold maxPos lineOf
  omega

theorem pos_fold (l : List (Nat × PInfo)) (s : Nat × Nat) :
    ((l.foldl (fun (s : Nat × Nat) p => if p.1 < s.1 then (p.1, p.2.count) else s) s = s ∧ ∀ p ∈ l, s.1 ≤ p.1) ∨
      ∃ p ∈ l, l.foldl (fun (s : Nat × Nat) p => if p.1 < s.1 then (p.1, p.2.count) else s) s = (p.1, p.2.count) ∧ p.1 < s.1 ∧ ∀ q ∈ l, p.1 ≤ q.1) := by
  induction l generalizing s with
  | nil => exact Or.inl ⟨rfl, by simp⟩
  | cons x t ih =>
    rw [List.foldl_cons]
    by_cases h : x.1 < s.1
    · rw [if_pos h]
      rcases ih (x.1, x.2.count) with ⟨h1, h2⟩ | ⟨p, hp, h1, h2, h3⟩
      · refine Or.inr ⟨x, List.mem_cons_self, h1, h, fun q hq => ?_⟩
        rcases List.mem_cons.1 hq with rfl | hq
        · exact Nat.le_refl _
        · exact h2 q hq
      · refine Or.inr ⟨p, List.mem_cons_of_mem _ hp, h1, by simp only at h2; omega, fun q hq => ?_⟩
        rcases List.mem_cons.1 hq with rfl | hq
        · simp only at h2; omega
        · exact h3 q hq
    · rw [if_neg h]
      rcases ih s with ⟨h1, h2⟩ | ⟨p, hp, h1, h2, h3⟩
      · refine Or.inl ⟨h1, fun q hq => ?_⟩
        rcases List.mem_cons.1 hq with rfl | hq
        · omega
        · exact h2 q hq
      · refine Or.inr ⟨p, List.mem_cons_of_mem _ hp, h1, h2, fun q hq => ?_⟩
        rcases List.mem_cons.1 hq with rfl | hq
        · omega
        · exact h3 q hq

theorem calls_fold (cs : List (Callsite × Sym)) (s : Nat × Nat) :
    (entryCalls cs s = s ∧ ∀ c ∈ cs, s.1 ≤ c.1.1) ∨
      ∃ c ∈ cs, entryCalls cs s = (c.1.1, entryCount c.2) ∧ c.1.1 < s.1 ∧ ∀ q ∈ cs, c.1.1 ≤ q.1.1 := by
  induction cs generalizing s with
  | nil => exact Or.inl ⟨by simp [entryCalls], by simp⟩
  | cons x t ih =>
    obtain ⟨k, y⟩ := x
    simp only [entryCalls]
    by_cases h : k.1 < s.1
    · rw [if_pos h]
      rcases ih (k.1, entryCount y) with ⟨h1, h2⟩ | ⟨p, hp, h1, h2, h3⟩
      · refine Or.inr ⟨(k, y), List.mem_cons_self, h1, h, fun q hq => ?_⟩
        rcases List.mem_cons.1 hq with rfl | hq
        · exact Nat.le_refl _
        · exact h2 q hq
      · refine Or.inr ⟨p, List.mem_cons_of_mem _ hp, h1, by simp only at h2; omega, fun q hq => ?_⟩
        rcases List.mem_cons.1 hq with rfl | hq
        · simp only at h2 ⊢; omega
        · exact h3 q hq
    · rw [if_neg h]
      rcases ih s with ⟨h1, h2⟩ | ⟨p, hp, h1, h2, h3⟩
      · refine Or.inl ⟨h1, fun q hq => ?_⟩
        rcases List.mem_cons.1 hq with rfl | hq
        · simp only; omega
        · exact h2 q hq
      · refine Or.inr ⟨p, List.mem_cons_of_mem _ hp, h1, h2, fun q hq => ?_⟩
        rcases List.mem_cons.1 hq with rfl | hq
        · simp only; omega
        · exact h3 q hq

/-- **C85.** For every function profile, the entry count is the count at the first position below line 10000 (0 if there is none): of the
function itself if it has samples there, otherwise of what is inlined there. -/
theorem entryCount_spec : ∀ s : Sym, Entry s (entryCount s)
  | .mk d cs => by
    have hst : ∀ p, StartsAt (.mk d cs) p ↔ (p ∈ d.pos.map Prod.fst ∨ p ∈ cs.map fun c => c.1.1) := fun p => Iff.rfl
    rw [entryCount]
    rcases pos_fold d.pos (maxPos, 0) with ⟨h1, h2⟩ | ⟨p, hp, h1, h2, h3⟩
    · rw [h1]
      rcases calls_fold cs (maxPos, 0) with ⟨g1, g2⟩ | ⟨c, hc, g1, g2, g3⟩
      · rw [g1]
        refine .none _ (fun p hp => ?_)
        rw [← Nat.not_lt, ← lt_maxPos, Nat.not_lt]
        rcases (hst p).1 hp with hp | hp
        · obtain ⟨x, hx, rfl⟩ := List.mem_map.1 hp
          exact h2 x hx
        · obtain ⟨x, hx, rfl⟩ := List.mem_map.1 hp
          exact g2 x hx
      · rw [g1]
        have hdec : sizeOf c.2 < sizeOf (Sym.mk d cs) := by
          have := List.sizeOf_lt_of_mem hc
          have : sizeOf c.2 < sizeOf c := by obtain ⟨a, b⟩ := c; simp
          have : sizeOf (Sym.mk d cs) = 1 + sizeOf d + sizeOf cs := by simp
          omega
        refine .inlined _ c.1.1 c.1.2 c.2 _ hc ((lt_maxPos _).1 g2) ?_ (fun q hq => ?_) (entryCount_spec c.2)
        · intro hm
          obtain ⟨x, hx, he⟩ := List.mem_map.1 hm
          have := h2 x hx
          simp only at this g2
          omega
        · rcases (hst q).1 hq with hp | hp
          · obtain ⟨x, hx, rfl⟩ := List.mem_map.1 hp
            have := h2 x hx
            simp only at this g2
            omega
          · obtain ⟨x, hx, rfl⟩ := List.mem_map.1 hp
            exact g3 x hx
    · rw [h1]
      rcases calls_fold cs (p.1, p.2.count) with ⟨g1, g2⟩ | ⟨c, hc, g1, g2, g3⟩
      · rw [g1]
        refine .own _ p.1 p.2 hp ((lt_maxPos _).1 h2) (fun q hq => ?_)
        rcases (hst q).1 hq with hq | hq
        · obtain ⟨x, hx, rfl⟩ := List.mem_map.1 hq
          exact h3 x hx
        · obtain ⟨x, hx, rfl⟩ := List.mem_map.1 hq
          exact g2 x hx
      · rw [g1]
        have hdec : sizeOf c.2 < sizeOf (Sym.mk d cs) := by
          have := List.sizeOf_lt_of_mem hc
          have : sizeOf c.2 < sizeOf c := by obtain ⟨a, b⟩ := c; simp
          have : sizeOf (Sym.mk d cs) = 1 + sizeOf d + sizeOf cs := by simp
          omega
        simp only at g2 h2
        refine .inlined _ c.1.1 c.1.2 c.2 _ hc ((lt_maxPos _).1 (by omega)) ?_ (fun q hq => ?_) (entryCount_spec c.2)
        · intro hm
          obtain ⟨x, hx, he⟩ := List.mem_map.1 hm
          have := h3 x hx
          omega
        · rcases (hst q).1 hq with hq | hq
          · obtain ⟨x, hx, rfl⟩ := List.mem_map.1 hq
            have := h3 x hx
            omega
          · obtain ⟨x, hx, rfl⟩ := List.mem_map.1 hq
            exact g3 x hx
termination_by s => sizeOf s
decreasing_by all_goals exact hdec

mutual
/-- No two functions are inlined at one position, at any depth. -/
def OneEach : Sym → Prop
  | .mk d cs => (d.pos.map Prod.fst).Nodup ∧ (cs.map fun c => c.1.1).Nodup ∧ OneEachCalls cs
def OneEachCalls : List (Callsite × Sym) → Prop
  | [] => True
  | (_, s) :: t => OneEach s ∧ OneEachCalls t
end

theorem oneEach_mem {cs : List (Callsite × Sym)} (h : OneEachCalls cs) {c : Callsite × Sym} (hc : c ∈ cs) : OneEach c.2 := by
  induction cs with
  | nil => cases hc
  | cons x t ih =>
    simp only [OneEachCalls] at h
    rcases List.mem_cons.1 hc with rfl | hc
    · exact h.1
    · exact ih h.2 hc

theorem nodup_inj {α : Type} {f : α → Nat} {l : List α} (h : (l.map f).Nodup) {a b : α} (ha : a ∈ l) (hb : b ∈ l) (e : f a = f b) : a = b := by
  induction l with
  | nil => cases ha
  | cons x t ih =>
    rw [List.map_cons, List.nodup_cons] at h
    rcases List.mem_cons.1 ha with h1 | h1 <;> rcases List.mem_cons.1 hb with h2 | h2
    · rw [h1, h2]
    · exact absurd (List.mem_map.2 ⟨b, h2, by rw [← e, h1]⟩) h.1
    · exact absurd (List.mem_map.2 ⟨a, h1, by rw [e, h2]⟩) h.1
    · exact ih h.2 h1 h2

/-- The specification determines the entry count if no two functions are inlined at one position. -/
theorem entry_unique (s : Sym) (e e' : Nat) (hs : OneEach s) (h : Entry s e) (h' : Entry s e') : e = e' := by
  induction h generalizing e' with
  | none s hn =>
    cases h' with
    | none => rfl
    | own _ p i h1 h2 h3 =>
      have := hn p (Or.inl (List.mem_map.2 ⟨_, h1, rfl⟩))
      omega
    | inlined _ p n y e h1 h2 h3 h4 h5 =>
      have := hn p (Or.inr (List.mem_map.2 ⟨_, h1, rfl⟩))
      omega
  | own s p i g1 g2 g3 =>
    obtain ⟨d, cs⟩ := s
    simp only [OneEach] at hs
    have hp : StartsAt (.mk d cs) p := Or.inl (List.mem_map.2 ⟨_, g1, rfl⟩)
    cases h' with
    | none _ hn =>
      have := hn p hp
      omega
    | own _ q j h1 h2 h3 =>
      have e1 := h3 p hp
      have e2 := g3 q (Or.inl (List.mem_map.2 ⟨_, h1, rfl⟩))
      have := nodup_inj hs.1 g1 h1 (by simp only; omega)
      cases this
      rfl
    | inlined _ q n y e h1 h2 h3 h4 h5 =>
      have e1 := h4 p hp
      have e2 := g3 q (Or.inr (List.mem_map.2 ⟨_, h1, rfl⟩))
      have : p = q := by omega
      subst this
      exact absurd (List.mem_map.2 ⟨_, g1, rfl⟩) h3
  | inlined s p n y e g1 g2 g3 g4 g5 ih =>
    obtain ⟨d, cs⟩ := s
    simp only [OneEach] at hs
    have hp : StartsAt (.mk d cs) p := Or.inr (List.mem_map.2 ⟨_, g1, rfl⟩)
    cases h' with
    | none _ hn =>
      have := hn p hp
      omega
    | own _ q j h1 h2 h3 =>
      have e1 := h3 p hp
      have e2 := g4 q (Or.inl (List.mem_map.2 ⟨_, h1, rfl⟩))
      have : p = q := by omega
      subst this
      exact absurd (List.mem_map.2 ⟨_, h1, rfl⟩) g3
    | inlined _ q m z e h1 h2 h3 h4 h5 =>
      have e1 := h4 p hp
      have e2 := g4 q (Or.inr (List.mem_map.2 ⟨_, h1, rfl⟩))
      have hcs := nodup_inj hs.2.1 g1 h1 (by simp only; omega)
      cases hcs
      exact ih _ (oneEach_mem hs.2.2 g1) h5

/-- With two functions inlined at the first position, the entry count depends on the order of the hash map. -/
theorem order_violated :
    entryCount (.mk ⟨3, 0, []⟩ [((5, [97]), .mk ⟨1, 0, [(1, ⟨1, 1, []⟩)]⟩ []), ((5, [98]), .mk ⟨2, 0, [(1, ⟨2, 1, []⟩)]⟩ [])]) = 1 ∧
    entryCount (.mk ⟨3, 0, []⟩ [((5, [98]), .mk ⟨2, 0, [(1, ⟨2, 1, []⟩)]⟩ []), ((5, [97]), .mk ⟨1, 0, [(1, ⟨1, 1, []⟩)]⟩ [])]) = 2 := by
  constructor <;> decide +kernel

/-! ## Examples -/

/-- A function with a call, a location without line and something inlined. -/
def exSym : Sym := .mk ⟨2000000, 1, [(2 ^ 32, ⟨10, 1, [([98], 4)]⟩), (2 * 2 ^ 32, ⟨20, 1, []⟩)]⟩
  [((5, [97]), .mk ⟨7, 0, [(0, ⟨3, 1, []⟩), (2 ^ 32, ⟨4, 1, []⟩)]⟩ [])]

theorem exSym_valid : validate 10 [exSym] = true ∧ validate 9 [exSym] = false ∧ entryCount exSym = 3 ∧ Rich 10 [exSym] ∧ OneEach exSym := by
  have h : validate 10 [exSym] = true := by
    unfold validate
    obtain ⟨w1, w2, w3⟩ := walk_spec [exSym]
    rw [w1, w2, w3]
    decide +kernel
  exact ⟨h, by decide +kernel, by decide +kernel, (validate_spec 10 [exSym]).1 h, by simp [OneEach, OneEachCalls, exSym]⟩

/-- The sum of the total counts wraps around: a profile with 2^64 samples is refused. -/
theorem wrap_violated : validate 10 [exSym, .mk ⟨2 ^ 64 - 2000000, 0, []⟩ []] = false := by
  unfold validate
  decide +kernel
end Verif.Validate

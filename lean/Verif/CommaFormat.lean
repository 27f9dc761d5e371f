import Mathlib.Data.List.Basic
import Mathlib.Tactic.Ring

/-!
Numbers with thousands separators (llvm_propeller_formatting.cc 13-35).
-/

namespace Verif.CommaFormat

/-- The state of a `std::ostream` that matters here. -/
structure Stream where
  out : List Nat := []
  fill : Nat := 32
  width : Nat := 0
  left : Bool := false
  hex : Bool := false
  showbase : Bool := false
deriving DecidableEq, Repr

/-- Writing a formatted item: padded with the fill character to the width, which is then 0. -/
def put (s : Stream) (t : List Nat) : Stream :=
  let pad := List.replicate (s.width - t.length) s.fill
  { s with out := s.out ++ (if s.left then t ++ pad else pad ++ t), width := 0 }

/-- The decimal digits of an `int` in 0 ≤ n < 1000, the only ones that occur. -/
def dec (n : Nat) : List Nat :=
  if n < 10 then [48 + n] else if n < 100 then [48 + n / 10, 48 + n % 10] else [48 + n / 100, 48 + n / 10 % 10, 48 + n % 10]

/-- The loop `while (value)` (18-21): the groups, the highest first. -/
def segs (v : Nat) (seg : List Nat) : List Nat :=
  if _h : v = 0 then seg else segs (v / 1000) (v % 1000 :: seg)
termination_by v
decreasing_by omega

/-- 28-29: "," and the group with `setw(3)` and `setfill('0')`. -/
def rest (s : Stream) (g : Nat) : Stream := put { put s [44] with width := 3, fill := 48 } (dec g)

/-- `operator<<(std::ostream &, const CommaStyleNumberFormatter &)`, 14-35. -/
def print (s : Stream) (v : Nat) : Stream :=
  let seg := segs v []
  let seg := if seg.isEmpty then [0] else seg
  let s1 := put { s with hex := false, showbase := false, fill := 0 } (dec (seg.headD 0))
  let s2 := seg.tail.foldl rest s1
  { s2 with fill := s.fill, width := s.width }

/-! ## Specification -/

def IsDigit (c : Nat) : Prop := 48 ≤ c ∧ c ≤ 57

/-- The number a string of digits stands for. -/
def read (l : List Nat) : Nat := l.foldl (fun a c => a * 10 + (c - 48)) 0

/-- `t` is the number `v` with a comma before each group of three digits: without the commas it reads `v`; the first group has one to
three digits, of which the first is not 0 unless that is all, the others have three. -/
def Grouped (v : Nat) (t : List Nat) : Prop :=
  ∃ g gs, t = g ++ gs.flatMap (44 :: ·) ∧ read (t.filter (· != 44)) = v ∧ 1 ≤ g.length ∧ g.length ≤ 3 ∧
    (∀ c ∈ g, IsDigit c) ∧ (g.head? = some 48 → g = [48] ∧ gs = []) ∧ ∀ h ∈ gs, h.length = 3 ∧ ∀ c ∈ h, IsDigit c

/-! ## Proofs -/

/-- Three digits. -/
def pad3 (n : Nat) : List Nat := [48 + n / 100, 48 + n / 10 % 10, 48 + n % 10]

theorem rest_eq (s : Stream) (g : Nat) (hw : s.width = 0) (hl : s.left = false) (hg : g < 1000) :
    rest s g = { s with out := s.out ++ 44 :: pad3 g, fill := 48 } := by
  have key : List.replicate (3 - (dec g).length) 48 ++ dec g = pad3 g := by
    unfold dec pad3
    by_cases h1 : g < 10
    · rw [if_pos h1]
      have a : g / 100 = 0 := by omega
      have b : g / 10 % 10 = 0 := by omega
      have c : g % 10 = g := by omega
      rw [a, b, c]; rfl
    · rw [if_neg h1]
      by_cases h2 : g < 100
      · rw [if_pos h2]
        have a : g / 100 = 0 := by omega
        have b : g / 10 % 10 = g / 10 := by omega
        rw [a, b]; rfl
      · rw [if_neg h2]; rfl
  cases s with
  | mk out fill width left hex sb =>
    simp only at hw hl
    subst hw; subst hl
    simp only [rest, put, List.length_singleton, Nat.zero_sub, List.replicate_zero, List.nil_append, Bool.false_eq_true, if_false, key,
      List.append_assoc, List.singleton_append]

theorem foldl_rest : ∀ (gs : List Nat) (s : Stream), s.width = 0 → s.left = false → (∀ g ∈ gs, g < 1000) →
    ∃ f, gs.foldl rest s = { s with out := s.out ++ gs.flatMap (fun g => 44 :: pad3 g), fill := f }
  | [], s, _, _, _ => ⟨s.fill, by simp⟩
  | g :: gs, s, hw, hl, hg => by
    rw [List.foldl_cons, rest_eq s g hw hl (hg g (by simp))]
    obtain ⟨f, hf⟩ := foldl_rest gs { s with out := s.out ++ 44 :: pad3 g, fill := 48 } hw hl (fun x hx => hg x (by simp [hx]))
    exact ⟨f, by rw [hf]; simp⟩

theorem segs_spec (v : Nat) : ∀ (l : List Nat), (∀ g ∈ l, g < 1000) → (∀ g ∈ segs v l, g < 1000) ∧
    (segs v l).foldl (fun a g => a * 1000 + g) 0 = l.foldl (fun a g => a * 1000 + g) v ∧
    (v ≠ 0 → ∃ g gs, segs v l = g :: gs ∧ g ≠ 0) := by
  induction v using Nat.strong_induction_on with
  | _ v ih =>
    intro l hl
    unfold segs
    by_cases h : v = 0
    · subst h; simpa using hl
    · rw [dif_neg h]
      have hl' : ∀ g ∈ v % 1000 :: l, g < 1000 := by
        intro g hg; rcases List.mem_cons.1 hg with rfl | hg
        · exact Nat.mod_lt _ (by decide)
        · exact hl g hg
      obtain ⟨h1, h2, h3⟩ := ih (v / 1000) (by omega) _ hl'
      refine ⟨h1, ?_, fun _ => ?_⟩
      · rw [h2, List.foldl_cons]
        congr 1; omega
      · by_cases hz : v / 1000 = 0
        · refine ⟨v % 1000, l, ?_, by omega⟩
          rw [hz]; unfold segs; simp
        · exact h3 hz

theorem read_append (a b : List Nat) : read (a ++ b) = b.foldl (fun x c => x * 10 + (c - 48)) (read a) := by
  simp [read, List.foldl_append]

theorem dec_spec {n : Nat} (h : n < 1000) : read (dec n) = n ∧ 1 ≤ (dec n).length ∧ (dec n).length ≤ 3 ∧ (∀ c ∈ dec n, IsDigit c) ∧
    ((dec n).head? = some 48 → n = 0) ∧ (dec n).filter (· != 44) = dec n := by
  have hd : ∀ c ∈ dec n, IsDigit c := by
    intro c hc; unfold dec at hc; unfold IsDigit
    split at hc
    · simp at hc; omega
    · split at hc <;> simp at hc <;> omega
  refine ⟨?_, ?_, ?_, hd, ?_, ?_⟩
  · unfold dec; split
    · simp [read]
    · split <;> simp [read] <;> omega
  · unfold dec; split <;> [skip; split] <;> simp
  · unfold dec; split <;> [skip; split] <;> simp
  · unfold dec; split <;> [skip; split] <;> simp <;> omega
  · rw [List.filter_eq_self]; intro c hc; have := hd c hc; unfold IsDigit at this; simp; omega

theorem pad3_digit {g : Nat} (h : g < 1000) : ∀ c ∈ pad3 g, IsDigit c := by
  intro c hc; simp [pad3] at hc; unfold IsDigit; omega

theorem filter_rest : ∀ (gs : List Nat), (∀ g ∈ gs, g < 1000) →
    (gs.flatMap (fun g => 44 :: pad3 g)).filter (· != 44) = gs.flatMap pad3
  | [], _ => rfl
  | g :: gs, h => by
    have hp : (pad3 g).filter (· != 44) = pad3 g := by
      rw [List.filter_eq_self]; intro c hc; have := pad3_digit (h g (by simp)) c hc; unfold IsDigit at this; simp; omega
    rw [List.flatMap_cons, List.flatMap_cons, List.filter_append, filter_rest gs (fun x hx => h x (by simp [hx]))]
    rw [List.filter_cons_of_neg (by simp), hp]

theorem read_rest : ∀ (gs : List Nat) (a : Nat), (∀ g ∈ gs, g < 1000) →
    (gs.flatMap pad3).foldl (fun x c => x * 10 + (c - 48)) a = gs.foldl (fun a g => a * 1000 + g) a
  | [], _, _ => rfl
  | g :: gs, a, h => by
    rw [List.flatMap_cons, List.foldl_append, List.foldl_cons, ← read_rest gs _ (fun x hx => h x (by simp [hx]))]
    congr 1
    have := h g (by simp)
    simp only [pad3, List.foldl_cons, List.foldl_nil, Nat.add_sub_cancel_left]
    omega

/-- **C106.** On a stream that has no width set and does not adjust to the left, every number is written with a comma before each
group of three digits, and nothing else; the fill character and the width are what they were. -/
theorem print_spec (s : Stream) (v : Nat) (hw : s.width = 0) (hl : s.left = false) :
    ∃ t, (print s v).out = s.out ++ t ∧ Grouped v t ∧ (print s v).fill = s.fill ∧ (print s v).width = 0 ∧ (print s v).left = false := by
  obtain ⟨h1, h2, h3⟩ := segs_spec v [] (by simp)
  obtain ⟨g, gs, hs, hg, hgs, hv, hz⟩ : ∃ g gs, (if (segs v []).isEmpty then [0] else segs v []) = g :: gs ∧ g < 1000 ∧
      (∀ x ∈ gs, x < 1000) ∧ gs.foldl (fun a g => a * 1000 + g) g = v ∧ (g = 0 → gs = []) := by
    by_cases hv : v = 0
    · subst hv
      exact ⟨0, [], by unfold segs; simp, by omega, by simp, rfl, fun _ => rfl⟩
    · obtain ⟨g, gs, he, hg0⟩ := h3 hv
      rw [he] at h1 h2
      refine ⟨g, gs, by rw [he]; rfl, h1 g (by simp), fun x hx => h1 x (by simp [hx]), ?_, fun h => absurd h hg0⟩
      simpa using h2
  obtain ⟨d1, d2, d3, d4, d5, d6⟩ := dec_spec hg
  have hput : put { s with hex := false, showbase := false, fill := 0 } (dec g) =
      { s with hex := false, showbase := false, fill := 0, out := s.out ++ dec g } := by
    cases s; simp only at hw hl; subst hw; subst hl; simp [put]
  obtain ⟨f, hf⟩ := foldl_rest gs { s with hex := false, showbase := false, fill := 0, out := s.out ++ dec g } hw hl hgs
  have hpr : print s v = { s with hex := false, showbase := false, out := s.out ++ dec g ++ gs.flatMap (fun g => 44 :: pad3 g) } := by
    unfold print
    simp only [hs, List.headD_cons, List.tail_cons, hput, hf]
  rw [hpr]
  refine ⟨dec g ++ gs.flatMap (fun g => 44 :: pad3 g), by simp, ⟨dec g, gs.map pad3, ?_, ?_, d2, d3, d4, ?_, ?_⟩, rfl, hw, hl⟩
  · rw [List.flatMap_map]
  · rw [List.filter_append, d6, filter_rest gs hgs, read_append, d1, read_rest gs g hgs, hv]
  · intro h
    have := d5 h
    subst this
    exact ⟨rfl, by simp [hz rfl]⟩
  · intro h hh
    obtain ⟨x, hx, rfl⟩ := List.mem_map.1 hh
    exact ⟨rfl, pad3_digit (hgs x hx)⟩

/-- Nothing is lost: different numbers are written differently. -/
theorem print_injective (s : Stream) (v w : Nat) (hw : s.width = 0) (hl : s.left = false) (h : (print s v).out = (print s w).out) :
    v = w := by
  obtain ⟨t, h1, ⟨-, -, -, h2, -⟩, -⟩ := print_spec s v hw hl
  obtain ⟨t', h1', ⟨-, -, -, h2', -⟩, -⟩ := print_spec s w hw hl
  rw [h1, h1'] at h
  rw [← h2, ← h2', List.append_cancel_left h]

/-- 12,034,005 -/
theorem ex_print : (print {} 12034005).out = [49, 50, 44, 48, 51, 52, 44, 48, 48, 53] ∧ (print {} 0).out = [48] ∧
    (print {} 18446744073709551615).out.length = 26 := by
  refine ⟨?_, ?_, ?_⟩ <;> simp [print, segs, put, rest, dec]

/-- With a width set, zero bytes are written before the number, and the width applies again to what is written next. -/
theorem width_violated : (print { width := 6 } 1005).out = [0, 0, 0, 0, 0, 49, 44, 48, 48, 53] ∧ (print { width := 6 } 1005).width = 6 := by
  constructor <;> simp [print, segs, put, rest, dec]

/-- On a stream that adjusts to the left, 1005 is written as 1,500. -/
theorem left_violated : (print { left := true } 1005).out = [49, 44, 53, 48, 48] := by
  simp [print, segs, put, rest, dec]

/-- A stream that wrote hexadecimal numbers no longer does. -/
theorem base_violated : (print { hex := true, showbase := true } 7).hex = false := by
  simp [print, segs, put, rest, dec]

end Verif.CommaFormat

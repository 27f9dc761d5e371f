import Verif.Afdo
import Mathlib.Algebra.BigOperators.Group.Finset.Basic
import Mathlib.Data.Finset.Dedup

/-! # C18: emission threshold (symbol_map.cc:370-391, symbol_map.h:305, profile_writer.h:124-132)

`FLAGS_sample_threshold_frac` is a non-negative rational `num / den`; the `double` product is exact
(rounding of `double` is not modelled).  Counts are natural numbers. -/
namespace Verif.Threshold
open Verif Verif.SymbolMap

/-- `kMinSamples` (symbol_map.h:75). -/
def kMinSamples : Nat := 10

/-- `CalculateThresholdFromTotalCount` (symbol_map.cc:370-375): truncated product, at least
`kMinSamples`. -/
def fromTotal (num den total : Nat) : Nat :=
  let t := total * num / den
  if t < kMinSamples then kMinSamples else t

/-- An entry of `map_`: the key, and name and total of the symbol it points to (an alias points to the
symbol of another name). -/
structure Entry where
  key : Name
  sym : Name
  total : Nat

/-- The loop of `CalculateThreshold` (symbol_map.cc:380-386): each symbol name counts once. -/
def totalCount : List Entry → List Name → Nat → Nat
  | [], _, acc => acc
  | e :: es, visited, acc =>
    if e.sym ∈ visited then totalCount es visited acc
    else totalCount es (e.sym :: visited) (acc + e.total)

/-- `CalculateThreshold` (symbol_map.cc:377-391). -/
def calculate (num den : Nat) (m : List Entry) : Nat := fromTotal num den (totalCount m [] 0)

/-- `ShouldEmit` (symbol_map.h:305). -/
def shouldEmit (threshold count : Nat) : Bool := decide (count > threshold)

/-- The functions written: `SymbolTraverser::Start` (profile_writer.h:124-132). -/
def emittedEntries (num den : Nat) (m : List Entry) : List Entry :=
  m.filter (fun e => shouldEmit (calculate num den m) e.total)

/-- Aliases agree with the symbol they point to. -/
def Coherent (tot : Name → Nat) (m : List Entry) : Prop := ∀ e ∈ m, e.total = tot e.sym

theorem totalCount_spec (tot : Name → Nat) (m : List Entry) (h : Coherent tot m) (vis : List Name)
    (acc : Nat) :
    totalCount m vis acc = acc + ∑ n ∈ (m.map Entry.sym).toFinset \ vis.toFinset, tot n := by
  induction m generalizing vis acc with
  | nil => simp [totalCount]
  | cons e es ih =>
    have he := h e List.mem_cons_self
    have ih' := fun v a => ih (fun x hx => h x (List.mem_cons_of_mem _ hx)) v a
    simp only [totalCount]
    by_cases hv : e.sym ∈ vis
    · rw [if_pos hv, ih']
      congr 1
      apply Finset.sum_congr _ (fun _ _ => rfl)
      ext n
      simp only [List.map_cons, List.toFinset_cons, Finset.mem_sdiff, Finset.mem_insert,
        List.mem_toFinset]
      constructor
      · rintro ⟨a, b⟩; exact ⟨Or.inr a, b⟩
      · rintro ⟨rfl | a, b⟩
        · exact absurd hv b
        · exact ⟨a, b⟩
    · rw [if_neg hv, ih']
      have : ((e :: es).map Entry.sym).toFinset \ vis.toFinset =
          insert e.sym ((es.map Entry.sym).toFinset \ (e.sym :: vis).toFinset) := by
        ext n
        simp only [List.map_cons, List.toFinset_cons, Finset.mem_sdiff, Finset.mem_insert,
          List.mem_toFinset]
        constructor
        · rintro ⟨rfl | a, b⟩
          · exact Or.inl rfl
          · by_cases hn : n = e.sym
            · exact Or.inl hn
            · exact Or.inr ⟨a, by tauto⟩
        · rintro (rfl | ⟨a, b⟩)
          · exact ⟨Or.inl rfl, hv⟩
          · exact ⟨Or.inr a, by tauto⟩
      rw [this, Finset.sum_insert (by simp), he]
      omega

/-- **C18, threshold and emission.** A function is emitted iff its total exceeds both 10 and the
configured fraction of the total of the profile, in which a symbol with several names counts once. -/
theorem emitted_iff (num den : Nat) (tot : Name → Nat) (m : List Entry)
    (h : Coherent tot m) (e : Entry) :
    e ∈ emittedEntries num den m ↔ e ∈ m ∧ e.total > 10 ∧
      e.total > (∑ n ∈ (m.map Entry.sym).toFinset, tot n) * num / den := by
  unfold emittedEntries calculate fromTotal shouldEmit kMinSamples
  rw [totalCount_spec tot m h]
  simp only [List.toFinset_nil, Finset.sdiff_empty, Nat.zero_add, List.mem_filter, decide_eq_true_eq]
  generalize (∑ n ∈ (m.map Entry.sym).toFinset, tot n) * num / den = t
  refine and_congr Iff.rfl ?_
  split <;> omega

/-- In terms of the exact fraction: an emitted function holds more than `num/den` of the samples. -/
theorem emitted_above_fraction (num den : Nat) (hd : 0 < den) (tot : Name → Nat) (m : List Entry)
    (h : Coherent tot m) (e : Entry) (he : e ∈ emittedEntries num den m) :
    e.total * den > (∑ n ∈ (m.map Entry.sym).toFinset, tot n) * num := by
  exact (Nat.div_lt_iff_lt_mul hd).1 ((emitted_iff num den tot m h e).1 he).2.2

/-- **C18, monotonicity.** Raising a function's count (and so the total) never stops it from being
emitted, when the fraction is at most 1. -/
theorem emit_monotone_partial (num den : Nat) (hd : 0 < den) (hf : num ≤ den) (others count more : Nat)
    (h : shouldEmit (fromTotal num den (others + count)) count = true) :
    shouldEmit (fromTotal num den (others + (count + more))) (count + more) = true := by
  unfold shouldEmit fromTotal kMinSamples at *
  simp only [decide_eq_true_eq] at *
  have key : (others + (count + more)) * num / den ≤ (others + count) * num / den + more := by
    have e : (others + (count + more)) * num = (others + count) * num + more * num := by ring
    rw [e]
    have h1 : more * num ≤ more * den := Nat.mul_le_mul_left _ hf
    calc ((others + count) * num + more * num) / den
        ≤ ((others + count) * num + more * den) / den := Nat.div_le_div_right (by omega)
      _ = (others + count) * num / den + more := Nat.add_mul_div_right _ _ hd
  split at h <;> split <;> omega

/-- Without the bound on the fraction monotonicity fails. -/
theorem emit_monotone_needs_bound :
    shouldEmit (fromTotal 2 1 (0 + 0)) 11 = true ∧ shouldEmit (fromTotal 2 1 (0 + 12)) 12 = false := by
  decide

/-- State of the two fields (symbol_map.h:623-624). -/
structure Flags where
  threshold : Nat
  ignore : Bool

/-- `set_ignore_thresholds` (symbol_map.h:355-357). -/
def Flags.setIgnore (f : Flags) (v : Bool) : Flags := { f with ignore := v }

/-- `ShouldEmit` on the fields: `ignore_thresholds_` is never read (symbol_map.h:305). -/
def Flags.shouldEmit (f : Flags) (count : Nat) : Bool := Threshold.shouldEmit f.threshold count

/-- C18, ignoring thresholds: the flag has no effect on emission, for any threshold and count. -/
theorem ignore_has_no_effect (f : Flags) (v : Bool) (count : Nat) :
    (f.setIgnore v).shouldEmit count = f.shouldEmit count := rfl

/-- C18 does not hold for `set_ignore_thresholds`: a function with 5 samples is still dropped. -/
theorem ignore_thresholds_violated :
    ((Flags.mk kMinSamples false).setIgnore true).shouldEmit 5 = false := by decide

/-- Case: an alias, a hot and a cold function; 1/10 of 212 samples. -/
example : (emittedEntries 1 10 [⟨[1], [1], 100⟩, ⟨[2], [1], 100⟩, ⟨[3], [3], 12⟩, ⟨[4], [4], 100⟩]).map
    Entry.key = [[1], [2], [4]] := by decide

end Verif.Threshold

import Verif.StatusFloat
import Mathlib.Tactic.IntervalCases

/-!
What is reported about the progress of a run of `GeneratePropellerProfiles` (llvm_propeller_profile_generator.cc 75-186,
llvm_propeller_profile_computer.cc 64-163), over the progress of status_provider.cc with rounding (C37).
-/

namespace Verif.RunProgress
open Verif.Progress

/-- A `DefaultStatusProvider` with its weight (status_provider.h 28-49, 62-66). -/
structure Part where
  job : String
  weight : Nat
  progress : Nat
deriving DecidableEq, Repr

/-- What a run does to `main_status` and to the registry. -/
inductive Ev
  /-- `registry_.Start(*status_provider)`, llvm_propeller_profile_generator.cc 53 -/
  | start
  /-- `AddStatusProvider` -/
  | add (weight : Nat) (job : String)
  /-- `SetProgress` of the part at that place -/
  | set (i : Nat) (p : Nat)
  /-- `registry_.Stop()`, 44 -/
  | stop
deriving DecidableEq, Repr

/-- The steps of a run that may return an error: `GetBinaryContent`, `create_aggregator`, `PropellerProfileComputer::Create` (which reads the
binary again), `GetBranchEndpointAddresses`, `BuildBinaryAddressMapper`, `Aggregate`, the check for DWARF, `ProgramCfgBuilder::Build`. -/
inductive Stage
  | binary | aggregator | create | endpoints | mapper | aggregate | dwarf | build
deriving DecidableEq, Repr

/-- `AddStatusProviders`, llvm_propeller_profile_generator.cc 75-100. -/
def adds : List Ev :=
  [.add 10 "read binary and the bb-address-map section", .add 500 "map profiles to control flow graphs", .add 50 "codelayout",
   .add 1 "result_writer"]

/-- The updates of a run in which the steps `ok` succeed: llvm_propeller_profile_generator.cc 165-180, llvm_propeller_profile_computer.cc 64-79,
126-163. A failed check while writing ends the process and is not modelled. -/
def body (ok : Stage → Bool) : List Ev :=
  if ok .binary then
    .set 0 100 ::
    if ok .aggregator && ok .create && ok .endpoints then
      .set 1 50 ::
      if ok .mapper then
        .set 1 60 ::
        if ok .aggregate && ok .dwarf && ok .build then [.set 1 100, .set 1 100, .set 2 100, .set 3 100] else []
      else []
    else []
  else []

/-- A run with or without `opts.http()`: the stopper is made before the parts are added (154-163) and destroyed on every return. -/
def run (http : Bool) (ok : Stage → Bool) : List Ev :=
  (if http then [.start] else []) ++ (adds ++ (body ok ++ if http then [.stop] else []))

/-- The effect on `weighted_statuses_`. -/
def apply (m : List Part) : Ev → List Part
  | .add w j => m ++ [⟨j, w, 0⟩]
  | .set i p => m.modify i fun x => { x with progress := p }
  | _ => m

/-- `main_status` after the first `k` events. -/
def main (http : Bool) (ok : Stage → Bool) (k : Nat) : List Part := ((run http ok).take k).foldl apply []

/-- The provider as one of C37. -/
def parts : List Part → Parts
  | [] => .nil
  | x :: m => .cons x.weight (.leaf x.progress) (parts m)

/-- `MultiStatusProvider::GetProgress`. -/
def progress (m : List Part) : Nat := (Status.multi (parts m)).progress32

/-- `MultiStatusProvider::IsDone`. -/
def done (m : List Part) : Bool := (Status.multi (parts m)).isDone

/-- `MultiStatusProvider::GetJob`, status_provider.cc 8-13. -/
def job (name : String) (m : List Part) : String :=
  match m.find? fun x => decide (x.progress < 100) with
  | some x => name ++ " - " ++ x.job
  | none => name

/-! ## Specification -/

/-- All parts are there after the first `k` events. -/
def SetUp (http : Bool) (ok : Stage → Bool) (k : Nat) : Prop := ∀ e ∈ adds, e ∈ (run http ok).take k

/-- The run succeeds. -/
def Success (ok : Stage → Bool) : Prop := ∀ s, ok s = true

/-! ## Proofs -/

/-- All updates, without errors. -/
def updates : List Ev := [.set 0 100, .set 1 50, .set 1 60, .set 1 100, .set 1 100, .set 2 100, .set 3 100]

theorem body_prefix (ok : Stage → Bool) : ∃ n, (n = 0 ∨ n = 1 ∨ n = 2 ∨ n = 3 ∨ n = 7) ∧ body ok = updates.take n ∧ (n = 7 ↔ Success ok) := by
  have hs : Success ok ↔ (ok .binary = true ∧ ok .aggregator = true ∧ ok .create = true ∧ ok .endpoints = true ∧ ok .mapper = true ∧
      ok .aggregate = true ∧ ok .dwarf = true ∧ ok .build = true) := by
    constructor
    · intro h; exact ⟨h _, h _, h _, h _, h _, h _, h _, h _⟩
    · rintro ⟨h1, h2, h3, h4, h5, h6, h7, h8⟩ s; cases s <;> assumption
  unfold body
  by_cases h1 : ok .binary = true
  · by_cases h2 : (ok .aggregator && ok .create && ok .endpoints) = true
    · by_cases h3 : ok .mapper = true
      · by_cases h4 : (ok .aggregate && ok .dwarf && ok .build) = true
        · refine ⟨7, by simp, by simp [h1, h2, h3, h4, updates], ?_⟩
          simp only [Bool.and_eq_true] at h2 h4
          rw [hs]; simp [h1, h2, h3, h4]
        · refine ⟨3, by simp, by simp [h1, h2, h3, h4, updates], ?_⟩
          rw [hs]; simp only [Bool.and_eq_true] at h4
          constructor
          · intro h; omega
          · intro h; exact absurd ⟨⟨h.2.2.2.2.2.1, h.2.2.2.2.2.2.1⟩, h.2.2.2.2.2.2.2⟩ h4
      · exact ⟨2, by simp, by simp [h1, h2, h3, updates], by rw [hs]; simp [h3]⟩
    · refine ⟨1, by simp, by simp [h1, h2, updates], ?_⟩
      rw [hs]; simp only [Bool.and_eq_true] at h2
      constructor
      · intro h; omega
      · intro h; exact absurd ⟨⟨h.2.1, h.2.2.1⟩, h.2.2.2.1⟩ h2
  · exact ⟨0, by simp, by simp [h1, updates], by rw [hs]; simp [h1]⟩

/-- The state after the parts are there and `m` updates. -/
def after (m : Nat) : List Part := ((adds ++ updates.take m).foldl apply [])

/-- The number of events before the first update. -/
def base (http : Bool) : Nat := if http then 5 else 4

theorem adds_updates : ∀ e ∈ adds, e ∉ updates ∧ e ≠ .start := by decide

theorem quiet : ∀ e ∈ adds ++ updates, e ≠ .start ∧ e ≠ .stop := by decide

/-- Once all parts are there, the state is that after some of the updates. -/
theorem main_after (http : Bool) (ok : Stage → Bool) (n : Nat) (hb : body ok = updates.take n) (k : Nat) (h : SetUp http ok k) :
    base http ≤ k ∧ main http ok k = after (min (k - base http) n) ∧
      (∀ e ∈ updates, e ∈ (run http ok).take k ↔ e ∈ updates.take (min (k - base http) n)) := by
  have key : ∀ (k : Nat) (tail : List Ev), (∀ e ∈ tail, e = .stop) → (∀ e ∈ adds, e ∈ (adds ++ (updates.take n ++ tail)).take k) →
      4 ≤ k ∧ ((adds ++ (updates.take n ++ tail)).take k).foldl apply [] = after (min (k - 4) n) ∧
      (∀ e ∈ updates, e ∈ (adds ++ (updates.take n ++ tail)).take k ↔ e ∈ updates.take (min (k - 4) n)) := by
    intro k tail ht ha
    have hk : 4 ≤ k := by
      by_contra hlt
      have h3 := ha (.add 1 "result_writer") (by simp [adds])
      have h4 : (Ev.add 1 "result_writer") ∈ adds.take 3 := by
        rw [List.take_append_of_le_length (by simp [adds]; omega)] at h3
        exact (List.take_sublist_take_left (by omega)).subset h3
      simp [adds] at h4
    have hsplit : (adds ++ (updates.take n ++ tail)).take k =
        adds ++ (updates.take (min (k - 4) n) ++ tail.take (k - 4 - (updates.take n).length)) := by
      rw [List.take_append, List.take_of_length_le (by simp [adds]; omega), List.take_append, List.take_take]; rfl
    have hstop : ∀ (l : List Ev), (∀ e ∈ l, e = .stop) → ∀ m, l.foldl apply m = m := by
      intro l; induction l with
      | nil => intro _ m; rfl
      | cons e l ih => intro h m; rw [List.foldl_cons, h e (by simp)]; exact ih (fun x hx => h x (by simp [hx])) m
    have ht' : ∀ e ∈ tail.take (k - 4 - (updates.take n).length), e = .stop := fun e he => ht e (List.mem_of_mem_take he)
    refine ⟨hk, ?_, ?_⟩
    · rw [hsplit, ← List.append_assoc, List.foldl_append, hstop _ ht', after]
    · intro e he
      rw [hsplit]
      constructor
      · intro hm
        rcases List.mem_append.1 hm with hm | hm
        · exact absurd he (adds_updates e hm).1
        · rcases List.mem_append.1 hm with hm | hm
          · exact hm
          · have := ht' e hm
            subst this; exact absurd he (by decide)
      · intro hm; exact List.mem_append_right _ (List.mem_append_left _ hm)
  cases http with
  | false =>
    obtain ⟨h1, h2, h3⟩ := key k [] (by simp) (by simpa [SetUp, run, hb] using h)
    exact ⟨h1, by simpa [main, run, hb, base] using h2, by simpa [run, hb, base] using h3⟩
  | true =>
    cases k with
    | zero => have := h (.add 1 "result_writer") (by simp [adds]); simp at this
    | succ k =>
      obtain ⟨h1, h2, h3⟩ := key k [.stop] (by simp) (by
        intro e he
        have := h e he
        simp only [run, hb, if_true, List.cons_append, List.nil_append, List.take_succ_cons, List.mem_cons] at this
        rcases this with rfl | this
        · exact absurd rfl (adds_updates _ he).2
        · exact this)
      refine ⟨by simp [base]; omega, ?_, ?_⟩
      · simpa [main, run, hb, apply, base, Nat.add_sub_add_right] using h2
      · intro e he
        have := h3 e he
        have hne : e ≠ .start := by rintro rfl; exact absurd he (by decide)
        simpa [run, hb, hne, base, Nat.add_sub_add_right] using this

/-- The values reported. -/
theorem values : (List.range 8).map (fun m => progress (after m)) = [0, 1, 46, 55, 90, 90, 99, 100] := by decide +kernel

theorem value_at {m : Nat} (h : m ≤ 7) : progress (after m) = ([0, 1, 46, 55, 90, 90, 99, 100] : List Nat).getD m 0 := by
  rw [← values, List.getD_eq_getElem?_getD, List.getElem?_map, List.getElem?_range (by omega)]; rfl

theorem value_mono {m m' : Nat} (h : m ≤ m') (h' : m' ≤ 7) : progress (after m) ≤ progress (after m') := by
  rw [value_at h', value_at (by omega)]
  interval_cases m' <;> interval_cases m <;> decide

/-- **C108, progress.** Once all phases are known, whatever fails later and whenever consumers look, what is reported never decreases. -/
theorem polls_monotone (http : Bool) (ok : Stage → Bool) (i j : Nat) (hi : SetUp http ok i) (hij : i ≤ j) :
    progress (main http ok i) ≤ progress (main http ok j) := by
  obtain ⟨n, hn, hb, _⟩ := body_prefix ok
  have hj : SetUp http ok j := fun e he => (List.take_sublist_take_left hij).subset (hi e he)
  obtain ⟨h1, h2, _⟩ := main_after http ok n hb i hi
  obtain ⟨h1', h2', _⟩ := main_after http ok n hb j hj
  rw [h2, h2']
  exact value_mono (by omega) (by omega)

/-- **C108, end.** Once all phases are known, 100 is reported, and the run is reported to be done, exactly when nothing failed and all updates of
the run have been made: after the last phase, the writing of the files. -/
theorem complete_iff (http : Bool) (ok : Stage → Bool) (k : Nat) (hk : SetUp http ok k) :
    (progress (main http ok k) = 100 ↔ Success ok ∧ .set 3 100 ∈ (run http ok).take k) ∧
    (done (main http ok k) = true ↔ Success ok ∧ .set 3 100 ∈ (run http ok).take k) := by
  obtain ⟨n, hn, hb, hs⟩ := body_prefix ok
  obtain ⟨h1, h2, h3⟩ := main_after http ok n hb k hk
  have hn7 : n ≤ 7 := by omega
  rw [h2, h3 _ (by decide), ← hs]
  generalize hm : min (k - base http) n = m
  have hmn : m ≤ n := by omega
  have e1 : (Ev.set 3 100 ∈ updates.take m) ↔ m = 7 := by
    have : m ≤ 7 := by omega
    clear hm hmn
    interval_cases m <;> decide
  have e2 : progress (after m) = 100 ↔ m = 7 := by
    rw [value_at (by omega)]
    have : m ≤ 7 := by omega
    clear hm hmn e1
    interval_cases m <;> decide
  have e3 : done (after m) = true ↔ m = 7 := by
    have : m ≤ 7 := by omega
    clear hm hmn e1 e2
    interval_cases m <;> decide
  rw [e1, e2, e3]
  constructor <;> exact ⟨fun h => ⟨by omega, h⟩, fun h => h.2⟩

/-- **C108, phase.** Once all phases are known, the name shown is that of the first phase that is not finished. -/
theorem job_spec (http : Bool) (ok : Stage → Bool) (k : Nat) (hk : SetUp http ok k) (name : String) :
    job name (main http ok k) =
      if .set 0 100 ∉ (run http ok).take k then name ++ " - " ++ "read binary and the bb-address-map section"
      else if .set 1 100 ∉ (run http ok).take k then name ++ " - " ++ "map profiles to control flow graphs"
      else if .set 2 100 ∉ (run http ok).take k then name ++ " - " ++ "codelayout"
      else if .set 3 100 ∉ (run http ok).take k then name ++ " - " ++ "result_writer"
      else name := by
  obtain ⟨n, hn, hb, hs⟩ := body_prefix ok
  obtain ⟨h1, h2, h3⟩ := main_after http ok n hb k hk
  rw [h2]
  simp only [h3 _ (show Ev.set 0 100 ∈ updates by decide), h3 _ (show Ev.set 1 100 ∈ updates by decide),
    h3 _ (show Ev.set 2 100 ∈ updates by decide), h3 _ (show Ev.set 3 100 ∈ updates by decide)]
  generalize hm : min (k - base http) n = m
  have : m ≤ 7 := by omega
  clear hm
  interval_cases m <;> rfl

/-- **C108, registry.** With `http` consumers are told of the run before anything else and once, and of its end after everything else and once,
whatever fails; without it they are told nothing. -/
theorem told (ok : Stage → Bool) :
    (∃ m, run true ok = .start :: m ++ [.stop] ∧ Ev.start ∉ m ∧ Ev.stop ∉ m) ∧ Ev.start ∉ run false ok ∧ Ev.stop ∉ run false ok := by
  obtain ⟨n, hn, hb, _⟩ := body_prefix ok
  have hu : ∀ e, e ∈ adds ++ updates.take n → e ≠ .start ∧ e ≠ .stop := by
    intro e he
    have he' : e ∈ adds ++ updates := by
      rcases List.mem_append.1 he with h | h
      · exact List.mem_append_left _ h
      · exact List.mem_append_right _ (List.mem_of_mem_take h)
    exact quiet e he'
  refine ⟨⟨adds ++ updates.take n, by simp [run, hb], fun h => (hu _ h).1 rfl, fun h => (hu _ h).2 rfl⟩, ?_, ?_⟩
  · simp only [run, hb, Bool.false_eq_true, if_false, List.nil_append, List.append_nil]; exact fun h => (hu _ h).1 rfl
  · simp only [run, hb, Bool.false_eq_true, if_false, List.nil_append, List.append_nil]; exact fun h => (hu _ h).2 rfl

/-- At all moments the value is a percentage. -/
theorem in_range (http : Bool) (ok : Stage → Bool) (k : Nat) : progress (main http ok k) ≤ 100 := by
  have hp : ∀ e ∈ run http ok, ∀ i p, e = .set i p → p ≤ 100 := by
    obtain ⟨n, hn, hb, _⟩ := body_prefix ok
    intro e he i p hh
    subst hh
    have : Ev.set i p ∈ updates := by
      rw [run, hb] at he
      rcases List.mem_append.1 he with h | h
      · cases http <;> simp at h
      · rcases List.mem_append.1 h with h | h
        · simp [adds] at h
        · rcases List.mem_append.1 h with h | h
          · exact List.mem_of_mem_take h
          · cases http <;> simp at h
    simp [updates] at this; omega
  have hm : ∀ (l : List Ev) (m : List Part), (∀ e ∈ l, ∀ i p, e = .set i p → p ≤ 100) → (∀ x ∈ m, x.progress ≤ 100) →
      ∀ x ∈ l.foldl apply m, x.progress ≤ 100 := by
    intro l; induction l with
    | nil => intro m _ h; exact h
    | cons e l ih =>
      intro m h hm
      refine ih _ (fun e he => h e (by simp [he])) ?_
      cases e with
      | start => exact hm
      | stop => exact hm
      | add w j =>
        intro x hx
        rcases List.mem_append.1 hx with hx | hx
        · exact hm x hx
        · rw [List.mem_singleton] at hx; subst hx; exact Nat.zero_le _
      | set i p =>
        have hpp := h _ (by simp) i p rfl
        intro x hx
        obtain ⟨j, hj, rfl⟩ := List.getElem_of_mem hx
        simp only [apply, List.getElem_modify]
        split
        · exact hpp
        · exact hm _ (List.getElem_mem _)
  have hall := hm ((run http ok).take k) [] (fun e he => hp e (List.mem_of_mem_take he)) (by simp)
  refine progress32_in_range _ ?_
  have : ∀ (m : List Part), (∀ x ∈ m, x.progress ≤ 100) → ∀ p ∈ (parts m).leaves, p ≤ 100 := by
    intro m; induction m with
    | nil => intro _ p hp; simp [parts, Parts.leaves] at hp
    | cons x m ih =>
      intro h p hp
      simp only [parts, Parts.leaves, Status.leaves, List.cons_append, List.nil_append, List.mem_cons] at hp
      rcases hp with rfl | hp
      · exact h _ (by simp)
      · exact ih (fun y hy => h y (by simp [hy])) p hp
  exact this _ hall

/-- Not earlier: consumers are told of the run before its phases are added. One that looks then sees 100 and done, and 0 a moment later. -/
theorem early_violated (ok : Stage → Bool) : (run true ok).head? = some .start ∧
    progress (main true ok 1) = 100 ∧ done (main true ok 1) = true ∧ progress (main true ok 2) = 0 := by
  refine ⟨rfl, ?_, ?_, ?_⟩
  · show progress [] = 100; decide +kernel
  · show done [] = true; decide +kernel
  · show progress [⟨"read binary and the bb-address-map section", 10, 0⟩] = 0; decide +kernel

/-! ## Concrete cases -/

/-- A run whose mapper fails; all values. -/
theorem ex_run : (List.range 9).map (fun k => progress (main true (fun s => s != .mapper) k)) = [100, 100, 0, 0, 0, 0, 1, 46, 46] ∧
    SetUp true (fun s => s != .mapper) 5 := by
  refine ⟨by decide +kernel, ?_⟩
  unfold SetUp; decide

end Verif.RunProgress

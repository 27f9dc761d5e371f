/-! # C36: lazy evaluation (lazy_evaluator.h:30-85)

The adapter is an arbitrary side-effecting function: it takes the inputs and the state of the world and
returns an output and a new world.  Not modelled: exceptions thrown by the adapter, an adapter that calls
`Evaluate` on its own evaluator, concurrent calls (the class has no locking). -/
namespace Verif.Lazy

variable {In Out World : Type}

/-- `inputs_or_output_` (lazy_evaluator.h:84): a variant of inputs + adapter, or the output
(`InputsAndAdapter`, lazy_evaluator.h:78-82). -/
inductive Cell (In Out World : Type) where
  | pending (inputs : In) (adapter : In → World → Out × World)
  | ready (output : Out)

/-- `Evaluate` (lazy_evaluator.h:55-75).  `emplace` replaces the variant by the output, then `Evaluate()`
is called again and returns the cached output. -/
def evaluate (c : Cell In Out World) (w : World) : Out × Cell In Out World × World :=
  match c with
  | .ready o => (o, .ready o, w)
  | .pending i f => let r := f i w; (r.1, .ready r.1, r.2)

/-- One step of a program that owns an evaluator: use it, or do anything else to the world. -/
inductive Op (World : Type) where
  | use
  | env (f : World → World)

/-- Run a program; the result is the list of observed outputs, the evaluator and the world. -/
def run : List (Op World) → Cell In Out World → World → List Out × Cell In Out World × World
  | [], c, w => ([], c, w)
  | .env f :: ops, c, w => run ops c (f w)
  | .use :: ops, c, w =>
      let (o, c', w') := evaluate c w
      let (os, c'', w'') := run ops c' w'
      (o :: os, c'', w'')

/-! ## Specification -/

/-- What the rest of the program does to the world. -/
def envOnly : List (Op World) → World → World
  | [], w => w
  | .env f :: ops, w => envOnly ops (f w)
  | .use :: ops, w => envOnly ops w

/-- Number of uses. -/
def uses : List (Op World) → Nat
  | [] => 0
  | .env _ :: ops => uses ops
  | .use :: ops => uses ops + 1

theorem run_ready (ops : List (Op World)) (o : Out) (w : World) :
    run (In := In) ops (.ready o) w = (List.replicate (uses ops) o, .ready o, envOnly ops w) := by
  induction ops generalizing w with
  | nil => rfl
  | cons op ops ih =>
    cases op with
    | env f => simp [run, uses, envOnly, ih]
    | use => simp [run, uses, envOnly, evaluate, ih, List.replicate_succ]

/-- **C36, never used ⇒ never computed.** -/
theorem lazy_unused (ops : List (Op World)) (h : uses ops = 0) (i : In) (f : In → World → Out × World)
    (w : World) : run ops (.pending i f) w = ([], .pending i f, envOnly ops w) := by
  induction ops generalizing w with
  | nil => rfl
  | cons op ops ih =>
    cases op with
    | env g => exact ih h (g w)
    | use => simp [uses] at h

/-- **C36.** Whatever the program does before (`pre`, without a use) and after its first use, the adapter
runs exactly once, at the first use: every use of the program observes the value computed then, and the
world is changed by the adapter once and otherwise only by the rest of the program. -/
theorem lazy_once (pre post : List (Op World)) (h : uses pre = 0) (i : In)
    (f : In → World → Out × World) (w : World) :
    run (pre ++ .use :: post) (.pending i f) w =
      (List.replicate (uses post + 1) (f i (envOnly pre w)).1,
       .ready (f i (envOnly pre w)).1,
       envOnly post (f i (envOnly pre w)).2) := by
  induction pre generalizing w with
  | nil => simp [run, evaluate, run_ready, envOnly, List.replicate_succ]
  | cons op ops ih =>
    cases op with
    | env g => exact ih h (g w)
    | use => simp [uses] at h

/-- C36, an evaluator constructed from an output (lazy_evaluator.h:51-52) never computes anything. -/
theorem lazy_const (ops : List (Op World)) (o : Out) (w : World) :
    run (In := In) ops (.ready o) w = (List.replicate (uses ops) o, .ready o, envOnly ops w) :=
  run_ready ops o w

/-- Example program: three uses, interleaved with other changes of the world. -/
def exampleOps : List (Op (List Nat)) := [.env (· ++ [100]), .use, .env (· ++ [200]), .use, .use]

/-- The world as a log of adapter runs: a concrete program with three uses runs the adapter once. -/
example : let r := run exampleOps (.pending 7 (fun i w => (i + w.length, w ++ [i]))) []
    r.1 = [8, 8, 8] ∧ r.2.2 = [100, 7, 200] := by
  simp [run, evaluate, exampleOps]

end Verif.Lazy

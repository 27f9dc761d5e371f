import Verif.Scorer
import Verif.ChainBuild

/-!
# The score used by the chain builder is the edge score of C34

Both are models of `GetEdgeScore` (llvm_propeller_code_layout_scorer.cc:25-51); the one of the chain
builder ignores the 32-bit wrap-around of the weight products.
-/
namespace Verif.Chain

/-- The parameters as `PropellerCodeLayoutParameters` (llvm_propeller_options.proto:82-86). -/
def Weights.params (k : Weights) : Scorer.Params := ⟨k.ft, k.fwd, k.bwd, k.fwdDist, k.bwdDist⟩

/-- An edge with the sizes of its blocks. -/
def Edge.sized (size : Nat → Nat) (e : Edge) : Scorer.Edge :=
  ⟨match e.kind with | .branch => .branchOrFallthrough | .call => .call | .ret => .ret,
    e.weight, size e.src, size e.sink⟩

/-- C34: without 32-bit overflow the chain builder optimises exactly the scores of C34. -/
theorem chain_score_eq (k : Weights) (size : Nat → Nat) (e : Edge) (d : Int)
    (h : Scorer.NoOverflow k.params (e.sized size)) :
    getEdgeScore k size e d = Scorer.edgeScore k.params (e.sized size) d := by
  obtain ⟨src, sink, w, kind, is⟩ := e
  obtain ⟨h1, h2, h3⟩ := h
  simp only [Weights.params, Edge.sized] at h1 h2 h3
  have m1 : Scorer.mul32 w k.ft = w * k.ft := Nat.mod_eq_of_lt h1
  have m2 : Scorer.mul32 w k.fwd = w * k.fwd := Nat.mod_eq_of_lt h2
  have m3 : Scorer.mul32 w k.bwd = w * k.bwd := Nat.mod_eq_of_lt h3
  unfold getEdgeScore Scorer.edgeScore Scorer.scoreAt Scorer.adjust
  simp only [Weights.params, Edge.sized, m1, m2, m3, Nat.cast_mul]
  cases kind <;> simp

example : Scorer.NoOverflow (Weights.params {}) (Edge.sized (fun _ => 16) ⟨0, 1, 500, .call, false⟩) := by
  simp [Scorer.NoOverflow, Weights.params, Edge.sized]

end Verif.Chain

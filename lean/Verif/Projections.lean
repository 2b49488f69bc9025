import Verif.Scope
import Verif.LogSpace
import Mathlib.Analysis.SpecialFunctions.Log.Basic
/-
Model of `spflow.utils.projections` (C38). One element of the tensors; the softmax runs over the
last dimension of length `n`.
-/
namespace Verif.Proj

/-- `torch.sigmoid`. -/
noncomputable def sigmoid (x : ℝ) : ℝ := 1 / (1 + Real.exp (-x))

/-- `proj_convex_to_real` (projections.py:10-35): `log`, with `log 0 = -inf`. -/
noncomputable def convexToReal (w : ℕ → ℝ) : ℕ → LogV := fun i => logL (w i)

/-- `proj_real_to_convex` (projections.py:38-62): softmax over the last dimension. -/
noncomputable def realToConvex (n : ℕ) (x : ℕ → LogV) : ℕ → ℝ := fun i => softmax n x i

/-- `proj_real_to_bounded` (projections.py:65-103). With both bounds `None` the code computes
`torch.exp(x) + None`: TypeError. -/
noncomputable def realToBounded (x : ℝ) (lb ub : Option ℝ) : Except Exc ℝ :=
  match lb, ub with
  | some l, some u => .ok (sigmoid x * (u - l) + l)
  | some l, none => .ok (Real.exp x + l)
  | none, some u => .ok (-Real.exp x + u)
  | none, none => .error .typeError

/-- `proj_bounded_to_real` (projections.py:106-142); `Real.log` agrees with `torch.log` on the
positive arguments that occur strictly inside the bounds. -/
noncomputable def boundedToReal (x : ℝ) (lb ub : Option ℝ) : Except Exc ℝ :=
  match lb, ub with
  | some l, some u => .ok (Real.log ((x - l) / (u - x)))
  | some l, none => .ok (Real.log (x - l))
  | none, some u => .ok (Real.log (u - x))
  | none, none => .error .typeError

end Verif.Proj

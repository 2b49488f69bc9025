import Verif.Sampling

/-!
# Model of `WeightedSum` (C62)

spflow/zoo/pic/weighted_sum.py: a sum module whose weights are used as they are (no softmax).

The input module is abstract: its declared shape and its log-likelihood tensor as a function of the row.  One row at
a time; weights are exact reals (no NaN or infinite weights); devices are ignored.
-/

namespace Verif.WSum
open Verif Verif.Circ

/-- The input module: `out_shape` and the entries `[f, ci, r]` of its log-likelihood tensor (with `R` repetitions). -/
structure Inp where
  F : ℕ
  C : ℕ
  R : ℕ
  ll : Row → ℕ → ℕ → ℕ → LogV

/-- The `weights` argument: a tensor of 1 to 4 axes, or of another number of axes. -/
inductive Arg where
  | d1 (ci : ℕ) (v : ℕ → ℝ)
  | d2 (ci co : ℕ) (v : ℕ → ℕ → ℝ)
  | d3 (f ci co : ℕ) (v : ℕ → ℕ → ℕ → ℝ)
  | d4 (w : Weights)
  | other

/-- The `rearrange` calls, weighted_sum.py:86-97. -/
def toFour : Arg → Except Exc Weights
  | .d1 ci v => .ok ⟨1, ci, 1, 1, fun _ i _ _ => v i⟩
  | .d2 ci co v => .ok ⟨1, ci, co, 1, fun _ i o _ => v i o⟩
  | .d3 f ci co v => .ok ⟨f, ci, co, 1, fun g i o _ => v g i o⟩
  | .d4 w => .ok w
  | .other => .error .shapeError

/-- `WeightedSum.__init__` after the input has been set up, weighted_sum.py:81-127: the stored weight tensor.
`out_shape` is `(inp.F, w.Co, w.R)` (119-124). -/
noncomputable def mk (inp : Inp) (a : Arg) : Except Exc Weights := open Classical in do
  let w ← toFour a
  if ¬ (∀ f < w.Fw, ∀ ci < w.Ci, ∀ co < w.Co, ∀ r < w.R, 0 ≤ w.val f ci co r) then throw .invalidWeights
  let w : Weights := if w.Fw = 1 ∧ 1 < inp.F then { w with Fw := inp.F, val := fun _ ci co r => w.val 0 ci co r } else w
  if w.Fw ≠ inp.F then throw .shapeError
  if w.Ci ≠ inp.C then throw .shapeError
  return w

/-- The `weights` setter, weighted_sum.py:143-153: only the shape is checked. -/
def setW (old new : Weights) : Except Exc Weights :=
  if new.Fw = old.Fw ∧ new.Ci = old.Ci ∧ new.Co = old.Co ∧ new.R = old.R then .ok new else .error .shapeError

/-- Size of a broadcast axis; torch raises RuntimeError if the sizes differ and neither is 1. -/
def bsize (a b : ℕ) : Except Exc ℕ :=
  if a = b then .ok a else if a = 1 then .ok b else if b = 1 then .ok a else .error .runtimeError

/-- `log_likelihood`, weighted_sum.py:168-205: number of repetitions of the result and entry `[f, co, r]`. `logL`
is `log_weights` (155-163): `-inf` for a weight that is not positive. -/
noncomputable def logLik (inp : Inp) (w : Weights) : Except Exc (ℕ × (Row → ℕ → ℕ → ℕ → LogV)) := do
  let R ← bsize inp.R w.R
  return (R, fun x f co r =>
    lse inp.C fun ci => inp.ll x f ci (bc inp.R r) + logL (w.val f ci co (bc w.R r)))

/-- The categorical draw of `_sample` for one feature, weighted_sum.py:243-279: the weights of the requested channel
and repetition, divided by their sum; a sum `≤ 0` raises ShapeError.  `Categorical(probs=p)` is `choose` with logits
`log p`. -/
noncomputable def route (inp : Inp) (w : Weights) (f co r : ℕ) : Prog ℕ :=
  open Classical in
  if (∑ ci ∈ Finset.range inp.C, w.val f ci co r) ≤ 0 then .fail .shapeError
  else .choose inp.C
    (fun ci => logL (w.val f ci co r / ∑ ci ∈ Finset.range inp.C, w.val f ci co r)) .ret

/-- First index of a largest entry among the first `n + 1` (`torch.argmax`), weighted_sum.py:265. -/
noncomputable def argmax (v : ℕ → ℝ) : ℕ → ℕ
  | 0 => 0
  | n + 1 => open Classical in if v (argmax v n) < v (n + 1) then n + 1 else argmax v n

/-- `_sample` of a one-feature WeightedSum: draw the input channel, then let the input module sample that channel
(weighted_sum.py:281-290). -/
noncomputable def sampleOne {α : Type} (inp : Inp) (w : Weights) (co r : ℕ) (child : ℕ → Prog α) : Prog α :=
  (route inp w 0 co r).bind child

/-- The mask of `marginalize` for repetition `r`, weighted_sum.py:319-331: indices of the features whose scope does not
become empty, in order. `fts f r` is `inputs.feature_to_scope[f, r]` (its query). -/
def kept (F : ℕ) (fts : ℕ → ℕ → List Var) (marg : List Var) (r : ℕ) : List ℕ :=
  (List.range F).filter fun f => ! ((fts f r).filter fun v => ! marg.contains v).isEmpty

/-- The masked, stacked and zero-padded weights, weighted_sum.py:333-351. -/
noncomputable def margWeights (w : Weights) (fts : ℕ → ℕ → List Var) (marg : List Var) : Weights :=
  { Fw := ((List.range w.R).map fun r => (kept w.Fw fts marg r).length).foldl max 0
    Ci := w.Ci, Co := w.Co, R := w.R
    val := fun f ci co r => match (kept w.Fw fts marg r)[f]? with
      | some g => w.val g ci co r
      | none => 0 }

/-- `marginalize`, weighted_sum.py:292-352. `scope` is the module's query, `margInp` the result of
`inputs.marginalize` (consulted only when some but not all variables are marginalised); the loop over the
repetitions of the weights indexes the columns of `feature_to_scope`, of which there are `inp.R`. The result is the input
and weights of the new module. -/
noncomputable def marginalize (inp : Inp) (w : Weights) (fts : ℕ → ℕ → List Var) (scope marg : List Var)
    (margInp : Option Inp) : Except Exc (Option (Inp × Weights)) := do
  let mut_ := scope.filter fun v => marg.contains v
  if mut_.length = scope.length then return none
  if mut_.isEmpty then
    let w' ← mk inp (.d4 w)
    return some (inp, w')
  match margInp with
  | none => return none
  | some inp' =>
    if inp.R < w.R then throw .indexError
    let w' ← mk inp' (.d4 (margWeights w fts mut_))
    return some (inp', w')

end Verif.WSum

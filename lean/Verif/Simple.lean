import Verif.WeightedSumProps
import Verif.SamplingProps
import Mathlib.MeasureTheory.Constructions.Pi
import Mathlib.Analysis.SpecialFunctions.Integrals.Basic

/-!
# C73: SIMPLE, the differentiable sampler

Model of `sample_gumbel`, `SIMPLE` and `sample_from_logits` (spflow/utils/sampling_context.py:942-955, 1011-1053,
1147-1183) and of the differentiable `rsample` of the leaf distributions that are built on it.

Simplifications: real numbers instead of floats; the `eps = 1e-20` of `sample_gumbel` is dropped (adding it to a float32
uniform draw that is not zero changes nothing) and `torch.rand` is a draw from the open interval `(0, 1)`.
-/

namespace Verif.Simple

open Finset MeasureTheory

/-- `-log(-log(U))`, sampling_context.py:953-954 (`eps` dropped). -/
noncomputable def gumbel (u : ℝ) : ℝ := -Real.log (-Real.log u)

/-- `base + sample_gumbel(...)`, sampling_context.py:1045-1046. -/
noncomputable def perturb (l : ℕ → LogV) (u : ℕ → ℝ) (i : ℕ) : LogV := l i + (gumbel (u i) : LogV)

/-- `logits / tau`, sampling_context.py:1036. -/
noncomputable def tempered (l : ℕ → LogV) (tau : ℝ) (i : ℕ) : LogV := (l i).map (· / tau)

/-- The chosen class: `softmax(base).max(dim)[1]`, sampling_context.py:1045-1050. -/
noncomputable def index (n : ℕ) (l : ℕ → LogV) (mpe : Bool) (u : ℕ → ℝ) : ℕ :=
  WSum.argmax (softmax n (if mpe then l else perturb l u)) (n - 1)

/-- `SIMPLE(logits, dim, is_mpe, tau)` for one fibre of `n` classes, sampling_context.py:1011-1053, with the uniform draws
`u`. The outer error is an exception, `none` a tensor of NaN: if every logit is `-inf`, both softmaxes are NaN (and so is
the result); `max` over an empty dimension raises IndexError. The forward value of `(y_hard - y).detach() + y`. -/
noncomputable def simple (n : ℕ) (l : ℕ → LogV) (tau : ℝ) (mpe : Bool) (u : ℕ → ℝ) : Except Exc (Option (ℕ → ℝ)) :=
  open Classical in
  if tau ≤ 0 then .error .invalidParameter
  else if n = 0 then .error .indexError
  else if ∀ i < n, l i = ⊥ then .ok none
  else .ok (some fun i => ((if i = index n l mpe u then 1 else 0) - softmax n (tempered l tau) i)
    + softmax n (tempered l tau) i)

/-- `sample_from_logits(..., is_differentiable=False)`, sampling_context.py:1169-1176: `Categorical(logits).sample()` or
the argmax, as an integer index. -/
noncomputable def plain (n : ℕ) (l : ℕ → LogV) (mpe : Bool) : Prog ℕ :=
  if mpe then .ret (WSum.argmax (softmax n l) (n - 1)) else .choose n l .ret

/-- `(samples_oh * values).sum(dim=-1)`: how the leaf distributions turn the one-hot sample into a value, e.g.
categorical.py:257-259, poisson.py:153-154, binomial.py:272-273, hypergeometric.py:243-244. SIMPLE is called with
`tau = 1` and `is_mpe = False`. -/
noncomputable def rsample (n : ℕ) (l : ℕ → LogV) (v : ℕ → ℝ) (u : ℕ → ℝ) : Except Exc (Option ℝ) :=
  (simple n l 1 false u).map fun y => y.map fun y => ∑ i ∈ range n, y i * v i

/-! ### Randomness (specification) -/

/-- The uniform distribution on `(0, 1)`. -/
noncomputable def unif : Measure ℝ := volume.restrict (Set.Ioo 0 1)

/-- `n` independent uniform draws. -/
noncomputable def noise (n : ℕ) : Measure (Fin n → ℝ) := Measure.pi fun _ => unif

/-- The draws, indexed by all natural numbers. -/
def ext {n : ℕ} (u : Fin n → ℝ) (i : ℕ) : ℝ := if h : i < n then u ⟨i, h⟩ else 0

/-- The probability that the result of a computation from `n` uniform draws satisfies `P`. -/
noncomputable def pr (n : ℕ) (P : (ℕ → ℝ) → Prop) : ENNReal := noise n {u | P (ext u)}

end Verif.Simple

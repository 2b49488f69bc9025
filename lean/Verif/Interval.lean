import Verif.Leaves
import Verif.Inner
import Mathlib.Data.EReal.Operations
import Mathlib.Analysis.SpecialFunctions.Gamma.Basic

/-!
# Model of interval evidence

spflow/meta/data/interval_evidence.py, utils/range_inference.py, `_log_likelihood_interval` of
modules/leaves/{leaf,bernoulli,categorical,uniform}.py.  One batch row.  A bound is `none` (NaN) or an extended real.
The modules above the leaves only pass the evidence object on, so their evaluation is that of `Verif.Circ`.
Conditional leaves and parameters outside their domain are not modelled.
-/

open MeasureTheory

namespace Verif
namespace Interval

/-- One entry of `IntervalEvidence.low` or `.high`: NaN or an extended real. -/
abbrev Bnd := Option EReal

/-- `IntervalEvidence.__post_init__`, interval_evidence.py:38-49, for one row over the columns `cols` (shapes agree by
construction): only pairs of finite bounds are compared. -/
noncomputable def mkEvidence (cols : List Var) (lo hi : Var → Bnd) : Except Exc Unit :=
  open Classical in
  if ∃ v ∈ cols, ∃ a b : ℝ, lo v = some (a : EReal) ∧ hi v = some (b : EReal) ∧ b < a then .error .valueError else .ok ()

/-- Distribution of one leaf cell.  `noCdf d`: a family whose torch distribution has no `cdf`
(Poisson, Geometric, Binomial, NegativeBinomial, Hypergeometric, Histogram, ...), with its log density. -/
inductive Dist where
  | bern (p : ℝ)
  | cat (K : ℕ) (logits : ℕ → LogV)
  | unif (low high : ℝ)
  | normal (loc scale : ℝ)
  | laplace (loc scale : ℝ)
  | expo (rate : ℝ)
  | logNormal (loc scale : ℝ)
  | gamma (concentration rate : ℝ)
  | noCdf (d : ℝ → LogV)

/-- `torch.distributions.Laplace.log_prob`: `-log(2 scale) - |x - loc| / scale`. -/
noncomputable def laplaceLL (loc scale t : ℝ) : LogV := ((- Real.log (2 * scale) - |t - loc| / scale : ℝ) : LogV)

/-- `torch.distributions.Exponential.log_prob`: `log rate - rate * x` on the support `x ≥ 0`. -/
noncomputable def expoLL (rate t : ℝ) : LogV :=
  if 0 ≤ t then ((Real.log rate - rate * t : ℝ) : LogV) else ⊥

/-- `torch.distributions.LogNormal.log_prob`: Normal log-density at `log x` minus `log x`, on `x > 0`. -/
noncomputable def logNormalLL (loc scale t : ℝ) : LogV :=
  if 0 < t then Leaves.normalLL loc scale (Real.log t) + ((- Real.log t : ℝ) : LogV) else ⊥

/-- `torch.distributions.Gamma.log_prob`: `a log b + (a - 1) log x - b x - lgamma a` on `x > 0`; at `x = 0` it is `log b` for
`a = 1` and `-inf` for `a > 1` (for `a < 1` torch returns `+inf` there, which this type has no value for; here `-inf`). -/
noncomputable def gammaLL (a b t : ℝ) : LogV :=
  if 0 < t then ((a * Real.log b + (a - 1) * Real.log t - b * t - Real.log (Real.Gamma a) : ℝ) : LogV)
  else if t = 0 ∧ a = 1 then ((Real.log b : ℝ) : LogV) else ⊥

/-- `dist.log_prob` of a leaf cell. -/
noncomputable def Dist.ll : Dist → ℝ → LogV
  | .bern p => Leaves.bernoulliLL p
  | .cat K l => Leaves.categoricalLL K l
  | .unif a b => Leaves.uniformLL a b
  | .normal m s => Leaves.normalLL m s
  | .laplace m s => laplaceLL m s
  | .expo r => expoLL r
  | .logNormal m s => logNormalLL m s
  | .gamma a b => gammaLL a b
  | .noCdf d => d

/-- `torch.erf`. -/
noncomputable def erf (x : ℝ) : ℝ := 2 / Real.sqrt Real.pi * ∫ t in (0 : ℝ)..x, Real.exp (-t ^ 2)

/-- `torch.distributions.Normal.cdf` at an extended real: `0.5 * (1 + erf((x - loc) / (scale * sqrt 2)))`,
`erf(±inf) = ±1`. -/
noncomputable def normalCdf (loc scale : ℝ) : EReal → ℝ
  | ⊥ => 1 / 2 * (1 + -1)
  | ⊤ => 1 / 2 * (1 + 1)
  | (x : ℝ) => 1 / 2 * (1 + erf ((x - loc) * scale⁻¹ / Real.sqrt 2))

/-- `torch.distributions.Laplace.cdf`: `0.5 - 0.5 * sign(x - loc) * expm1(-|x - loc| / scale)`. -/
noncomputable def laplaceCdf (loc scale : ℝ) : EReal → ℝ
  | ⊥ => 1 / 2 - 1 / 2 * (-1) * (-1)
  | ⊤ => 1 / 2 - 1 / 2 * 1 * (-1)
  | (x : ℝ) => 1 / 2 - 1 / 2 * (SignType.sign (x - loc) : ℝ) * (Real.exp (-|x - loc| / scale) - 1)

/-- `torch.distributions.Exponential.cdf`: `1 - exp(-rate * x)`; with argument validation (the leaves' default) a value
outside the support `x ≥ 0` raises ValueError. -/
noncomputable def expoCdf (rate : ℝ) : EReal → Except Exc ℝ
  | ⊥ => .error .valueError
  | ⊤ => .ok (1 - 0)
  | (x : ℝ) => if 0 ≤ x then .ok (1 - Real.exp (-rate * x)) else .error .valueError

/-- `torch.distributions.LogNormal.cdf` (TransformedDistribution.cdf): Normal cdf of `log x`; `log` of a negative number is
NaN, which the base distribution's validation rejects with ValueError; `log 0 = -inf` is accepted. -/
noncomputable def logNormalCdf (loc scale : ℝ) : EReal → Except Exc ℝ
  | ⊥ => .error .valueError
  | ⊤ => .ok (normalCdf loc scale ⊤)
  | (x : ℝ) =>
    if x < 0 then .error .valueError
    else if x = 0 then .ok (normalCdf loc scale ⊥)
    else .ok (normalCdf loc scale ((Real.log x : ℝ) : EReal))

/-- `torch.special.gammainc(a, y)`, the regularised lower incomplete gamma function. -/
noncomputable def gammainc (a y : ℝ) : ℝ := 1 / Real.Gamma a * ∫ t in (0 : ℝ)..y, Real.exp (-t) * t ^ (a - 1)

/-- `torch.distributions.Gamma.cdf`: `gammainc(concentration, rate * x)`; a value outside the support `x ≥ 0` raises. -/
noncomputable def gammaCdf (a b : ℝ) : EReal → Except Exc ℝ
  | ⊥ => .error .valueError
  | ⊤ => .ok 1
  | (x : ℝ) => if 0 ≤ x then .ok (gammainc a (b * x)) else .error .valueError

/-- `torch.ceil` on extended reals. -/
noncomputable def ceilE : EReal → EReal
  | ⊥ => ⊥
  | ⊤ => ⊤
  | (x : ℝ) => (((⌈x⌉ : ℤ) : ℝ) : EReal)

/-- `torch.floor` on extended reals. -/
noncomputable def floorE : EReal → EReal
  | ⊥ => ⊥
  | ⊤ => ⊤
  | (x : ℝ) => (((⌊x⌋ : ℤ) : ℝ) : EReal)

/-- `torch.clamp(p, min=1e-40)`. -/
noncomputable def clampP (p : ℝ) : ℝ := max p (10 ^ (-40 : ℤ))

/-- The `total_prob` of Bernoulli._log_likelihood_interval, bernoulli.py:166-192, before clamping. -/
noncomputable def bernProb (p : ℝ) (lo hi : Bnd) : ℝ :=
  open Classical in
  let l := lo.elim 0 ceilE
  let h := hi.elim 1 floorE
  (if l ≤ 0 ∧ 0 ≤ h then 1 - p else 0) + (if l ≤ 1 ∧ 1 ≤ h then p else 0)

/-- The `total_prob` of Categorical._log_likelihood_interval, categorical.py:195-232, before clamping; the class
probabilities are the normalised `exp` of the logits. -/
noncomputable def catProb (K : ℕ) (logits : ℕ → LogV) (lo hi : Bnd) : ℝ :=
  open Classical in
  let l := lo.elim 0 ceilE
  let h := hi.elim ((((K : ℝ) - 1 : ℝ)) : EReal) floorE
  ∑ k ∈ Finset.range K, softmax K logits k * (if l ≤ ((k : ℝ) : EReal) ∧ ((k : ℝ) : EReal) ≤ h then 1 else 0)

/-- The `prob` of Uniform._log_likelihood_interval, uniform.py:154-163 (never clamped from below). -/
noncomputable def unifProb (a b : ℝ) (lo hi : Bnd) : ℝ :=
  let el : EReal := lo.elim (a : EReal) fun x => max x a
  let eh : EReal := hi.elim (b : EReal) fun y => min y b
  (max (eh - el) 0).toReal / (b - a)

/-- `cdf(high) - cdf(low)` of LeafModule._log_likelihood_interval, leaf.py:518-541: NaN bounds become `∓inf`.  `cdf_high` is
evaluated first. -/
noncomputable def cdfProb (cdf : EReal → Except Exc ℝ) (lo hi : Bnd) : Except Exc ℝ := do
  let h ← cdf (hi.getD ⊤)
  let l ← cdf (lo.getD ⊥)
  return h - l

/-- The number whose logarithm `_log_likelihood_interval` returns for one leaf cell: leaf.py:479-544, bernoulli.py:140-194,
categorical.py:169-235, uniform.py:128-165. -/
noncomputable def Dist.box : Dist → Bnd → Bnd → Except Exc ℝ
  | .bern p, lo, hi => .ok (clampP (bernProb p lo hi))
  | .cat K l, lo, hi => .ok (clampP (catProb K l lo hi))
  | .unif a b, lo, hi => .ok (unifProb a b lo hi)
  | .normal m s, lo, hi => clampP <$> cdfProb (fun x => .ok (normalCdf m s x)) lo hi
  | .laplace m s, lo, hi => clampP <$> cdfProb (fun x => .ok (laplaceCdf m s x)) lo hi
  | .expo r, lo, hi => clampP <$> cdfProb (expoCdf r) lo hi
  | .logNormal m s, lo, hi => clampP <$> cdfProb (logNormalCdf m s) lo hi
  | .gamma a b, lo, hi => clampP <$> cdfProb (gammaCdf a b) lo hi
  | .noCdf _, _, _ => .error .notImplemented

/-- Circuits whose leaves carry their distribution (`Circ` only keeps the log density). -/
inductive BC where
  | leaf (q : List Var) (C R : ℕ) (d : ℕ → ℕ → ℕ → Dist)
  | cat1 (n : ℕ) (cs : Fin n → BC)
  | cat2 (n : ℕ) (cs : Fin n → BC)
  | prod (c : BC)
  | sum (c : BC) (Co R : ℕ) (θ : ℕ → ℕ → ℕ → ℕ → LogV)

/-- The circuit as seen by point evidence. -/
noncomputable def BC.circ : BC → Circ
  | .leaf q C R d => .leaf q C R fun i ch r => (d i ch r).ll
  | .cat1 n cs => .cat1 n fun i => (cs i).circ
  | .cat2 n cs => .cat2 n fun i => (cs i).circ
  | .prod c => .prod c.circ
  | .sum c Co R θ => .sum c.circ Co R θ

/-- One leaf tensor: the value of every cell (feature, channel, repetition); the first failing cell decides the exception (all
cells of a leaf belong to one family, so they fail alike). -/
noncomputable def leafBox (q : List Var) (C R : ℕ) (d : ℕ → ℕ → ℕ → Dist) (lo hi : Var → Bnd) :
    Except Exc (Fin q.length → Fin C → Fin R → ℝ) :=
  Inner.seqFin fun i => Inner.seqFin fun ch => Inner.seqFin fun r => (d i ch r).box (lo (q.get i)) (hi (q.get i))

/-- `log_likelihood(IntervalEvidence(lo, hi))` of the leaves in evaluation order; above the leaves nothing depends on the kind of
evidence, so the result is the circuit with the leaves' interval log-probabilities as (constant) leaf values. -/
noncomputable def BC.boxed (lo hi : Var → Bnd) : BC → Except Exc Circ
  | .leaf q C R d => do
    let t ← leafBox q C R d lo hi
    return .leaf q C R fun i ch r _ =>
      if h : i < q.length ∧ ch < C ∧ r < R then logL (t ⟨i, h.1⟩ ⟨ch, h.2.1⟩ ⟨r, h.2.2⟩) else ⊥
  | .cat1 n cs => do return .cat1 n (← Inner.seqFin fun i => (cs i).boxed lo hi)
  | .cat2 n cs => do return .cat2 n (← Inner.seqFin fun i => (cs i).boxed lo hi)
  | .prod c => do return .prod (← c.boxed lo hi)
  | .sum c Co R θ => do return .sum (← c.boxed lo hi) Co R θ

/-- `log_likelihood_interval(model, low, high)`, range_inference.py:22-58, for one row whose columns are `cols`. -/
noncomputable def logLikInterval (c : BC) (cols : List Var) (lo hi : Var → Bnd) :
    Except Exc (ℕ → ℕ → ℕ → LogV) := do
  mkEvidence cols lo hi
  let b ← c.boxed lo hi
  Circ.logLik b fun _ => some 0

end Interval
end Verif

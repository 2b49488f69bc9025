import Verif.LogSpace
import Verif.Scope
import Mathlib.Analysis.SpecialFunctions.Pow.Real
import Mathlib.Analysis.SpecialFunctions.Sqrt

/-!
# Model of maximum likelihood estimation of the leaves

spflow/modules/leaves/leaf.py (`_prepare_mle_data`, `maximum_likelihood_estimation`), spflow/utils/leaves.py
(`apply_nan_strategy`, `_handle_mle_edge_cases`) and the `_compute_parameter_estimates` methods of Bernoulli,
Categorical, Binomial, Geometric, NegativeBinomial, Poisson, Exponential, Normal, LogNormal and Laplace.

Numbers are exact reals; `Fl` adds the IEEE specials a division or a square root can produce.
-/

namespace Verif
namespace LeafFit

/-- A float: a number, an infinity, or NaN. -/
inductive Fl where
  | nan
  | pinf
  | ninf
  | fin (x : ℝ)

open Classical in
/-- `a / b` in IEEE arithmetic for numbers `a`, `b` (zeros are positive). -/
noncomputable def fdiv (a b : ℝ) : Fl :=
  if b ≠ 0 then .fin (a / b) else if a = 0 then .nan else if 0 < a then .pinf else .ninf

open Classical in
/-- `torch.sqrt`. -/
noncomputable def fsqrt : Fl → Fl
  | .nan => .nan
  | .pinf => .pinf
  | .ninf => .nan
  | .fin x => if x < 0 then .nan else .fin (Real.sqrt x)

/-- `base_eps`, utils/leaves.py:194.  (In float32 one ULP may be larger; the model is exact.) -/
noncomputable def eps : ℝ := 1 / 100000000

open Classical in
/-- `_handle_mle_edge_cases(v, lb=0.0)`, utils/leaves.py:233-250: NaN becomes `1e-8`, then every value `≤ 0` becomes
`0 + 1e-8`. -/
noncomputable def edgeLb : Fl → Fl
  | .nan => .fin eps
  | .pinf => .pinf
  | .ninf => .fin eps
  | .fin x => if x ≤ 0 then .fin eps else .fin x

open Classical in
/-- `_handle_mle_edge_cases(v, lb=0.0, ub=1.0)`, utils/leaves.py:233-269: as `edgeLb`, then every value `≥ 1` becomes
`1 - 1e-8`. -/
noncomputable def edgeLbUb (v : Fl) : Fl :=
  match edgeLb v with
  | .pinf => .fin (1 - eps)
  | .fin x => if 1 ≤ x then .fin (1 - eps) else .fin x
  | y => y

/-- One data row seen by a leaf: `val f` is the value of the `f`-th scope variable (`none` = NaN), `w f c r` the entry of
the weight tensor.  `weights=None` is the tensor of ones, leaf.py:566-573 (`defaultW`). -/
structure Row where
  val : ℕ → Option ℝ
  w : ℕ → ℕ → ℕ → ℝ

/-- leaf.py:566-573. -/
def defaultW : ℕ → ℕ → ℕ → ℝ := fun _ _ _ => 1

/-- `weights.sum()` over all rows, features, channels and repetitions, utils/leaves.py:88. -/
noncomputable def totalW (F C R : ℕ) (rows : List Row) : ℝ :=
  (rows.map fun row => ∑ f ∈ Finset.range F, ∑ c ∈ Finset.range C, ∑ r ∈ Finset.range R, row.w f c r).sum

/-- No NaN among the row's scope variables, utils/leaves.py:82 (`~nan_mask.any(dim=1)`). -/
def complete (F : ℕ) (row : Row) : Bool := (List.range F).all fun f => (row.val f).isSome

/-- Every entry is NaN. -/
def allNan (F : ℕ) (rows : List Row) : Bool := rows.all fun row => (List.range F).all fun f => (row.val f).isNone

/-- `weights * (scope_data.shape[0] / weights.sum())`, utils/leaves.py:88.  (With weights summing to zero torch produces
NaN weights; the real division produces zeros; both end up as NaN in the estimates below.) -/
noncomputable def rescale (F C R : ℕ) (rows : List Row) : List Row :=
  rows.map fun row => ⟨row.val, fun f c r => row.w f c r * ((rows.length : ℝ) / totalW F C R rows)⟩

/-- `apply_nan_strategy`, utils/leaves.py:38-90, with `ignore` for `nan_strategy == "ignore"` (otherwise `None`).
`torch.all` of an empty mask is true, so empty data raise too. -/
noncomputable def prepare (ignore : Bool) (F C R : ℕ) (rows : List Row) : Except Exc (List Row) :=
  if allNan F rows then .error .valueError
  else if rows.all (complete F) then .ok (rescale F C R rows)
  else if ignore then .ok (rescale F C R (rows.filter (complete F)))
  else .error .valueError

/-- The pairs (value, weight) that feature `f`, channel `c`, repetition `r` sees: broadcasting `data` of shape
`(b, f, 1, 1)` (leaf.py:257) against the weights. -/
def cell (f c r : ℕ) (rows : List Row) : List (ℝ × ℝ) := rows.map fun row => ((row.val f).getD 0, row.w f c r)

/-- `weights.sum(dim=0)` of one cell. -/
def nTot (l : List (ℝ × ℝ)) : ℝ := (l.map fun z => z.2).sum

/-- `(weights * g(data)).sum(dim=0)` of one cell. -/
def wsum (g : ℝ → ℝ) (l : List (ℝ × ℝ)) : ℝ := (l.map fun z => z.2 * g z.1).sum

/-- `maximum_likelihood_estimation`, leaf.py:580-611: prepare, then the estimate of one cell. -/
noncomputable def fit {β : Type} (est : List (ℝ × ℝ) → β) (ignore : Bool) (F C R : ℕ) (rows : List Row)
    (f c r : ℕ) : Except Exc β :=
  match prepare ignore F C R rows with
  | .ok P => .ok (est (cell f c r P))
  | .error e => .error e

/-- Bernoulli, bernoulli.py:119-125. -/
noncomputable def bernoulliEst (l : List (ℝ × ℝ)) : Fl := edgeLb (fdiv (wsum id l) (nTot l))

open Classical in
/-- Weighted frequency of category `k`, categorical.py:145-147; a zero total gives NaN, here 0 (theorems assume a
positive total). -/
noncomputable def freq (l : List (ℝ × ℝ)) (k : ℕ) : ℝ :=
  wsum (fun x => if x = (k : ℝ) then 1 else 0) l / nTot l

/-- `1e-10`, categorical.py:151. -/
noncomputable def catEps : ℝ := 1 / 10000000000

/-- Categorical, categorical.py:137-154: clamp at `1e-10`, renormalise over the `K` categories. -/
noncomputable def categoricalEst (K : ℕ) (l : List (ℝ × ℝ)) (k : ℕ) : ℝ :=
  max (freq l k) catEps / ∑ j ∈ Finset.range K, max (freq l j) catEps

/-- Binomial, binomial.py:152-160 (`n` = total_count). -/
noncomputable def binomialEst (n : ℕ) (l : List (ℝ × ℝ)) : Fl :=
  let l' := l.map fun z => (z.1, z.2 / nTot l)
  edgeLbUb (fdiv (wsum id l') (nTot l' * n))

/-- Geometric, geometric.py:121-130. -/
noncomputable def geometricEst (bias : Bool) (l : List (ℝ × ℝ)) : Fl :=
  match fdiv (nTot l) (wsum id l + nTot l) with
  | .fin p => if bias then
      (match fdiv (p * (1 - p)) (nTot l) with
        | .fin b => edgeLb (.fin (p - b))
        | .pinf => edgeLb .ninf
        | .ninf => edgeLb .pinf
        | .nan => edgeLb .nan)
    else edgeLb (.fin p)
  | .nan => edgeLb .nan
  | .pinf => edgeLb (if bias then .nan else .pinf)
  | .ninf => edgeLb (if bias then .nan else .ninf)

/-- NegativeBinomial, negative_binomial.py:150-158 (`n` = total_count). -/
noncomputable def negBinomialEst (n : ℕ) (bias : Bool) (l : List (ℝ × ℝ)) : Fl :=
  let nt := nTot l * n - (if bias then 1 else 0)
  match fdiv nt (wsum id l + nt) with
  | .fin v => edgeLbUb (.fin (1 - v))
  | .nan => edgeLbUb .nan
  | .pinf => edgeLbUb .ninf
  | .ninf => edgeLbUb .pinf

/-- Poisson, poisson.py:95-101. -/
noncomputable def poissonEst (l : List (ℝ × ℝ)) : Fl := edgeLb (fdiv (wsum id l) (nTot l))

/-- Exponential, exponential.py:95-104. -/
noncomputable def exponentialEst (bias : Bool) (l : List (ℝ × ℝ)) : Fl :=
  edgeLb (fdiv (nTot l - (if bias then 1 else 0)) (wsum id l))

/-- Weighted mean, normal.py:98 (a zero total gives NaN; the theorems assume a positive one). -/
noncomputable def wmean (l : List (ℝ × ℝ)) : ℝ := wsum id l / nTot l

/-- Normal, normal.py:97-108: location and scale. -/
noncomputable def normalEst (bias : Bool) (l : List (ℝ × ℝ)) : ℝ × Fl :=
  (wmean l, edgeLb (fsqrt (fdiv (wsum (fun x => (x - wmean l) ^ 2) l) (nTot l - (if bias then 1 else 0)))))

/-- LogNormal, log_normal.py:104-117: the Normal estimate of the logarithms. -/
noncomputable def logNormalEst (bias : Bool) (l : List (ℝ × ℝ)) : ℝ × Fl :=
  normalEst bias (l.map fun z => (Real.log z.1, z.2))

/-- `torch.median(data, dim=0)`: the lower median, i.e. the element at position `(N-1)//2` of the sorted column,
characterised by counting: at most `(N-1)/2` values are smaller and more than `(N-1)/2` are at most as large.
The weights play no role (laplace.py:100). -/
def IsMedian (l : List (ℝ × ℝ)) (m : ℝ) : Prop :=
  open Classical in
  (l.filter fun z => decide (z.1 < m)).length ≤ (l.length - 1) / 2 ∧
    (l.length - 1) / 2 < (l.filter fun z => decide (z.1 ≤ m)).length

/-- The scale of Laplace, laplace.py:103-107, for the location `m` (the median). -/
noncomputable def laplaceScaleEst (m : ℝ) (l : List (ℝ × ℝ)) : Fl :=
  edgeLb (fdiv (wsum (fun x => |x - m|) l) (nTot l))

end LeafFit
end Verif

import Verif.Scope
import Mathlib.Analysis.SpecialFunctions.Log.Base
import Mathlib.Analysis.SpecialFunctions.Pow.Real
import Mathlib.Data.List.Sort
import Mathlib.Data.List.GetD
import Mathlib.Algebra.BigOperators.Field

/-!
# Model of the PiecewiseLinear leaf and of the histogram bin edges it uses

Files modelled: spflow/modules/leaves/piecewise_linear.py, spflow/utils/histogram.py, spflow/utils/domain.py.

Simplifications: exact reals instead of float32; training data holds no NaN and no infinity; the k-means clustering (whose
initialisation is random) is an arbitrary assignment of rows to clusters; domain bounds are finite or absent; GPU
transfers are the identity.
-/

namespace Verif.Pwl

open Finset

/-! ## utils/histogram.py -/

/-- `x.min()`, 0 for the empty list (never evaluated there). -/
noncomputable def minL : List ℝ → ℝ
  | [] => 0
  | v :: l => l.foldr min v

/-- `x.max()`. -/
noncomputable def maxL : List ℝ → ℝ
  | [] => 0
  | v :: l => l.foldr max v

/-- `torch.quantile(x, p)` (linear interpolation between the two neighbouring order statistics). -/
noncomputable def quantile (a : List ℝ) (p : ℝ) : ℝ :=
  let s := a.insertionSort (· ≤ ·)
  let pos := p * ((a.length : ℝ) - 1)
  s.getD ⌊pos⌋₊ 0 + (pos - (⌊pos⌋₊ : ℝ)) * (s.getD ⌈pos⌉₊ 0 - s.getD ⌊pos⌋₊ 0)

/-- `_hist_bin_fd_torch`, histogram.py:24-37. -/
noncomputable def fdWidth (a : List ℝ) : ℝ :=
  2 * (quantile a (3 / 4) - quantile a (1 / 4)) * (a.length : ℝ) ^ (-1 / 3 : ℝ)

/-- `_hist_bin_sturges_torch`, histogram.py:40-52. -/
noncomputable def sturgesWidth (a : List ℝ) : ℝ := (maxL a - minL a) / (Real.logb 2 a.length + 1)

/-- `_hist_bin_auto_torch`, histogram.py:55-69. -/
noncomputable def autoWidth (a : List ℝ) : ℝ :=
  open Classical in if 0 < fdWidth a then min (fdWidth a) (sturgesWidth a) else sturgesWidth a

/-- `_get_outer_edges_torch`, histogram.py:72-104 (`isfinite` holds of every real). -/
noncomputable def outerEdges (a : List ℝ) (rb : Option (ℝ × ℝ)) : Except Exc (ℝ × ℝ) :=
  open Classical in
  let widen (p : ℝ × ℝ) : ℝ × ℝ := if p.1 = p.2 then (p.1 - 1 / 2, p.2 + 1 / 2) else p
  match rb with
  | some (lo, hi) => if hi < lo then .error .invalidParameter else .ok (widen (lo, hi))
  | none => if a = [] then .ok (widen (0, 1)) else .ok (widen (minL a, maxL a))

/-- `a[(a >= first_edge) & (a <= last_edge)]` if a range is given, histogram.py:131-132. -/
noncomputable def clip (a : List ℝ) (rb : Option (ℝ × ℝ)) (e : ℝ × ℝ) : List ℝ :=
  open Classical in if rb.isSome then a.filter fun v => e.1 ≤ v ∧ v ≤ e.2 else a

/-- `n_equal_bins`, histogram.py:135-145. -/
noncomputable def numBins (a : List ℝ) (e : ℝ × ℝ) : ℕ :=
  open Classical in
  if a = [] then 1 else if 0 < autoWidth a then ⌈(e.2 - e.1) / autoWidth a⌉₊ else 1

/-- `torch.linspace(first, last, n + 1)`, histogram.py:148. -/
noncomputable def linspace (e : ℝ × ℝ) (n : ℕ) (i : ℕ) : ℝ := e.1 + i * ((e.2 - e.1) / n)

/-- `get_bin_edges_torch`, histogram.py:107-150: the outer edges and the number of bins; the edges are
`linspace` of them. -/
noncomputable def binEdges (a : List ℝ) (rb : Option (ℝ × ℝ)) : Except Exc ((ℝ × ℝ) × ℕ) := do
  let e ← outerEdges a rb
  .ok (e, numBins (clip a rb e) e)

/-! ## torch.histogram -/

/-- The bin of `torch.histogram` that takes `v`: left-closed, the last one closed. -/
def InBin (nb : ℕ) (b : ℕ → ℝ) (i : ℕ) (v : ℝ) : Prop := b i ≤ v ∧ (v < b (i + 1) ∨ i + 1 = nb ∧ v ≤ b nb)

/-- Number of data points in bin `i`. -/
noncomputable def count (data : List ℝ) (nb : ℕ) (b : ℕ → ℝ) (i : ℕ) : ℕ :=
  open Classical in data.countP fun v => InBin nb b i v

/-- `hist.sum()`: the data points in some bin. -/
noncomputable def total (data : List ℝ) (nb : ℕ) (b : ℕ → ℝ) : ℕ := ∑ i ∈ range nb, count data nb b i

/-- `torch.histogram(…, density=True).hist`: NaN (flag `true`) if no data point is in a bin. -/
noncomputable def histDensity (data : List ℝ) (nb : ℕ) (b : ℕ → ℝ) : (ℕ → ℝ) × Bool :=
  if total data nb b = 0 then (fun _ => 0, true)
  else (fun i => count data nb b i / (total data nb b * (b (i + 1) - b i)), false)

/-! ## Domain (utils/domain.py:21-52) -/

/-- A `Domain`: discrete with its values, continuous with its optional bounds, or without a data type. -/
inductive Domain where
  | discrete (values : List ℝ)
  | continuous (lo hi : Option ℝ)
  | other

/-- `Domain.discrete_range`, domain.py:72-89: the integers `lo..hi`. -/
def Domain.discreteRange (lo hi : ℤ) : Domain :=
  .discrete ((List.range (hi + 1 - lo).toNat).map fun i : ℕ => ((lo + i : ℤ) : ℝ))

/-! ## Curves -/

/-- One entry of `xs` and `ys`: `len` points; `nan` says that the inner `ys` are NaN. -/
structure Curve where
  len : ℕ
  x : ℕ → ℝ
  y : ℕ → ℝ
  nan : Bool

/-- One trapezoid, piecewise_linear.py:205, 262, and `torch.trapezoid`. -/
noncomputable def trap (x y : ℕ → ℝ) (j : ℕ) : ℝ := (x (j + 1) - x j) * (y j + y (j + 1)) / 2

/-- `torch.trapezoid(y=y, x=x)`, piecewise_linear.py:641. -/
noncomputable def auc (len : ℕ) (x y : ℕ → ℝ) : ℝ := ∑ j ∈ range (len - 1), trap x y j

/-- `breaks` of a discrete feature, piecewise_linear.py:559-564: the values and one more break. -/
noncomputable def breaksD (vs : List ℝ) (i : ℕ) : ℝ := if i < vs.length then vs.getD i 0 else vs.getLastD 0 + 1

/-- Python's `v or d`. -/
noncomputable def pyOr (o : Option ℝ) (d : ℝ) : ℝ :=
  open Classical in match o with
  | none => d
  | some v => if v = 0 then d else v

/-- The densities before smoothing, piecewise_linear.py:566-573 and 588-593: uniform for an empty cluster. -/
noncomputable def rawDensity (data : List ℝ) (nb : ℕ) (b : ℕ → ℝ) : (ℕ → ℝ) × Bool :=
  if data.length = 0 then (fun _ => 1 / nb, false) else histDensity data nb b

/-- "Laplace smoothing", piecewise_linear.py:600-604. -/
noncomputable def smooth (α : ℝ) (n nb : ℕ) (d : ℕ → ℝ) (i : ℕ) : ℝ :=
  open Classical in if 0 < α then (d i * n + α) / (n + nb * α) else d i

/-- `x` of a discrete feature, piecewise_linear.py:607-610. -/
noncomputable def pointsD (vs : List ℝ) (i : ℕ) : ℝ :=
  if i = 0 then vs.getD 0 0 - 1 else if i ≤ vs.length then vs.getD (i - 1) 0 else vs.getLastD 0 + 1

/-- `x` of a continuous feature, piecewise_linear.py:611-617. -/
noncomputable def pointsC (nb : ℕ) (b : ℕ → ℝ) (i : ℕ) : ℝ :=
  if i = 0 then b 0 - 1 / 10 ^ 8
  else if i ≤ nb then b (i - 1) + (b i - b (i - 1)) / 2 else b nb + 1 / 10 ^ 8

/-- `y`, piecewise_linear.py:624: density 0 at both tails. -/
noncomputable def withTails (nb : ℕ) (d : ℕ → ℝ) (i : ℕ) : ℝ := if i = 0 then 0 else if i ≤ nb then d (i - 1) else 0

/-- Normalisation by the area, piecewise_linear.py:627-635 (`auc > 0` is false for NaN). -/
noncomputable def mkCurve (nb : ℕ) (x : ℕ → ℝ) (d : ℕ → ℝ) (nan : Bool) : Curve :=
  open Classical in
  let y := withTails nb d
  let A := auc (nb + 2) x y
  ⟨nb + 2, x, if nan = false ∧ 0 < A then fun i => y i / A else y, nan⟩

/-- Breaks of a continuous feature, piecewise_linear.py:576-587. -/
noncomputable def breaksC (lo hi : Option ℝ) (data : List ℝ) : Except Exc ((ℝ × ℝ) × ℕ) :=
  if data.length = 0 then .ok ((pyOr lo 0, pyOr hi 1), 10) else binEdges data none

/-- One cell of `initialize`, piecewise_linear.py:553-637.  Without values, `torch.histogram` rejects the empty bin list
and for an empty cluster `x[0]` fails. -/
noncomputable def cell (α : ℝ) (dom : Domain) (data : List ℝ) : Except Exc Curve :=
  match dom with
  | .discrete vs =>
    if vs.length = 0 then .error (if data.length = 0 then .indexError else .runtimeError)
    else
      let nb := vs.length
      let d := rawDensity data nb (breaksD vs)
      .ok (mkCurve nb (pointsD vs) (smooth α data.length nb d.1) d.2)
  | .continuous lo hi => do
      let e ← breaksC lo hi data
      let b := linspace e.1 e.2
      let d := rawDensity data e.2 b
      .ok (mkCurve e.2 (pointsC e.2 b) (smooth α data.length e.2 d.1) d.2)
  | .other => .error .valueError

/-! ## Density (PiecewiseLinearDist) -/

/-- `torch.searchsorted(xs, q, right=False)`: the number of points below `q` (the padding is `inf`). -/
noncomputable def search (c : Curve) (q : ℝ) : ℕ := open Classical in ((range c.len).filter fun j => c.x j < q).card

/-- `_interp_slopes`, piecewise_linear.py:176-180, 191; `P` is `max_points`. -/
noncomputable def slopeTab (P : ℕ) (c : Curve) (i : ℕ) : ℝ :=
  if i = 0 ∨ i = P then 0
  else if i - 1 < c.len - 1 then (c.y i - c.y (i - 1)) / (c.x i - c.x (i - 1)) else 0

/-- `_interp_offsets`, piecewise_linear.py:181-192. -/
noncomputable def offsetTab (P : ℕ) (c : Curve) (i : ℕ) : ℝ :=
  if i = 0 then c.y 0
  else if i = P then c.y (c.len - 1)
  else if i - 1 < c.len - 1 then c.y (i - 1) - (c.y i - c.y (i - 1)) / (c.x i - c.x (i - 1)) * c.x (i - 1) else 0

/-- `probs_flat`, piecewise_linear.py:372-377. -/
noncomputable def dens (P : ℕ) (c : Curve) (q : ℝ) : ℝ :=
  max (slopeTab P c (search c q) * q + offsetTab P c (search c q)) 0

/-- `log_prob`, piecewise_linear.py:378-380; `none` is NaN. -/
noncomputable def logProb (P : ℕ) (c : Curve) (q : ℝ) : Option ℝ :=
  open Classical in
  if c.nan = true ∧ c.x 0 < q ∧ q ≤ c.x (c.len - 1) then none
  else some (max (Real.log (dens P c q + 1 / 10 ^ 10)) (-300))

/-! ## Sampling -/

/-- The cumulative distribution function at point `j`, piecewise_linear.py:203-213. -/
noncomputable def cdf (c : Curve) (j : ℕ) : ℝ := (∑ k ∈ range j, trap c.x c.y k) / (auc c.len c.x c.y + 1 / 10 ^ 10)

/-- `indices`, piecewise_linear.py:310-313. -/
noncomputable def index (c : Curve) (u : ℝ) : ℕ :=
  open Classical in max (min ((range c.len).filter fun j => cdf c j ≤ u).card (c.len - 1)) 1

/-- The value a continuous feature gets from the uniform number `u`, piecewise_linear.py:315-321. -/
noncomputable def draw (c : Curve) (u : ℝ) : ℝ :=
  let i := index c u
  c.x (i - 1) + (c.x i - c.x (i - 1)) / (cdf c i - cdf c (i - 1) + 1 / 10 ^ 8) * (u - cdf c (i - 1))

/-- Probability that `Categorical(probs=ys[1:-1])` gives class `k`, piecewise_linear.py:334-335. -/
noncomputable def classProb (c : Curve) (k : ℕ) : ℝ := c.y (k + 1) / ∑ j ∈ range (c.len - 2), c.y (j + 1)

/-- Probability that the sample of a discrete feature equals `v`: the class number itself is stored,
piecewise_linear.py:335. -/
noncomputable def discreteProb (c : Curve) (v : ℝ) : ℝ :=
  open Classical in ∑ k ∈ range (c.len - 2), if (k : ℝ) = v then classProb c k else 0

/-- `m` is a possible value of `mode`, piecewise_linear.py:194-199: a point of largest density (argmax may return any). -/
def IsMode (c : Curve) (m : ℝ) : Prop := ∃ i < c.len, (∀ j < c.len, c.y j ≤ c.y i) ∧ m = c.x i

/-! ## The leaf -/

/-- Arguments of the constructor: width of the scope, `out_channels`, `num_repetitions`, `alpha`. -/
structure Config where
  query : List ℕ
  L : ℕ
  R : ℕ
  α : ℝ

/-- The mutable attributes: `xs`/`ys` as `[R][L][F]`, `domains`, `_distribution_cache`; `is_initialized` says that `xs`
is set. -/
structure State where
  curves : Option (List (List (List Curve)))
  doms : Option (List Domain)
  cache : Option (List (List (List Curve)) × List Domain)

/-- The attributes after `__init__` and after `reset`, piecewise_linear.py:423-429, 658-664. -/
def State.fresh : State := ⟨none, none, none⟩

/-- `__init__`, piecewise_linear.py:399-429: the check of `alpha`. -/
noncomputable def construct (cfg : Config) : Except Exc State :=
  open Classical in if cfg.α < 0 then .error .valueError else .ok State.fresh

/-- `data[cluster_idxs == l][:, f]`, piecewise_linear.py:529-536, 545: with one channel every row is in cluster 0. -/
def column (L : ℕ) (cl : ℕ → ℕ) (rows : List (ℕ → ℝ)) (l f : ℕ) : List ℝ :=
  (rows.zipIdx.filter fun p => (if 1 < L then cl p.2 else 0) = l).map fun p => p.1 f

/-- The loops of `initialize`, piecewise_linear.py:523-645; `cl r i` is the cluster of row `i` in repetition `r`. -/
noncomputable def fitAll (cfg : Config) (rows : List (ℕ → ℝ)) (doms : List Domain) (cl : ℕ → ℕ → ℕ) :
    Except Exc (List (List (List Curve))) :=
  (List.range cfg.R).mapM fun r => (List.range cfg.L).mapM fun l => (List.range cfg.query.length).mapM fun f =>
    cell cfg.α (doms.getD f .other) (column cfg.L (cl r) rows l f)

/-- `initialize`, piecewise_linear.py:477-656: the attributes afterwards and the exception, if one is raised.
`D` is `data.shape[1]`. -/
noncomputable def fitLeaf (cfg : Config) (st : State) (D : ℕ) (rows : List (ℕ → ℝ)) (doms : List Domain)
    (cl : ℕ → ℕ → ℕ) : State × Option Exc :=
  if D ≠ cfg.query.length then (st, some .valueError)
  else if doms.length ≠ cfg.query.length then (st, some .valueError)
  else match fitAll cfg rows doms cl with
    | .error e => ({ st with doms := some doms }, some e)
    | .ok cs => (⟨some cs, some doms, none⟩, none)

/-- `distribution()`, piecewise_linear.py:441-464: the object and the attributes afterwards. -/
def distribution (st : State) : Except Exc (State × (List (List (List Curve)) × List Domain)) :=
  match st.curves with
  | none => .error .valueError
  | some cs =>
    match st.cache with
    | some d => .ok (st, d)
    | none => .ok ({ st with cache := some (cs, st.doms.getD []) }, (cs, st.doms.getD []))

/-- `max_points`, piecewise_linear.py:162. -/
def maxPoints (cs : List (List (List Curve))) : ℕ := (cs.flatten.flatten.map Curve.len).foldr max 0

/-- The curve of repetition `r`, leaf `l`, feature `f`. -/
def curveAt (cs : List (List (List Curve))) (r l f : ℕ) : Option Curve :=
  (cs[r]?).bind fun a => (a[l]?).bind fun b => b[f]?

/-- A tensor: its shape and its entries. -/
structure Tens where
  shape : List ℕ
  val : List ℕ → Option ℝ

/-- `log_prob` of one entry: 0 for a missing value, NaN for a value the model does not have. -/
noncomputable def entry (cs : List (List (List Curve))) (v : Option ℝ) (r l f : ℕ) : Option ℝ :=
  match v with
  | none => some 0
  | some q => (curveAt cs r l f).bind fun c => logProb (maxPoints cs) c q

/-- `log_likelihood`, piecewise_linear.py:666-721, on rows of `D` columns (`none` is NaN): shape (N, 1, F, L, R).
`data[:, query]` raises IndexError for a column that does not exist. -/
noncomputable def logLikelihood (cfg : Config) (st : State) (D : ℕ) (rows : List (ℕ → Option ℝ)) : Except Exc Tens :=
  match distribution st with
  | .error e => .error e
  | .ok (_, cs, _) =>
    if ∀ v ∈ cfg.query, v < D then
      .ok ⟨[rows.length, 1, cfg.query.length, cfg.L, cfg.R], fun idx =>
        entry cs ((rows.getD (idx.getD 0 0) fun _ => none) (cfg.query.getD (idx.getD 2 0) 0)) (idx.getD 4 0) (idx.getD 3 0)
          (idx.getD 2 0)⟩
    else .error .indexError

/-- Addition of possibly-NaN numbers. -/
def nanAdd : Option ℝ → Option ℝ → Option ℝ
  | some a, some b => some (a + b)
  | _, _ => none

/-- `Product.log_likelihood` on the tensor of its input, product.py:74-80: `torch.sum(ll, dim=1, keepdim=True)`. -/
def productLL (t : Tens) : Tens :=
  ⟨t.shape.set 1 1, fun idx => (List.range (t.shape.getD 1 0)).foldl (fun s c => nanAdd s (t.val (idx.set 1 c))) (some 0)⟩

/-- `Sum.log_likelihood` starts with `rearrange(ll, "b f ci r -> b f ci 1 r")`, sum.py:270: einops rejects a tensor
without exactly four dimensions. -/
def sumRearrange (t : Tens) : Except Exc Unit := if t.shape.length = 4 then .ok () else .error .runtimeError

/-- What sampling one cell does, piecewise_linear.py:298-337, 776-781: the mode, a continuous draw, or a class number,
decided by the domain stored in the distribution object. -/
inductive Action where
  | mode (c : Curve)
  | cont (c : Curve)
  | disc (c : Curve)

/-- Sampling one cell (repetition `r`, leaf `l`, feature `f`); an unknown data type raises ValueError. -/
def sampleAction (st : State) (isMpe : Bool) (r l f : ℕ) : Except Exc (Option Action) :=
  match distribution st with
  | .error e => .error e
  | .ok (_, cs, doms) =>
    if isMpe then .ok ((curveAt cs r l f).map .mode)
    else match doms[f]? with
      | some (.continuous _ _) => .ok ((curveAt cs r l f).map .cont)
      | some (.discrete _) => .ok ((curveAt cs r l f).map .disc)
      | _ => .error .valueError

end Verif.Pwl

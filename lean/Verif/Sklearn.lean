import Verif.LearnSpn
import Verif.PromModel
import Verif.Sampling

/-!
# Model of spflow/interfaces/sklearn.py: `SPFlowDensityEstimator`

Array-likes are a shape together with an indexed family of cells (`none` is NaN).  The model behind the estimator is a circuit of
`Circuit.lean`; devices and dtypes are not modelled, nor are numpy arrays that are not numeric.  `SPFlowClassifier` is in
`Classify.lean`.
-/

namespace Verif
namespace Sk

open Verif.Circ

/-- A numeric array-like: shape and cells. -/
structure Arr where
  shape : List ℕ
  cell : List ℕ → Option ℝ

/-- `_as_2d_numpy` (interfaces/sklearn.py:53-60): number of rows and of columns. -/
def dims2 : List ℕ → Except Exc (ℕ × ℕ)
  | [n] => .ok (n, 1)
  | [n, m] => .ok (n, m)
  | _ => .error .invalidParameter

/-- Row `i` of the 2-dimensional array: column `v` holds variable `v` (interfaces/sklearn.py:53-60, 196-199; the leaves read
`data[:, scope.query]`). -/
def Arr.row (X : Arr) (i : ℕ) : Row := fun v =>
  match X.shape with
  | [_] => if v = 0 then X.cell [i] else none
  | _ => if 0 ≤ v then X.cell [i, v.toNat] else none

/-- `reduce_over` of `_reduce_log_likelihood` (interfaces/sklearn.py:106-115) along an axis of size `n`: an exception, or the
function applied to the entries.  `select` and `math.log` raise on an empty axis. -/
noncomputable def reducer (m : String) (n : ℕ) : Except Exc ((ℕ → LogV) → LogV) :=
  if n = 1 then .ok fun t => t 0
  else if m = "first" then if n = 0 then .error .indexError else .ok fun t => t 0
  else if m = "logsumexp" then .ok fun t => lse n t
  else if m = "logmeanexp" then
    if n = 0 then .error .valueError else .ok fun t => lse n t + ((-Real.log n : ℝ) : LogV)
  else .error .invalidParameter

/-- A tensor of log-likelihoods. -/
structure Tens where
  shape : List ℕ
  val : List ℕ → LogV

/-- The missing axes are added with size one (interfaces/sklearn.py:94-99). -/
def dims4 : List ℕ → Except Exc (ℕ × ℕ × ℕ × ℕ)
  | [b, f] => .ok (b, f, 1, 1)
  | [b, f, c] => .ok (b, f, c, 1)
  | [b, f, c, r] => .ok (b, f, c, r)
  | _ => .error .invalidParameter

/-- Entry `[b, f, c, r]` after the rearrangement (interfaces/sklearn.py:94-99). -/
def Tens.at4 (t : Tens) (b f c r : ℕ) : LogV := t.val ([b, f, c, r].take t.shape.length)

/-- `_reduce_log_likelihood` (interfaces/sklearn.py:78-119): 101-102 empty batch, 104 sum over the features, 117 repetitions, 118
channels. -/
noncomputable def reduceLL (chAgg repAgg : String) (t : Tens) : Except Exc (List LogV) :=
  match dims4 t.shape with
  | .error e => .error e
  | .ok (B, F, C, R) =>
    if B = 0 then .ok []
    else
      match reducer repAgg R with
      | .error e => .error e
      | .ok rep =>
        match reducer chAgg C with
        | .error e => .error e
        | .ok ch => .ok ((List.range B).map fun b => ch fun c => rep fun r => ∑ f ∈ Finset.range F, t.at4 b f c r)

/-- The model a user passes (interfaces/sklearn.py:234-263): a circuit, and what its `maximum_likelihood_estimation` does (`none` if
it has no such method; the call changes the circuit in place or raises). -/
structure Given where
  circ : Circ
  mle : Option (List Row → Except Exc Circ)

/-- Structure learner keyword arguments that override the defaults (interfaces/sklearn.py:220-226). -/
structure Kw where
  outCh : Option ℕ
  minI : Option ℕ
  minF : Option ℕ

/-- The constructor arguments of `SPFlowDensityEstimator` (interfaces/sklearn.py:154-186). -/
structure Params where
  model : Option Given
  learner : String
  kw : Kw
  fitParams : Bool
  leaf : String
  leafCh : ℕ
  minI : ℕ
  minF : ℕ
  chAgg : String
  repAgg : String

/-- Fitted attributes: `model_` and `n_features_in_`. -/
structure Est where
  model : Option Circ
  nFeatures : Option ℕ

/-- What the structure learners do beyond their arguments: their randomness and oracles, the fuel for the recursion, and the
remaining arguments of `learn_prometheus`. -/
structure World where
  spn : LearnSpn.Oracle Row
  prom : Prometheus.Oracle
  promRest : Prometheus.Cfg
  fuel : ℕ

/-- The variables of the leaf template: one per column (interfaces/sklearn.py:201-206). -/
def cols (m : ℕ) : List Var := (List.range m).map fun i : ℕ => (i : ℤ)

/-- Learning a structure (interfaces/sklearn.py:217-232): leaf template, learner name, keyword arguments, learner. -/
noncomputable def learnModel (p : Params) (w : World) (rows : List Row) (m : ℕ) : Except Exc Circ :=
  if p.leaf ≠ "normal" then .error .invalidParameter
  else
    match mkLeaf (cols m) p.leafCh 1 (fun _ _ _ _ => 0) with
    | .error e => .error e
    | .ok _ =>
      if p.learner = "learn_spn" then
        LearnSpn.learnSpn ⟨[(cols m, p.leafCh)], p.kw.outCh.getD 1, p.kw.minF.getD p.minF, p.kw.minI.getD p.minI⟩ w.spn w.fuel
          rows none
      else if p.learner = "prometheus" then
        Prometheus.learnPrometheus { w.promRest with
          tmpl := [(cols m, p.leafCh)], outCh := p.kw.outCh.getD 1, minF := p.kw.minF.getD p.minF, minI := p.kw.minI.getD p.minI }
          w.prom w.fuel rows none
      else .error .invalidParameter

/-- `fit` (interfaces/sklearn.py:208-265): the attributes afterwards, and the exception if one is raised.  `model_` is assigned
before the parameters are fitted (238). -/
noncomputable def fit (p : Params) (w : World) (X : Arr) (e : Est) : Est × Option Exc :=
  match dims2 X.shape with
  | .error x => (e, some x)
  | .ok (n, m) =>
    let rows := (List.range n).map X.row
    match p.model with
    | none =>
      match learnModel p w rows m with
      | .error x => (⟨e.model, some m⟩, some x)
      | .ok c => (⟨some c, some m⟩, none)
    | some g =>
      if p.fitParams = false then (⟨some g.circ, some m⟩, none)
      else
        match g.mle with
        | none => (⟨some g.circ, some m⟩, some .invalidParameter)
        | some f =>
          match f rows with
          | .error x => (⟨some g.circ, some m⟩, some (if x = .unsupported then .invalidParameter else x))
          | .ok c => (⟨some c, some m⟩, none)

/-- The tensor `model_.log_likelihood(x)` (interfaces/sklearn.py:272): `[batch, features, channels, repetitions]`; an IndexError if
a variable has no column, the exception of torch if the repetition axes of the modules do not fit. -/
noncomputable def llTensor (c : Circ) (X : Arr) (n m : ℕ) : Except Exc Tens :=
  if ∃ v ∈ (scope c).query, (m : ℤ) ≤ v then .error .indexError
  else
    match tensorR c with
    | none => .error .runtimeError
    | some R => .ok ⟨[n, F c, C c, R], fun i => featAt (den c) (i.getD 1 0) (X.row (i.getD 0 0)) (i.getD 3 0) (i.getD 2 0)⟩

/-- `score_samples` (interfaces/sklearn.py:267-278).  `check_is_fitted` raises a ValueError (`NotFittedError`). -/
noncomputable def score (p : Params) (e : Est) (X : Arr) : Except Exc (List LogV) :=
  match e.model with
  | none => .error .valueError
  | some c =>
    match dims2 X.shape with
    | .error x => .error x
    | .ok (n, m) =>
      match llTensor c X n m with
      | .error x => .error x
      | .ok t => reduceLL p.chAgg p.repAgg t

/-- `sample` (interfaces/sklearn.py:280-306).  `G` is the state of torch's global generator, `seed` is `manual_seed`, and `draw`
the execution of `model_.sample(n)` from a state.  `fork_rng` (301) puts the state back on return, so the second component is the
state the caller is left with. -/
def sample {G A : Type} (draw : Circ → ℕ → G → A × G) (seed : ℤ → G) (e : Est) (n : ℤ) (rs : Option ℤ) (g : G) :
    Except Exc A × G :=
  match e.model with
  | none => (.error .valueError, g)
  | some c =>
    if n < 1 then (.error .invalidParameter, g)
    else
      match rs with
      | none => (.ok (draw c n.toNat g).1, g)
      | some s => (.ok (draw c n.toNat (seed s)).1, g)

end Sk
end Verif

import Verif.Leaves
import Mathlib.Analysis.SpecialFunctions.Log.NegMulLog

/-!
# Model of the information measures

spflow/measures/_utils.py, measures/information_theory.py (method "exact"), measures/weight_of_evidence.py.
Batches are lists of rows; the evaluation of one row is `Circ.den`.
-/

namespace Verif
namespace Measures

/-- The aggregation names `reduce_log_likelihood` knows; `other` is any other string. -/
inductive Agg where
  | first
  | logsumexp
  | logmeanexp
  | other
  deriving DecidableEq

/-- The exception part of `reduce_over`, _utils.py:59-68: an axis of size 1 is squeezed before the name is looked at. -/
def aggCheck (n : ℕ) (m : Agg) : Except Exc Unit :=
  if n = 1 then .ok () else if m = .other then .error .invalidParameter else .ok ()

/-- The value part of `reduce_over`, _utils.py:59-68, along an axis of size `n ≥ 1`. -/
noncomputable def aggVal (n : ℕ) (m : Agg) (t : ℕ → LogV) : LogV :=
  if n = 1 then t 0
  else match m with
    | .first => t 0
    | .logsumexp => lse n t
    | .logmeanexp => lse n t + ((- Real.log n : ℝ) : LogV)
    | .other => ⊥

/-- The aggregated value of one row, _utils.py:57-72: features summed, then repetitions, then channels. -/
noncomputable def reduced (F C R : ℕ) (chA rpA : Agg) (ll : ℕ → ℕ → ℕ → LogV) : LogV :=
  aggVal C chA fun c => aggVal R rpA fun r => ∑ f ∈ Finset.range F, ll f c r

/-- `reduce_log_likelihood` of a non-empty batch, _utils.py:23-72. -/
noncomputable def reduceLL (F C R : ℕ) (chA rpA : Agg) (lls : List (ℕ → ℕ → ℕ → LogV)) : Except Exc (List LogV) := do
  aggCheck R rpA
  aggCheck C chA
  return lls.map (reduced F C R chA rpA)

/-- Leaf classes as far as `infer_discrete_domains` distinguishes them, with the parameters of all cells
(feature, channel, repetition).  `other`: any other leaf class, with its log density. -/
inductive LeafClass where
  | bernoulli (p : ℕ → ℕ → ℕ → ℝ)
  | categorical (K : ℕ) (logits : ℕ → ℕ → ℕ → ℕ → LogV)
  | other (d : ℕ → ℕ → ℕ → ℝ → LogV)

/-- `dist.log_prob` of a leaf cell. -/
noncomputable def LeafClass.ll : LeafClass → ℕ → ℕ → ℕ → ℝ → LogV
  | .bernoulli p => fun i c r => Leaves.bernoulliLL (p i c r)
  | .categorical K l => fun i c r => Leaves.categoricalLL K (l i c r)
  | .other d => d

/-- Circuits whose leaves keep their class. -/
inductive MC where
  | leaf (q : List Var) (C R : ℕ) (k : LeafClass)
  | cat1 (n : ℕ) (cs : Fin n → MC)
  | cat2 (n : ℕ) (cs : Fin n → MC)
  | prod (c : MC)
  | sum (c : MC) (Co R : ℕ) (θ : ℕ → ℕ → ℕ → ℕ → LogV)

/-- The circuit that `log_likelihood` evaluates. -/
noncomputable def MC.circ : MC → Circ
  | .leaf q C R k => .leaf q C R k.ll
  | .cat1 n cs => .cat1 n fun i => (cs i).circ
  | .cat2 n cs => .cat2 n fun i => (cs i).circ
  | .prod c => .prod c.circ
  | .sum c Co R θ => .sum c.circ Co R θ

/-- The leaves in the order of `iter_modules`, _utils.py:75-104. -/
def MC.leaves : MC → List (List Var × LeafClass)
  | .leaf q _ _ k => [(q, k)]
  | .cat1 n cs => (List.ofFn fun i : Fin n => (cs i).leaves).flatten
  | .cat2 n cs => (List.ofFn fun i : Fin n => (cs i).leaves).flatten
  | .prod c => c.leaves
  | .sum c _ _ _ => c.leaves

/-- What one leaf records for the target variables, _utils.py:132-161: pairs (variable, domain size). -/
def record (target : List Var) (l : List Var × LeafClass) : Except Exc (List (Var × ℕ)) :=
  let rvs := l.1.filter target.contains
  if rvs.isEmpty then .ok []
  else match l.2 with
    | .bernoulli _ => .ok (rvs.map fun v => (v, 2))
    | .categorical K _ => if K < 1 then .error .unsupported else .ok (rvs.map fun v => (v, K))
    | .other _ => .error .unsupported

/-- `infer_discrete_domains`, _utils.py:108-175: the domain of `v` is `{0, .., size v - 1}`; the first recorded size is kept
(`setdefault`), missing or inconsistent variables raise. -/
def inferDomains (m : MC) (target : List Var) : Except Exc (Var → ℕ) := do
  let recs ← m.leaves.mapM (record target)
  let recs := recs.flatten
  if target.any (fun v => !(recs.any fun p => p.1 == v)) then throw .unsupported
  if recs.any (fun p => recs.any fun q => p.1 == q.1 && p.2 != q.2) then throw .unsupported
  return fun v => ((recs.find? fun p => p.1 == v).map Prod.snd).getD 0

/-- The rows of `data`, information_theory.py:53-64: the Cartesian product of the domains, written into the columns `rvs` of
rows of NaN (the first variable runs slowest). -/
def gridRows (dom : Var → ℕ) : List Var → List Row
  | [] => [fun _ => none]
  | v :: rvs => (List.range (dom v)).flatMap fun k : ℕ => (gridRows dom rvs).map fun x => Function.update x v (some (k : ℝ))

/-- `model.log_likelihood(data)` followed by `reduce_log_likelihood`, for a data tensor with `d` columns: a model variable
without a column raises IndexError (leaf.py:430). -/
noncomputable def evalRows (m : MC) (chA rpA : Agg) (d : ℕ) (rows : List Row) : Except Exc (List LogV) := do
  if m.circ.scope.query.any (fun v => (d : Int) ≤ v) then throw .indexError
  let lls ← rows.mapM m.circ.logLik
  match m.circ.tensorR with
  | none => throw .runtimeError
  | some R => reduceLL m.circ.F m.circ.C R chA rpA lls

/-- One term of `p_log_p`, information_theory.py:72-75. -/
noncomputable def pLogP (l : LogV) : ℝ := match l with
  | ⊥ => 0
  | (x : ℝ) => Real.exp x * x

/-- `entropy(model, scope, method="exact")` once the scope argument is a `Scope`, information_theory.py:46-75. -/
noncomputable def entropy (m : MC) (chA rpA : Agg) (s : Scope) : Except Exc ℝ := do
  if s.isEmpty then throw .invalidParameter
  let dom ← inferDomains m s.query
  let lls ← evalRows m chA rpA m.circ.scope.query.length (gridRows dom s.query)
  return - (lls.map pLogP).sum

/-- `mutual_information(model, x, y, method="exact")`, information_theory.py:108-135. -/
noncomputable def mutualInformation (m : MC) (chA rpA : Agg) (x y : Scope) : Except Exc ℝ := do
  if x.query.any y.query.contains then throw .invalidParameter
  let hx ← entropy m chA rpA x
  let hy ← entropy m chA rpA y
  let xy ← Scope.mk? (x.query ++ y.query) []
  let hxy ← entropy m chA rpA xy
  return hx + hy - hxy

/-- `conditional_mutual_information(model, x, y, z, method="exact")`, information_theory.py:181-218. -/
noncomputable def conditionalMutualInformation (m : MC) (chA rpA : Agg) (x y z : Scope) : Except Exc ℝ := do
  if Scope.hasDup (x.query ++ y.query ++ z.query) then throw .invalidParameter
  let hz ← entropy m chA rpA z
  let xz ← Scope.mk? (x.query ++ z.query) []
  let hxz ← entropy m chA rpA xz
  let yz ← Scope.mk? (y.query ++ z.query) []
  let hyz ← entropy m chA rpA yz
  let xyz ← Scope.mk? (x.query ++ y.query ++ z.query) []
  let hxyz ← entropy m chA rpA xyz
  return hxz + hyz - hz - hxyz

/-- `exp(a - b)` on log-likelihoods; `-inf - (-inf)` is NaN (`none`).  (`a - (-inf) = +inf` cannot occur for `a ≤ b`; it is
modelled as NaN as well.) -/
noncomputable def expDiff (a b : LogV) : Option ℝ := match b with
  | ⊥ => none
  | (y : ℝ) => some (expL (a + ((-y : ℝ) : LogV)))

/-- `conditional_probability` for one row of evidence with `d` columns, weight_of_evidence.py:14-59; `none` is NaN.
Negative column indices, which torch counts from the end, are not modelled (the model raises). -/
noncomputable def condProb (m : MC) (chA rpA : Agg) (d : ℕ) (y : Var) (val : ℝ) (e : Row) : Except Exc (Option ℝ) := do
  if (d : Int) ≤ y ∨ y < 0 then throw .indexError
  let j ← evalRows m chA rpA d [Function.update e y (some val)]
  let q ← evalRows m chA rpA d [Function.update e y none]
  return expDiff (j.getD 0 ⊥) (q.getD 0 ⊥)

/-- Laplace correction, weight_of_evidence.py:127-130. -/
noncomputable def laplace (n k : ℕ) (p : ℝ) : ℝ := (p * n + 1) / (n + k)

/-- `clamp(min=eps, max=1-eps)`, weight_of_evidence.py:132-133 (torch: min applied first, then max). -/
noncomputable def clamp (eps p : ℝ) : ℝ := min (max p eps) (1 - eps)

/-- `torch.logit`. -/
noncomputable def logit (p : ℝ) : ℝ := Real.log (p / (1 - p))

/-- The cardinality of the target, weight_of_evidence.py:106-108: given, or inferred from the leaves. -/
def cardOf (m : MC) (y : Var) : Option ℕ → Except Exc ℕ
  | some k => .ok k
  | none => do
    let s ← Scope.mk? [y] []
    let dom ← inferDomains m s.query
    return dom y

/-- `weight_of_evidence` for one row, weight_of_evidence.py:62-134 (shapes agree by construction); `none` is NaN. -/
noncomputable def woe (m : MC) (chA rpA : Agg) (d : ℕ) (y : Var) (val : ℝ) (full red : Row) (n : ℕ) (k : Option ℕ)
    (eps : ℝ) : Except Exc (Option ℝ) := do
  if n < 1 then throw .invalidParameter
  let k ← cardOf m y k
  let p1 ← condProb m chA rpA d y val full
  let p2 ← condProb m chA rpA d y val red
  return p1.bind fun a => p2.map fun b => logit (clamp eps (laplace n k a)) - logit (clamp eps (laplace n k b))

/-- `weight_of_evidence_leave_one_out` on a batch with `d` columns, weight_of_evidence.py:137-208: for every column that is observed in
some row, the result is written into that column of *every* row. -/
noncomputable def leaveOneOut (m : MC) (chA rpA : Agg) (d : ℕ) (y : Var) (val : ℝ) (rows : List Row) (n : ℕ) (k : Option ℕ)
    (eps : ℝ) : Except Exc (List Row) := do
  if (d : Int) ≤ y ∨ y < 0 then throw .indexError
  (List.range d).foldlM (fun out (j : ℕ) =>
    if (j : Int) = y then .ok out
    else if rows.all (fun x => (x j).isNone) then .ok out
    else do
      let ws ← rows.mapM fun x =>
        let base := Function.update x y (some val)
        woe m chA rpA d y val base (Function.update base (j : Int) none) n k eps
      return List.zipWith (fun o w => Function.update o (j : Int) w) out ws) (rows.map fun x => Function.update x y none)

end Measures
end Verif

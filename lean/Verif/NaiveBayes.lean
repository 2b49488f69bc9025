import Verif.Classify
import Verif.LeafFit

/-!
# Model of spflow/zoo/naive_bayes.py

The constructor, the prior, and `maximum_likelihood_estimation` with class targets.
-/

namespace Verif.NB

open Verif.Circ

/-- A leaf module given to the constructor: scope, channels, repetitions and the log-density of feature `i`, channel `k`,
repetition `r`. -/
structure Leaf where
  q : List Var
  C : ℕ
  R : ℕ
  d : ℕ → ℕ → ℕ → ℝ → LogV

/-- The module itself (its own constructor accepted it: see `Leaf.Valid` in the properties). -/
def Leaf.circ (l : Leaf) : Circ := .leaf l.q l.C l.R l.d

/-- `_build_prior_weights`, naive_bayes.py:107-124: `prior` is `None` or a list whose entries are numbers or (`none`)
not finite. -/
noncomputable def buildPrior (n : ℕ) (prior : Option (List (Option ℝ))) : Except Exc (ℕ → ℝ) :=
  open Classical in
  match prior with
  | none => .ok fun _ => 1 / n
  | some l =>
    if l.length ≠ n then .error .invalidParameter
    else if l.any Option.isNone then .error .invalidParameter
    else if ∃ p ∈ l, p.getD 0 ≤ 0 then .error .invalidParameter
    else .ok fun k => (l.getD k none).getD 0 / (l.map fun p => p.getD 0).sum

/-- A built model. -/
structure Net where
  n : ℕ
  learn : Bool
  leaves : List Leaf
  conditional : Circ
  root : Circ

/-- The `(1, n, 1, 1)` weight tensor made from a prior, naive_bayes.py:124. -/
def priorW (n : ℕ) (p : ℕ → ℝ) : Weights := ⟨1, n, 1, 1, fun _ k _ _ => p k⟩

/-- `NaiveBayes.__init__`, naive_bayes.py:35-79, with `_normalize_leaf_modules` (81-89) and `_validate_leaves` (91-105).
`Scope.join_all` cannot fail on the scopes of built leaves. -/
noncomputable def build (leaves : List Leaf) (n : ℤ) (prior : Option (List (Option ℝ))) (learn : Bool) : Except Exc Net :=
  if n < 1 then .error .invalidParameter
  else if leaves.isEmpty then .error .invalidParameter
  else if leaves.any (fun l => l.R != 1 || l.C != n.toNat) then .error .invalidParameter
  else if n = 1 then
    if prior.isSome then .error .invalidParameter
    else if learn then .error .invalidParameter
    else do
      let c ← mkProd (leaves.map Leaf.circ)
      return ⟨1, learn, leaves, c, c⟩
  else do
    let c ← mkProd (leaves.map Leaf.circ)
    let p ← buildPrior n.toNat prior
    let s ← mkSum [c] (priorW n.toNat p)
    return ⟨n.toNat, learn, leaves, c, s⟩

/-- `torch.finfo(float32).eps`, naive_bayes.py:128. -/
noncomputable def floatEps : ℝ := 1 / 2 ^ 23

/-- Number of rows of class `k` (`torch.bincount`), naive_bayes.py:217. -/
def classCount (ts : List ℕ) (k : ℕ) : ℕ := ts.count k

/-- `_normalize_empirical_prior`, naive_bayes.py:126-130. -/
noncomputable def empiricalPrior (n : ℕ) (ts : List ℕ) (k : ℕ) : ℝ :=
  ((classCount ts k : ℝ) + floatEps) / ∑ j ∈ Finset.range n, ((classCount ts j : ℝ) + floatEps)

/-- `_validate_targets`, naive_bayes.py:132-147 (the targets are an integer vector; `b` rows). -/
def validTargets (n b : ℕ) (ts : List ℤ) : Except Exc (List ℕ) :=
  if ts.length ≠ b then .error .invalidParameter
  else if ts.any (fun t => decide (t < 0) || decide ((n : ℤ) ≤ t)) then .error .invalidParameter
  else .ok (ts.map Int.toNat)

/-- The rows a leaf sees, naive_bayes.py:196-213: the one-hot class weight, expanded over the leaf's features. -/
def oneHotRows (vals : List (ℕ → Option ℝ)) (ts : List ℕ) : List LeafFit.Row :=
  (vals.zip ts).map fun z => ⟨z.1, fun _ c _ => if z.2 = c then 1 else 0⟩

/-- The estimate of feature `f`, class `k` of a leaf with `F` features and estimator `est`, after
`maximum_likelihood_estimation(data, targets=ts)`, naive_bayes.py:174-213. -/
noncomputable def fitCell {β : Type} (est : List (ℝ × ℝ) → β) (ignore : Bool) (F n : ℕ) (vals : List (ℕ → Option ℝ))
    (ts : List ℕ) (f k : ℕ) : Except Exc β :=
  LeafFit.fit est ignore F n 1 (oneHotRows vals ts) f k 0

/-- The prior after fitting, naive_bayes.py:215-221: replaced only if it is learnable. -/
noncomputable def fitPrior (learn : Bool) (n : ℕ) (ts : List ℕ) (old : ℕ → ℝ) : ℕ → ℝ :=
  if learn then empiricalPrior n ts else old

end Verif.NB

import Verif.Scope
import Verif.LogSpace

/-!
# Model of the core modules: leaves, `Cat`, `Product`, `Sum`

Files modelled: spflow/modules/leaves/leaf.py, ops/cat.py, products/product.py, sums/sum.py.

* One batch row at a time: a row is `Var → Option ℝ`, `none` is NaN.  (No modelled operation mixes rows.)
* `log_likelihood` returns a tensor indexed by (feature, channel, repetition).  It is modelled as a list over
  features of functions of row, repetition and channel (`Feat`), together with the entry of `feature_to_scope`
  for that feature.  For these four module kinds `feature_to_scope` does not depend on the repetition.
* Unconditional leaves only (`scope.evidence` empty); modules are trees: sharing has no effect on
  values because of C06.
* Parameters of leaves are abstracted into the log-density function itself.
-/

namespace Verif

/-- A random variable id, i.e. a data column. -/
abbrev Var := Int

/-- One row of the data tensor; `none` is NaN. -/
abbrev Row := Var → Option ℝ

/-- Modules.  `leaf q C R d`: LeafModule (leaf.py:22-67) with `scope.query = q`, event shape
`(len q, C, R)` and log density `d feature channel repetition value` (`dist.log_prob`).
`cat1`/`cat2`: Cat with dim=1/dim=2 (cat.py:19).  `prod`: Product (product.py:15).
`sum c Co R θ`: Sum with out_channels `Co`, `R` weight repetitions and `logits θ f ci co r`
(sum.py:31, logits at 123). -/
inductive Circ where
  | leaf (q : List Var) (C R : ℕ) (d : ℕ → ℕ → ℕ → ℝ → LogV)
  | cat1 (n : ℕ) (cs : Fin n → Circ)
  | cat2 (n : ℕ) (cs : Fin n → Circ)
  | prod (c : Circ)
  | sum (c : Circ) (Co R : ℕ) (θ : ℕ → ℕ → ℕ → ℕ → LogV)

namespace Circ

/-- `out_shape.features`: leaf.py:62,67; cat.py:63,66; product.py:48; sum.py:113-115. -/
def F : Circ → ℕ
  | leaf q _ _ _ => q.length
  | cat1 n cs => (List.ofFn fun i : Fin n => F (cs i)).sum
  | cat2 n cs => if h : 0 < n then F (cs ⟨0, h⟩) else 0
  | prod _ => 1
  | sum c _ _ _ => F c

/-- `out_shape.channels`: leaf.py:63,67; cat.py:64,67; product.py:48; sum.py:113-115. -/
def C : Circ → ℕ
  | leaf _ C _ _ => C
  | cat1 n cs => if h : 0 < n then C (cs ⟨0, h⟩) else 0
  | cat2 n cs => (List.ofFn fun i : Fin n => C (cs i)).sum
  | prod c => C c
  | sum _ Co _ _ => Co

/-- `out_shape.repetitions`: leaf.py:64,67; cat.py:69; product.py:48; sum.py:113-115. -/
def R : Circ → ℕ
  | leaf _ _ R _ => R
  | cat1 n cs => if h : 0 < n then R (cs ⟨0, h⟩) else 0
  | cat2 n cs => if h : 0 < n then R (cs ⟨0, h⟩) else 0
  | prod c => R c
  | sum _ _ R _ => R

/-- `module.scope`: leaf.py:56; cat.py:43,55; product.py:43; sum.py:109.  (For an empty `Cat` the
constructor raises, see `check1`/`check2`; the value here is then irrelevant.) -/
def scope : Circ → Scope
  | leaf q _ _ _ => ⟨q, []⟩
  | cat1 n cs =>
    match Scope.joinAll (List.ofFn fun i : Fin n => scope (cs i)) with
    | .ok s => s
    | .error _ => ⟨[], []⟩
  | cat2 n cs => if h : 0 < n then scope (cs ⟨0, h⟩) else ⟨[], []⟩
  | prod c => scope c
  | sum c _ _ _ => scope c

/-! ## Constructor checks -/

/-- `Cat.__init__` with dim=1, cat.py:31-43: equal channels, pairwise disjoint scopes, join (raises
TypeError for an empty list). -/
def check1 (l : List Circ) : Except Exc Unit := do
  if ! l.all (fun m => m.C == (l.head?.map C).getD 0) then throw .valueError
  let disj ← Scope.allPairwiseDisjoint (l.map scope)
  if ! disj then throw .valueError
  let _ ← Scope.joinAll (l.map scope)
  return ()

/-- `Cat.__init__` with dim=2, cat.py:45-55: equal feature counts, equal scopes; `inputs[0]` raises
IndexError for an empty list. -/
def check2 (l : List Circ) : Except Exc Unit := do
  if ! l.all (fun m => m.F == (l.head?.map F).getD 0) then throw .valueError
  if ! Scope.allEqual (l.map scope) then throw .valueError
  if l.isEmpty then throw .indexError
  return ()

/-- `Cat(inputs, dim)`, cat.py:20-69. -/
def mkCat (dim : Int) (l : List Circ) : Except Exc Circ :=
  if dim = 1 then do check1 l; return cat1 l.length l.get
  else if dim = 2 then do check2 l; return cat2 l.length l.get
  else .error .valueError

/-- A leaf, leaf.py:45-56: `Scope(scope)` must be accepted (`Scope.copy` re-checks). -/
def mkLeaf (q : List Var) (C R : ℕ) (d : ℕ → ℕ → ℕ → ℝ → LogV) : Except Exc Circ := do
  let _ ← Scope.mk? q []
  return leaf q C R d

/-- `Product(inputs)` with a list argument, product.py:34-40; an empty list goes to `Cat` and raises. -/
def mkProd (l : List Circ) : Except Exc Circ :=
  match l with
  | [c] => .ok (prod c)
  | l => do return prod (← mkCat 1 l)

/-- Shape `(features, in channels, out channels, repetitions)` and values of a weight tensor. -/
structure Weights where
  Fw : ℕ
  Ci : ℕ
  Co : ℕ
  R : ℕ
  val : ℕ → ℕ → ℕ → ℕ → ℝ

/-- `torch.allclose(s, 1.0)` with the default tolerances `atol = 1e-8`, `rtol = 1e-5`, used at sum.py:220. -/
def CloseToOne (s : ℝ) : Prop := |s - 1| ≤ 1 / 10 ^ 8 + 1 / 10 ^ 5 * |(1 : ℝ)|

/-- The checks of the `weights` setter, sum.py:209-222, and the stored logits `log values`
(proj_convex_to_real, utils/projections.py:35). -/
noncomputable def setWeights (c : Circ) (Co R : ℕ) (w : Weights) : Except Exc (ℕ → ℕ → ℕ → ℕ → LogV) :=
  open Classical in
  if ¬ (w.Fw = c.F ∧ w.Ci = c.C ∧ w.Co = Co ∧ w.R = R) then .error .shapeError
  else if ¬ (∀ f < w.Fw, ∀ ci < w.Ci, ∀ co < w.Co, ∀ r < w.R, 0 < w.val f ci co r) then .error .invalidWeights
  else if ¬ (∀ f < w.Fw, ∀ co < w.Co, ∀ r < w.R,
      CloseToOne (∑ ci ∈ Finset.range w.Ci, w.val f ci co r)) then
    .error .invalidWeights
  else .ok fun f ci co r => logL (w.val f ci co r)

/-- `Sum(inputs, weights=w)` with explicit 4-D weights, sum.py:46-126: input list wrapped in Cat(dim=2)
(99-106), `out_channels ≥ 1` (94), then the weight setter. -/
noncomputable def mkSum (l : List Circ) (w : Weights) : Except Exc Circ := do
  if l.isEmpty then throw .valueError
  if w.Co < 1 then throw .valueError
  let c ← match l with
    | [c] => .ok c
    | l => mkCat 2 l
  let θ ← setWeights c w.Co w.R w
  return sum c w.Co w.R θ

/-- The weights the getter returns, sum.py:199-207. -/
noncomputable def weight (c : Circ) (θ : ℕ → ℕ → ℕ → ℕ → LogV) (f ci co r : ℕ) : ℝ :=
  softmax c.C (fun i => θ f i co r) ci

/-! ## log_likelihood -/

/-- One output feature: its `feature_to_scope` entry (query set) and its log-likelihood as a function of row,
repetition and channel. -/
structure Feat where
  scope : Finset Var
  val : Row → ℕ → ℕ → LogV

/-- Torch broadcasting of a repetition axis of size `R`: size 1 is repeated. -/
def bc (R r : ℕ) : ℕ := if R = 1 then 0 else r

/-- `torch.cat` along the channel axis (cat.py:105 with dim=2) of blocks (size, values). -/
def catCh : List (ℕ × (ℕ → LogV)) → ℕ → LogV
  | [], _ => ⊥
  | (n, g) :: rest, ch => if ch < n then g ch else catCh rest (ch - n)

/-- Entry `[f, ch]` of the tensor of a feature list. -/
def featAt (l : List Feat) (f : ℕ) (x : Row) (r ch : ℕ) : LogV :=
  match l[f]? with
  | some u => u.val x r ch
  | none => ⊥

/-- `log_likelihood` and `feature_to_scope` of every module.
leaf: leaf.py:411-477 (NaN cells contribute `0.0`, line 470) and 309-319;
Cat: cat.py:82-106 and 71-77; Product: product.py:58-82 (sum over the feature axis) and 50-56;
Sum: sum.py:244-280 (`logsumexp` over input channels of `ll + log_weights`) and 185-187. -/
noncomputable def den : Circ → List Feat
  | leaf q _ R d =>
    q.mapIdx fun i v =>
      { scope := {v}
        val := fun x r ch => match x v with
          | none => 0
          | some t => d i ch (bc R r) t }
  | cat1 n cs => (List.ofFn fun i : Fin n => den (cs i)).flatten
  | cat2 n cs =>
    if h : 0 < n then
      (den (cs ⟨0, h⟩)).mapIdx fun f u0 =>
        { scope := u0.scope
          val := fun x r ch =>
            catCh (List.ofFn fun i : Fin n => (C (cs i), fun k => featAt (den (cs i)) f x r k)) ch }
    else []
  | prod c =>
    [{ scope := ((den c).map Feat.scope).foldr (· ∪ ·) ∅
       val := fun x r ch => ((den c).map fun u => u.val x r ch).sum }]
  | sum c _ R θ =>
    (den c).mapIdx fun f u =>
      { scope := u.scope
        val := fun x r co =>
          lse (C c) fun ci => u.val x r ci + logSoftmax (C c) (fun i => θ f i co (bc R r)) ci }

/-- Repetition size of the tensor `log_likelihood` really returns, or `none` if torch raises:
`torch.cat` needs equal sizes (cat.py:105), `ll + log_weights` broadcasts (sum.py:275). -/
def tensorR : Circ → Option ℕ
  | leaf _ _ R _ => some R
  | cat1 n cs =>
    if h : 0 < n then
      if ∀ i : Fin n, tensorR (cs i) = tensorR (cs ⟨0, h⟩) then tensorR (cs ⟨0, h⟩) else none
    else none
  | cat2 n cs =>
    if h : 0 < n then
      if ∀ i : Fin n, tensorR (cs i) = tensorR (cs ⟨0, h⟩) then tensorR (cs ⟨0, h⟩) else none
    else none
  | prod c => tensorR c
  | sum c _ R _ =>
    match tensorR c with
    | none => none
    | some T => if T = R then some R else if T = 1 then some R else if R = 1 then some T else none

/-- `module.log_likelihood(row)` as the user sees it: RuntimeError from torch, or the tensor `[f, ch, r]`. -/
noncomputable def logLik (c : Circ) (x : Row) : Except Exc (ℕ → ℕ → ℕ → LogV) :=
  match tensorR c with
  | none => .error .runtimeError
  | some _ => .ok fun f ch r => featAt (den c) f x r ch

/-- `feature_to_scope[f]` (query set). -/
noncomputable def fscope (c : Circ) (f : ℕ) : Finset Var := (((den c)[f]?).map Feat.scope).getD ∅

/-! ## What the constructors guarantee -/

/-- Every constructor call in the tree was accepted.  For `Sum`: `out_channels ≥ 1` (sum.py:94) and the logits of
every output unit are finite somewhere - the setter makes all of them finite (sum.py:218-222); EM
can later turn some into `-inf`. -/
def Accepted : Circ → Prop
  | leaf q C R d => mkLeaf q C R d = .ok (leaf q C R d)
  | cat1 _ cs => (∀ i, Accepted (cs i)) ∧ check1 (List.ofFn cs) = .ok ()
  | cat2 _ cs => (∀ i, Accepted (cs i)) ∧ check2 (List.ofFn cs) = .ok ()
  | prod c => Accepted c
  | sum c Co R θ => Accepted c ∧ 1 ≤ Co ∧
      ∀ f < F c, ∀ co < Co, ∀ r < R, ∃ ci < C c, θ f ci co r ≠ ⊥

/-- All logits finite, as guaranteed by the weight setter (sum.py:218) and by gradient steps. -/
def FiniteLogits : Circ → Prop
  | leaf _ _ _ _ => True
  | cat1 _ cs => ∀ i, FiniteLogits (cs i)
  | cat2 _ cs => ∀ i, FiniteLogits (cs i)
  | prod c => FiniteLogits c
  | sum c Co R θ => FiniteLogits c ∧ ∀ f < F c, ∀ ci < C c, ∀ co < Co, ∀ r < R, θ f ci co r ≠ ⊥

/-- Repetition index `r` is in range for every parameter tensor it is used on. -/
def RepIn (r : ℕ) : Circ → Prop
  | leaf _ _ R _ => R = 1 ∨ r < R
  | cat1 _ cs => ∀ i, RepIn r (cs i)
  | cat2 _ cs => ∀ i, RepIn r (cs i)
  | prod c => RepIn r c
  | sum c _ R _ => RepIn r c ∧ (R = 1 ∨ r < R)

/-- Channel-concatenated inputs agree feature by feature on their scopes.  NOT checked by `Cat`
(cat.py:47-52 compares feature counts and the total scope only). -/
def Aligned : Circ → Prop
  | leaf _ _ _ _ => True
  | cat1 _ cs => ∀ i, Aligned (cs i)
  | cat2 n cs => (∀ i, Aligned (cs i)) ∧
      ∀ i j : Fin n, (den (cs i)).map Feat.scope = (den (cs j)).map Feat.scope
  | prod c => Aligned c
  | sum c _ _ _ => Aligned c

end Circ
end Verif

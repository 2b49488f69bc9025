import Verif.Circuit
import Verif.CircuitLemmas

/-!
# Model of one expectation-maximisation step on a circuit

spflow/learn/expectation_maximization.py:55-75 (forward pass, backward pass, recursive step),
modules/sums/sum.py:387-434, products/product.py and ops/cat.py (default delegation, module.py:345-372),
leaves/leaf.py:363-405.

* The batch is `X 0 .. X (N-1)`.
* All parameter tensors have the same number `T` of repetitions (`SameReps`); broadcasting of repetitions is not
  modelled here.
* `module_lls.grad` is modelled by the chain rule for the recorded operations: `logsumexp` has derivative
  `exp(x - result)`, sums over features copy, `cat` slices.  The circuit is a tree of modules (each module has one
  parent); see `visits` below for shared modules.
* The leaf update is a parameter `upd`, because it depends on the leaf family (leaf.py:391-405 runs weighted maximum
  likelihood with the gradient as weights; leaves without trainable parameters stay as they are).
-/

namespace Verif
namespace Em
open Circ

/-- `module_lls.grad[n, f, ch, r]`. -/
abbrev Grad := ℕ → ℕ → ℕ → ℕ → ℝ

/-- A leaf update: query, channels, repetitions, density, gradient of the leaf's log-likelihoods. -/
abbrev LeafUpd := List Var → ℕ → ℕ → (ℕ → ℕ → ℕ → ℝ → LogV) → Grad → (ℕ → ℕ → ℕ → ℝ → LogV)

/-- Fixed leaves, leaf.py:377-379. -/
def fixedLeaves : LeafUpd := fun _ _ _ d _ => d

/-- Every leaf and every Sum has `T` repetitions. -/
def SameReps (T : ℕ) : Circ → Prop
  | leaf _ _ R _ => R = T
  | cat1 _ cs => ∀ i, SameReps T (cs i)
  | cat2 _ cs => ∀ i, SameReps T (cs i)
  | prod c => SameReps T c
  | sum c _ R _ => SameReps T c ∧ R = T

/-- The real number of a finite log value. -/
def real (v : LogV) : ℝ := WithBot.unbotD 0 v

/-- Batch sum of expected counts of one Sum unit and input channel `ci`: `logsumexp` over rows of
`log_weights + log(grad) + input_lls - module_lls`, sum.py:421-427. -/
noncomputable def logCount (N : ℕ) (lw : ℕ → LogV) (g : ℕ → ℝ) (u : ℕ → ℕ → LogV) (v : ℕ → LogV) (ci : ℕ) : LogV :=
  lse N fun n => lw ci + logL (g n) + u n ci + ((-real (v n) : ℝ) : LogV)

/-- New logits of one Sum unit: `log_softmax` over the input channels, sum.py:428-431. -/
noncomputable def newLogits (Ci N : ℕ) (lw : ℕ → LogV) (g : ℕ → ℝ) (u : ℕ → ℕ → LogV) (v : ℕ → LogV) : ℕ → LogV :=
  logSoftmax Ci (logCount N lw g u v)

/-- The update of one unit produces numbers: subtracting a module value of `-inf` gives NaN
(sum.py:426), and so does `log_softmax` when every expected count is zero (sum.py:428). -/
def UnitOk (Ci N : ℕ) (lw : ℕ → LogV) (g : ℕ → ℝ) (u : ℕ → ℕ → LogV) (v : ℕ → LogV) : Prop :=
  (∀ n < N, v n ≠ ⊥) ∧ ∃ ci < Ci, logCount N lw g u v ci ≠ ⊥

/-- `self.log_weights` of unit `(f, co, r)`, sum.py:189-197. -/
noncomputable def logW (c : Circ) (θ : ℕ → ℕ → ℕ → ℕ → LogV) (f co r ci : ℕ) : LogV :=
  logSoftmax (C c) (fun i => θ f i co r) ci

/-- Gradient arriving at the input of a Sum: `logsumexp` passes `grad * exp(x - result)` to each term, and the
output-channel axis that was broadcast (sum.py:270) is summed. -/
noncomputable def sumGrad (X : ℕ → Row) (c : Circ) (Co R : ℕ) (θ : ℕ → ℕ → ℕ → ℕ → LogV) (g : Grad) : Grad :=
  fun n f ci r => ∑ co ∈ Finset.range Co, g n f co r *
    expL (featAt (den c) f (X n) r ci + logW c θ f co r ci +
      ((-real (featAt (den (sum c Co R θ)) f (X n) r co) : ℝ) : LogV))

/-- The circuit after `_expectation_maximization_step` when `g` is the gradient of the accumulated log-likelihood with
respect to the module's outputs.  All cached values are those of the old parameters. -/
noncomputable def step (X : ℕ → Row) (N : ℕ) (upd : LeafUpd) : Circ → Grad → Circ
  | leaf q Ch R d, g => leaf q Ch R (upd q Ch R d g)
  | cat1 n cs, g => cat1 n fun i => step X N upd (cs i) fun m f ch r => g m (offF cs i + f) ch r
  | cat2 n cs, g => cat2 n fun i => step X N upd (cs i) fun m f ch r => g m f (offC cs i + ch) r
  | prod c, g => prod (step X N upd c fun m _ ch r => g m 0 ch r)
  | sum c Co R θ, g => sum (step X N upd c (sumGrad X c Co R θ g)) Co R fun f ci co r =>
      newLogits (C c) N (logW c θ f co r) (fun n => g n f co r) (fun n ci => featAt (den c) f (X n) r ci)
        (fun n => featAt (den (sum c Co R θ)) f (X n) r co) ci

/-- No weight becomes NaN anywhere in the circuit. -/
def NoNaN (X : ℕ → Row) (N : ℕ) : Circ → Grad → Prop
  | leaf _ _ _ _, _ => True
  | cat1 _ cs, g => ∀ i, NoNaN X N (cs i) fun m f ch r => g m (offF cs i + f) ch r
  | cat2 _ cs, g => ∀ i, NoNaN X N (cs i) fun m f ch r => g m f (offC cs i + ch) r
  | prod c, g => NoNaN X N c fun m _ ch r => g m 0 ch r
  | sum c Co R θ, g => NoNaN X N c (sumGrad X c Co R θ g) ∧
      ∀ f < F c, ∀ co < Co, ∀ r < R,
        UnitOk (C c) N (logW c θ f co r) (fun n => g n f co r) (fun n ci => featAt (den c) f (X n) r ci)
          (fun n => featAt (den (sum c Co R θ)) f (X n) r co)

/-- Gradient of `module_lls.sum()` with respect to the root's own outputs, expectation_maximization.py:59. -/
def rootGrad : Grad := fun _ _ _ _ => 1

/-- One iteration of the loop, expectation_maximization.py:55-75. -/
noncomputable def emStep (X : ℕ → Row) (N : ℕ) (upd : LeafUpd) (c : Circ) : Circ := step X N upd c rootGrad

/-- `module_lls.sum()`, expectation_maximization.py:58-59. -/
noncomputable def accLL (X : ℕ → Row) (N T : ℕ) (c : Circ) : LogV :=
  ∑ n ∈ Finset.range N, ∑ f ∈ Finset.range (F c), ∑ ch ∈ Finset.range (C c), ∑ r ∈ Finset.range T,
    featAt (den c) f (X n) r ch

/-! ## Shared modules -/

/-- A Sum unit that is reached along `k` paths of a DAG: the recursion (module.py:363-367, sum.py:434) is not memoised,
so the update runs `k` times, each time with the *current* weights but the cached likelihoods and gradients of the
beginning of the iteration. -/
noncomputable def visits (Ci N : ℕ) (g : ℕ → ℝ) (u : ℕ → ℕ → LogV) (v : ℕ → LogV) : ℕ → (ℕ → LogV) → (ℕ → LogV)
  | 0, θ => θ
  | k + 1, θ => visits Ci N g u v k (newLogits Ci N (logSoftmax Ci θ) g u v)

end Em
end Verif

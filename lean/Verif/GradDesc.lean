import Verif.Scope
import Verif.LogSpace

/-!
# Model of spflow/learn/gradient_descent.py

The parameters of the model together with the state of optimizer and scheduler are one value `s : σ`; the loss of a batch, the
effect of `zero_grad`, `backward` and `optimizer.step`, and the effect of `scheduler.step` are arbitrary functions.  The accuracy
counters, which are only written to the debug log, are not modelled.  The callbacks are recorded as events.
-/

namespace Verif
namespace Gd

/-- A batch of a data loader: a tensor, or a tuple or list of tensors. -/
inductive Batch (X : Type) where
  | one (x : X)
  | seq (l : List X)

/-- An exception of the library, or the `UnboundLocalError` of Python for a variable without value. -/
inductive Err where
  | exc (e : Exc)
  | unbound

/-- `_extract_batch_data`, gradient_descent.py:167-196. -/
def extract {X : Type} (cls : Bool) : Batch X → Except Exc (X × Option X)
  | .one x => if cls then .error .valueError else .ok (x, none)
  | .seq l =>
    match cls, l with
    | true, [x, y] => .ok (x, some y)
    | true, _ => .error .valueError
    | false, [x] => .ok (x, none)
    | false, [x, _] => .ok (x, none)
    | false, _ => .error .valueError

/-- The calls of the callbacks: `callback_batch` in training and in validation, `callback_epoch`. -/
inductive Ev where
  | step (loss : ℝ) (n : ℕ)
  | valid (loss : ℝ) (n : ℕ)
  | epoch (losses : List ℝ) (e : ℕ)

/-- What can be observed: parameters, `model.training`, the list `metrics.train_losses`, `metrics.training_steps`, the
callbacks so far, and whether the local variable `loss` has a value. -/
structure St (σ : Type) where
  s : σ
  training : Bool
  losses : List ℝ
  steps : ℕ
  trace : List Ev
  bound : Bool

/-- The model, the loss function, the optimizer and the scheduler. -/
structure Env (σ X : Type) where
  loss : σ → X × Option X → ℝ
  update : σ → X × Option X → σ
  sched : σ → σ

variable {σ X : Type}

/-- The inner loop 361-364 with `_process_training_batch`, gradient_descent.py:199-245. -/
noncomputable def trainLoop (E : Env σ X) (cls : Bool) : List (Batch X) → St σ → St σ × Option Err
  | [], st => (st, none)
  | b :: bs, st =>
    match extract cls b with
    | .error e => (st, some (.exc e))
    | .ok d => trainLoop E cls bs ⟨E.update st.s d, st.training, st.losses ++ [E.loss st.s d], st.steps + 1,
        st.trace ++ [.step (E.loss st.s d) (st.steps + 1)], true⟩

/-- The loop of `_run_validation_epoch`, gradient_descent.py:275-291. -/
noncomputable def validLoop (E : Env σ X) (cls : Bool) : List (Batch X) → St σ → St σ × Option Err
  | [], st => (st, none)
  | b :: bs, st =>
    match extract cls b with
    | .error e => (st, some (.exc e))
    | .ok d => validLoop E cls bs { st with trace := st.trace ++ [.valid (E.loss st.s d) st.steps] }

/-- `_run_validation_epoch`, gradient_descent.py:248-294: without any batch `val_loss` has no value when it is returned. -/
noncomputable def validate (E : Env σ X) (cls : Bool) (bs : List (Batch X)) (st : St σ) : St σ × Option Err :=
  match validLoop E cls bs { st with training := false } with
  | (st', some e) => (st', some e)
  | (st', none) => ({ st' with training := true }, if bs = [] then some .unbound else none)

/-- The arguments of `train_gradient_descent` that control the loop; the loaders give the batches of every epoch. -/
structure Args (X : Type) where
  epochs : ℤ
  verbose : Bool
  cls : Bool
  isClassifier : Bool
  data : ℕ → List (Batch X)
  val : Option (ℕ → List (Batch X))

/-- The validation part of an epoch, 372-379. -/
noncomputable def valPart (E : Env σ X) (a : Args X) (e : ℕ) (st : St σ) : St σ × Option Err :=
  match a.val with
  | none => (st, none)
  | some v => if e % 10 = 0 then validate E a.cls (v e) st else (st, none)

/-- The end of an epoch, 381-387. -/
def endPart (a : Args X) (e : ℕ) (st : St σ) : St σ × Option Err :=
  ({ st with trace := st.trace ++ [.epoch st.losses e] }, if a.verbose && !st.bound then some .unbound else none)

/-- One epoch, gradient_descent.py:358-387. -/
noncomputable def epoch (E : Env σ X) (a : Args X) (e : ℕ) (st : St σ) : St σ × Option Err :=
  match trainLoop E a.cls (a.data e) { st with losses := [] } with
  | (st1, some x) => (st1, some x)
  | (st1, none) =>
    match valPart E a e { st1 with s := E.sched st1.s } with
    | (st2, some x) => (st2, some x)
    | (st2, none) => endPart a e st2

/-- The loop over the epochs `e, e + 1, …`. -/
noncomputable def loop (E : Env σ X) (a : Args X) : ℕ → ℕ → St σ → St σ × Option Err
  | 0, _, st => (st, none)
  | n + 1, e, st =>
    match epoch E a e st with
    | (st', some x) => (st', some x)
    | (st', none) => loop E a n (e + 1) st'

/-- `train_gradient_descent`, gradient_descent.py:297-387, on a model in mode `training`. -/
noncomputable def train (E : Env σ X) (a : Args X) (s : σ) (training : Bool) : St σ × Option Err :=
  if a.epochs ≤ 0 then (⟨s, training, [], 0, [], false⟩, some (.exc .valueError))
  else if a.cls && !a.isClassifier then (⟨s, training, [], 0, [], false⟩, some (.exc .invalidType))
  else loop E a a.epochs.toNat 0 ⟨s, true, [], 0, [], false⟩

/-! ## Learning rate and losses -/

/-- The milestones of the default scheduler, gradient_descent.py:347-350; `int` truncates. -/
noncomputable def milestones (epochs : ℕ) : List ℕ := [⌊(epochs : ℝ) * 0.5⌋₊, ⌊(epochs : ℝ) * 0.75⌋₊]

/-- The learning rate in epoch `e` under `torch.optim.lr_scheduler.MultiStepLR(gamma=0.1)`: the constructor already makes the step
to epoch 0, and the step to epoch `e` multiplies by `gamma ** milestones.count(e)`. -/
noncomputable def rate (ms : List ℕ) (lr : ℝ) : ℕ → ℝ
  | 0 => lr * 0.1 ^ ms.count 0
  | e + 1 => rate ms lr e * 0.1 ^ ms.count (e + 1)

/-- `tensor.mean()` of a non-empty tensor. -/
noncomputable def mean (l : List ℝ) : ℝ := l.sum / l.length

/-- `negative_log_likelihood_loss`, gradient_descent.py:104-114, from the entries of the log-likelihood. -/
noncomputable def nllLoss (ll : List ℝ) : ℝ := -1 * mean ll

/-- `classification_loss`, gradient_descent.py:117-134 (`NLLLoss`: the mean of the negated entries of the target classes), from the rows
of log-probabilities with their targets. -/
noncomputable def clsLoss (rows : List ((ℕ → ℝ) × ℕ)) : ℝ := mean (rows.map fun p => -(p.1 p.2))

/-- The loss of a classification batch, gradient_descent.py:229-231, 280-282. -/
noncomputable def batchLoss (w : ℝ) (rows : List ((ℕ → ℝ) × ℕ)) (ll : List ℝ) : ℝ := clsLoss rows + w * -(mean ll)

end Gd
end Verif

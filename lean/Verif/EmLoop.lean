/-
Model of `spflow.learn.expectation_maximization` (C29): the EM drivers.
-/
namespace Verif.EmLoop

/-- `S` is the parameter state of the module, `F` the type of average log-likelihoods with the
comparison `<=` of floats (false when a NaN is involved), `E` exceptions. -/
structure Em (S F E : Type) where
  /-- average log-likelihood of the data under the current parameters (lines 55-57) -/
  avg : S → F
  /-- backward pass and `_expectation_maximization_step` (lines 64-72) -/
  step : S → Except E S
  le : F → F → Bool
  negInf : F

variable {S F E : Type}

/-- The `for` loop of `expectation_maximization` (expectation_maximization.py:51-80): `n` iterations
are left, `prev` is `prev_avg_ll`, `hist` the reversed `ll_history`. The step is executed before the
convergence test. -/
def loop (m : Em S F E) : Nat → F → S → List F → Except E (List F × S)
  | 0, _, s, hist => .ok (hist.reverse, s)
  | n + 1, prev, s, hist =>
    let a := m.avg s
    match m.step s with
    | .error e => .error e
    | .ok s' =>
      if m.le a prev then .ok ((a :: hist).reverse, s') else loop m n a s' (a :: hist)

/-- The number of loop iterations allowed: `range(max_steps)` after replacing -1 by 2^64-1
(lines 48-51); negative values give an empty range. -/
def maxIters (maxSteps : Int) : Nat := if maxSteps = -1 then 2 ^ 64 - 1 else maxSteps.toNat

inductive Exc (E : Type) where
  /-- `torch.stack` of an empty list (line 82) -/
  | stackEmpty
  | inner (e : E)
deriving DecidableEq, Repr

/-- `expectation_maximization` (expectation_maximization.py:28-82): the returned history and the
parameters the module is left with. -/
def em (m : Em S F E) (maxSteps : Int) (s : S) : Except (Exc E) (List F × S) :=
  match loop m (maxIters maxSteps) m.negInf s [] with
  | .error e => .error (.inner e)
  | .ok (h, s') => if h.isEmpty then .error .stackEmpty else .ok (h, s')

/-! ### Mini-batches -/

/-- One pass over the dataloader (expectation_maximization.py:108-131): `acc` is `epoch_ll`
(`none` before the first batch), `cnt` is `num_samples`. Exceptions of the steps are not modelled
here. -/
def epoch {B : Type} [Add F] [Zero F] (ll : B → S → F) (size : B → Nat) (step : B → S → S) :
    List B → S → Option F → Nat → S × Option F × Nat
  | [], s, acc, cnt => (s, acc, cnt)
  | b :: bs, s, acc, cnt =>
    epoch ll size step bs (step b s) (some ((acc.getD 0) + ll b s)) (cnt + size b)

/-- `expectation_maximization_batched` without the final `torch.stack`
(expectation_maximization.py:105-144): `n` epochs are left; `mean` divides the accumulated value by
the number of rows, `nan` is reported for an empty dataloader. -/
def batched {B : Type} [Add F] [Zero F] (ll : B → S → F) (size : B → Nat) (step : B → S → S)
    (mean : F → Nat → F) (nan : F) (bs : List B) : Nat → S → List F → List F × S
  | 0, s, hist => (hist.reverse, s)
  | n + 1, s, hist =>
    match epoch ll size step bs s none 0 with
    | (s', none, _) => batched ll size step mean nan bs n s' (nan :: hist)
    | (s', some a, cnt) =>
      batched ll size step mean nan bs n s' ((if cnt = 0 then nan else mean a cnt) :: hist)

end Verif.EmLoop

import Verif.Circuit
/-
Model of `spflow.modules.sums.repetition_mixing_layer.RepetitionMixingLayer` (C44, C51).
-/
namespace Verif.RepMix

/-- A three-dimensional weight tensor (features, channels, repetitions). -/
structure W3 where
  Fw : ℕ
  Co : ℕ
  R : ℕ
  val : ℕ → ℕ → ℕ → ℝ

/-- The layer: input shape and logits of shape (features, channels, repetitions). -/
structure Layer where
  F : ℕ
  Co : ℕ
  R : ℕ
  logits : ℕ → ℕ → ℕ → LogV

/-- `torch.allclose(torch.sum(values, dim=self.sum_dim), 1.0)`, sum.py:220. -/
def SumsToOne (sumDim F Co R : ℕ) (w : W3) : Prop :=
  if sumDim = 1
  then ∀ f < F, ∀ r < R, Circ.CloseToOne (∑ c ∈ Finset.range Co, w.val f c r)
  else ∀ f < F, ∀ c < Co, Circ.CloseToOne (∑ r ∈ Finset.range R, w.val f c r)

/-- The `weights` setter inherited from `Sum` (sum.py:209-222) for a weight tensor of three
dimensions; `sumDim` is the current value of `self.sum_dim`: 1 sums over channels, 2 over
repetitions. -/
noncomputable def setW (sumDim : ℕ) (F Co R : ℕ) (w : W3) : Except Exc (ℕ → ℕ → ℕ → LogV) :=
  open Classical in
  if ¬ (w.Fw = F ∧ w.Co = Co ∧ w.R = R) then .error .shapeError
  else if ¬ (∀ f < F, ∀ c < Co, ∀ r < R, 0 < w.val f c r) then .error .invalidWeights
  else if ¬ SumsToOne sumDim F Co R w then .error .invalidWeights
  else .ok fun f c r => logL (w.val f c r)

/-- `RepetitionMixingLayer(inputs, weights=w)` (repetition_mixing_layer.py:24-45): `Sum.__init__`
runs with `sum_dim = 1` (sum.py:108), only afterwards is `sum_dim = 2` set; then the channel counts
are compared. `F`, `C` are the features and channels of the input module. -/
noncomputable def mk (F C : ℕ) (w : W3) : Except Exc Layer := do
  if w.Co < 1 then throw .valueError
  let θ ← setW 1 F w.Co w.R w
  if w.Co ≠ C then throw .valueError
  return ⟨F, w.Co, w.R, θ⟩

/-- Assigning `layer.weights = w` after construction: the setter now runs with `sum_dim = 2`. -/
noncomputable def assign (l : Layer) (w : W3) : Except Exc Layer := do
  let θ ← setW 2 l.F l.Co l.R w
  return { l with logits := θ }

/-- The `weights` getter (sum.py:199-207) with `sum_dim = 2`. -/
noncomputable def Layer.weights (l : Layer) (f c r : ℕ) : ℝ := softmax l.R (fun r => l.logits f c r) r

/-- `log_likelihood` (repetition_mixing_layer.py:162-195): the repetition axis is mixed out. -/
noncomputable def Layer.ll (l : Layer) (x : ℕ → ℕ → ℕ → LogV) (f c : ℕ) : LogV :=
  lse l.R fun r => x f c r + logSoftmax l.R (fun r => l.logits f c r) r

/-- The logits of the categorical from which `_sample` draws the repetition when nothing is cached
(repetition_mixing_layer.py:121-146): the logits are summed over the *channel* axis, whatever
channel was requested. Feature width must be 1. -/
noncomputable def Layer.repLogits (l : Layer) (r : ℕ) : LogV :=
  ∑ c ∈ Finset.range l.Co, l.logits 0 c r

/-- Probability that `_sample` draws repetition `r` (`sample_from_logits` normalises with a
softmax, sampling_context.py:1147-). -/
noncomputable def Layer.repProb (l : Layer) (r : ℕ) : ℝ := softmax l.R l.repLogits r

end Verif.RepMix

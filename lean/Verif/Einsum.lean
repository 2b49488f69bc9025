import Verif.Circuit
import Verif.Splits

/-!
# Model of EinsumLayer and LinsumLayer

spflow/modules/einsum/einsum_layer.py and linsum_layer.py.  Everything is per row, output feature,
output channel and repetition (the tensor axes `n d o r` are carried along pointwise by every einsum
of the code).  NaN is `none`.
-/

namespace Verif
namespace Einsum

/-- `torch.exp(ll - ll.amax(dim=2))` for the channels `0 .. n-1` of one input, einsum_layer.py:372-376.
If every channel is `-inf` the difference is `-inf - (-inf)`, i.e. NaN; `amax` raises for `n = 0`, which
no module has. -/
noncomputable def shifted (n : ℕ) (ll : ℕ → LogV) (i : ℕ) : Option ℝ :=
  match (Finset.range n).sup ll with
  | none => none
  | some m => some (expL (ll i + ((-m : ℝ) : LogV)))

/-- Sum of products with NaN absorbing: one output entry of `torch.einsum`. -/
noncomputable def nanSum : List (Option ℝ) → Option ℝ
  | [] => some 0
  | none :: _ => none
  | some x :: rest => (nanSum rest).map (x + ·)

/-- IEEE product, NaN absorbing. -/
noncomputable def nanMul : Option ℝ → Option ℝ → Option ℝ
  | some x, some y => some (x * y)
  | _, _ => none

/-- The three contraction schedules of `_contract_probabilities`, einsum_layer.py:347-362. -/
inductive Path | dense | leftFirst | rightFirst
  deriving DecidableEq

/-- `_use_factored_probability_contraction` and the branch on the channel counts,
einsum_layer.py:331-345, 354-362; `cuda` is `device.type == "cuda"`, `O` the number of output channels. -/
def choosePath (cuda : Bool) (O I J : ℕ) : Path :=
  if (if cuda then 128 ≤ I * J else 256 ≤ I * J ∧ O < min I J) then
    if J ≤ I then .leftFirst else .rightFirst
  else .dense

/-- `_contract_probabilities`, einsum_layer.py:354-362. -/
noncomputable def contract (p : Path) (I J : ℕ) (l r : ℕ → Option ℝ) (w : ℕ → ℕ → ℝ) : Option ℝ :=
  match p with
  | .dense => nanSum ((List.range I).flatMap fun i => (List.range J).map fun j =>
      nanMul (nanMul (l i) (r j)) (some (w i j)))
  | .leftFirst => nanSum ((List.range J).map fun j => nanMul (r j)
      (nanSum ((List.range I).map fun i => nanMul (l i) (some (w i j)))))
  | .rightFirst => nanSum ((List.range I).map fun i => nanMul (l i)
      (nanSum ((List.range J).map fun j => nanMul (r j) (some (w i j)))))

/-- `_log_likelihood_from_inputs`, einsum_layer.py:364-380. -/
noncomputable def logLik (p : Path) (I J : ℕ) (left right : ℕ → LogV) (w : ℕ → ℕ → ℝ) : Option LogV :=
  (contract p I J (shifted I left) (shifted J right) w).map fun prob =>
    logL prob + (Finset.range I).sup left + (Finset.range J).sup right

/-- `_normalized_weights`: softmax over the flattened `(i, j)`, einsum_layer.py:309-312. -/
noncomputable def weights (I J : ℕ) (logits : ℕ → ℕ → LogV) (i j : ℕ) : ℝ :=
  softmax (I * J) (fun k => logits (k / J) (k % J)) (i * J + j)

/-- The checks of the `weights` setter for one `(f, o, r)`, and the stored logits, einsum_layer.py:250-268
(shape check omitted: a tensor of the right shape is given). -/
noncomputable def setWeights (I J : ℕ) (w : ℕ → ℕ → ℝ) : Except Exc (ℕ → ℕ → LogV) :=
  open Classical in
  if ¬ (∀ i < I, ∀ j < J, 0 < w i j) then .error .invalidWeights
  else if ¬ Circ.CloseToOne (∑ i ∈ Finset.range I, ∑ j ∈ Finset.range J, w i j) then .error .invalidWeights
  else .ok fun i j => logL (w i j)

/-- The logits the sampler draws from: raw logits, plus the children's log-likelihoods minus their
logsumexp when a likelihood cache is there, einsum_layer.py:481-536.  `Categorical(logits=…)` then
normalises them.  NaN (`none`) if every pair is `-inf`. -/
noncomputable def samplerLogits (I J : ℕ) (logits : ℕ → ℕ → LogV) (ev : Option ((ℕ → LogV) × (ℕ → LogV)))
    (k : ℕ) : Option LogV :=
  match ev with
  | none => some (logits (k / J) (k % J))
  | some (left, right) =>
    let post := fun k => logits (k / J) (k % J) + (left (k / J) + right (k % J))
    match lse (I * J) post with
    | none => none
    | some l => some (post k + ((-l : ℝ) : LogV))

/-- `unraveled_channel_indices[k]`, einsum_layer.py:171-177, 553-555. -/
def unravel (I J : ℕ) (k : ℕ) : Option (ℕ × ℕ) :=
  ((List.range I).flatMap fun i => (List.range J).map fun j => (i, j))[k]?

/-! ## Single input: the features of a split -/

/-- The mask handed to the split: `repeat "b f -> b (f two)"`, einsum_layer.py:569, linsum_layer.py:437. -/
def fullMask (mask : List Bool) : List Bool := mask.flatMap fun m => [m, m]

/-- The scopes joined into `feature_to_scope[f]`: input features `2f` and `2f+1`, einsum_layer.py:226-236,
linsum_layer.py:193-203. -/
def reportedPair {α : Type} (scopes : List α) (f : ℕ) : List α := [scopes[2 * f]?, scopes[2 * f + 1]?].filterMap id

/-! ## The evaluation-mode weight cache -/

/-- The part of an EinsumLayer that matters for `_normalized_weights`: the logits (as a value of any
type), the version counter of the parameter and the cached entry, einsum_layer.py:203-204. -/
structure CacheState (L W : Type) where
  logits : L
  version : ℕ
  entry : Option (ℕ × W)

/-- What can happen to the layer. `setter` is assignment through `weights =` or `log_weights =`
(einsum_layer.py:250-277: `logits.data =` keeps the version counter, then the cache is cleared);
`inplace` is an in-place update of the parameter that torch counts (optimizer step, `load_state_dict`,
`copy_`); `read` is `_normalized_weights()` in eval mode without grad, `readTrain` in any other mode;
`rawData` is `layer.logits.data = v` from outside, which torch does not count. -/
inductive Op (L : Type) where
  | setter (v : L)
  | inplace (v : L)
  | read
  | readTrain
  | rawData (v : L)

variable {L W : Type}

/-- One step and what it returns, einsum_layer.py:302-329 for the reads (device and dtype are fixed). -/
def stepCache (norm : L → W) (s : CacheState L W) : Op L → CacheState L W × Option W
  | .setter v => ({ s with logits := v, entry := none }, none)
  | .inplace v => ({ s with logits := v, version := s.version + 1 }, none)
  | .readTrain => (s, some (norm s.logits))
  | .read =>
    match s.entry with
    | some (ver, w) => if ver = s.version then (s, some w)
        else ({ s with entry := some (s.version, norm s.logits) }, some (norm s.logits))
    | none => ({ s with entry := some (s.version, norm s.logits) }, some (norm s.logits))
  | .rawData v => ({ s with logits := v }, none)

/-- The state after a sequence of operations on a fresh layer (einsum_layer.py:203-207). -/
def runCache (norm : L → W) (s : CacheState L W) : List (Op L) → CacheState L W
  | [] => s
  | o :: os => runCache norm (stepCache norm s o).1 os

/-! ## LinsumLayer -/

/-- `LinsumLayer.log_likelihood`: logsumexp over the channels of `left + right + log_softmax(logits)`,
linsum_layer.py:272-296. -/
noncomputable def linsumLL (C : ℕ) (left right logits : ℕ → LogV) : LogV :=
  lse C fun c => (left c + right c) + logSoftmax C logits c

/-- `LinsumLayer.weights`, linsum_layer.py:210-213. -/
noncomputable def linsumWeights (C : ℕ) (logits : ℕ → LogV) (c : ℕ) : ℝ := softmax C logits c

/-- `EinsumLayer.marginalize` / `LinsumLayer.marginalize` for two inputs when both sides survive: a new layer is
built *without* a `weights` argument (einsum_layer.py:679-683, linsum_layer.py:539-543), so the constructor draws
`weights = rand/sum` (einsum_layer.py:193-196).  `rnd` is the drawn table; the old logits are not used. -/
noncomputable def marginalizedWeights (_old rnd : ℕ → ℕ → ℝ) (I J : ℕ) (i j : ℕ) : ℝ :=
  (rnd i j + 1 / 10 ^ 8) / ∑ i ∈ Finset.range I, ∑ j ∈ Finset.range J, (rnd i j + 1 / 10 ^ 8)

end Einsum
end Verif

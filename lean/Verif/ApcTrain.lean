import Verif.Apc

/-!
# The APC objective and the training loop (model for C74)

Sources: `spflow/zoo/apc/config.py`, `spflow/zoo/apc/model.py`, `spflow/zoo/apc/train.py`. The random numbers of a row are part of
the row, so the encoder acts row by row. `none` stands for NaN, which arises from dividing by an empty batch.
-/

namespace Verif.Apc

/-- `ApcLossWeights`, config.py:11-32. -/
structure LossWeights where
  recon : ℝ
  kld : ℝ
  nll : ℝ

/-- `ApcLossWeights.__post_init__`, config.py:26-32. -/
noncomputable def LossWeights.check (w : LossWeights) : Except Exc LossWeights :=
  open Classical in if w.recon < 0 ∨ w.kld < 0 ∨ w.nll < 0 then .error .invalidParameter else .ok w

/-- `rec_loss`. -/
inductive RecLoss | mse | bce | other
deriving DecidableEq

/-- The parts of `ApcConfig` used by the loss, config.py:35-59. -/
structure Cfg where
  loss : RecLoss
  decodeMpe : Bool
  joint : Bool
  w : LossWeights

/-- What the encoder and the decoder return for one row `x`: the latents, the divergence and the latent that is decoded with
`train_decode_mpe`, the reconstruction from a latent, and the two log-likelihoods. `stats` is `none` for an encoder that does not
support `return_latent_stats`. -/
structure Enc (X Z : Type) where
  flat : X → List ℝ
  encode : X → Z
  encodeStats : X → Option (ℝ × Z × Z)
  decode : Z → List ℝ
  jointLL : X → Z → ℝ
  margLL : X → ℝ

/-- `F.mse_loss(..., reduction="sum")` and `F.binary_cross_entropy` of one row, model.py:122-126; torch bounds the logarithms by -100. -/
noncomputable def rowLoss (l : RecLoss) (x r : List ℝ) : ℝ :=
  match l with
  | .mse => ((x.zip r).map fun p => (p.2 - p.1) ^ 2).sum
  | _ => ((x.zip r).map fun p => -(p.1 * max (Real.log p.2) (-100) + (1 - p.1) * max (Real.log (1 - p.2)) (-100))).sum

/-- The mean over a batch: NaN for the empty batch. -/
noncomputable def meanOf {α : Type} (g : α → ℝ) (xs : List α) : Option ℝ :=
  if xs.length = 0 then none else some ((xs.map g).sum / xs.length)

/-- `_reconstruction_loss`, model.py:105-127, of a batch with the reconstruction `r x` of each row. -/
noncomputable def recLoss {X : Type} (l : RecLoss) (flat r : X → List ℝ) (xs : List X) : Except Exc (Option ℝ) :=
  if xs.any fun x => (flat x).length ≠ (r x).length then .error .invalidParameter
  else if l = .other then .error .invalidParameter
  else .ok (meanOf (fun x => rowLoss l (flat x) (r x)) xs)

/-- The four scalars of `loss_components`. -/
structure Metrics where
  recon : Option ℝ
  kld : Option ℝ
  nll : Option ℝ
  total : Option ℝ

/-- `a * x` with NaN. -/
noncomputable def nmul (a : ℝ) (x : Option ℝ) : Option ℝ := x.map fun x => a * x

/-- `x + y` with NaN. -/
noncomputable def nadd (x y : Option ℝ) : Option ℝ := x.bind fun x => y.map fun y => x + y

/-- The statistics of a batch: unavailable as soon as they are for a row (`encode(return_latent_stats=True)`, model.py:186-204). -/
def statsBatch {X Z : Type} (E : Enc X Z) (xs : List X) : Except Exc (X → ℝ × Z × Z) :=
  if xs.all fun x => (E.encodeStats x).isSome then
    .ok fun x => (E.encodeStats x).getD (0, E.encode x, E.encode x)
  else .error .unsupported

open Classical in
/-- Latents and statistics, model.py:186-211; without statistics the divergence is not used. -/
noncomputable def stPart {X Z : Type} (c : Cfg) (E : Enc X Z) (xs : List X) : Except Exc (X → ℝ × Z × Z) :=
  if 0 < c.w.kld ∨ c.decodeMpe = true then statsBatch E xs else .ok fun x => (0, E.encode x, E.encode x)

open Classical in
/-- The reconstruction term, model.py:213-233. -/
noncomputable def recPart {X Z : Type} (c : Cfg) (E : Enc X Z) (st : X → ℝ × Z × Z) (xs : List X) : Except Exc (Option ℝ) :=
  if 0 < c.w.recon then recLoss c.loss E.flat (fun x => E.decode (if c.decodeMpe then (st x).2.2 else (st x).2.1)) xs
  else .ok (some 0)

open Classical in
/-- The likelihood term, model.py:235-243. -/
noncomputable def nllPart {X Z : Type} (c : Cfg) (E : Enc X Z) (st : X → ℝ × Z × Z) (xs : List X) : Option ℝ :=
  if 0 < c.w.nll then meanOf (fun x => -(if c.joint then E.jointLL x (st x).2.1 else E.margLL x)) xs else some 0

open Classical in
/-- The divergence term, model.py:245-253. -/
noncomputable def kldPart {X Z : Type} (c : Cfg) (st : X → ℝ × Z × Z) (xs : List X) : Option ℝ :=
  if 0 < c.w.kld then meanOf (fun x => (st x).1) xs else some 0

/-- `AutoencodingPC.loss_components`, model.py:166-260. -/
noncomputable def components {X Z : Type} (c : Cfg) (E : Enc X Z) (xs : List X) : Except Exc Metrics :=
  match stPart c E xs with
  | .error e => .error e
  | .ok st => match recPart c E st xs with
    | .error e => .error e
    | .ok r => .ok ⟨r, kldPart c st xs, nllPart c E st xs,
        nadd (nadd (nmul c.w.recon r) (nmul c.w.kld (kldPart c st xs))) (nmul c.w.nll (nllPart c E st xs))⟩

/-! ### Training loop -/

/-- Entry-wise sums and multiples of the metrics, train.py:115-117. -/
noncomputable def Metrics.addMul (t : Metrics) (n : ℕ) (m : Metrics) : Metrics :=
  ⟨nadd t.recon (nmul n m.recon), nadd t.kld (nmul n m.kld), nadd t.nll (nmul n m.nll), nadd t.total (nmul n m.total)⟩

/-- `{key: value / n_samples}`, train.py:125. -/
noncomputable def Metrics.scale (t : Metrics) (n : ℕ) : Metrics :=
  ⟨nmul (1 / n) t.recon, nmul (1 / n) t.kld, nmul (1 / n) t.nll, nmul (1 / n) t.total⟩

/-- `totals`, train.py:102. -/
def Metrics.zero : Metrics := ⟨some 0, some 0, some 0, some 0⟩

/-- The loop of `evaluate_apc`, train.py:106-117, over batches; `loss` is `model.loss_components`. -/
noncomputable def evalLoop {X : Type} (loss : List X → Except Exc Metrics) : List (List X) → Metrics × ℕ → Except Exc (Metrics × ℕ)
  | [], s => .ok s
  | b :: bs, s => match loss b with
    | .error e => .error e
    | .ok m => evalLoop loss bs (s.1.addMul b.length m, s.2 + b.length)

/-- `evaluate_apc`, train.py:82-125: the means, and whether the model is in training mode afterwards (`training`: before). -/
noncomputable def evaluate {X : Type} (loss : List X → Except Exc Metrics) (training : Bool) (bs : List (List X)) :
    Except Exc Metrics × Bool :=
  match evalLoop loss bs (Metrics.zero, 0) with
  | .error e => (.error e, false)
  | .ok (t, n) => (if n = 0 then .error .invalidParameter else .ok (t.scale n), training)

/-- The batches of a tensor of rows without shuffling: `DataLoader(TensorDataset(data), batch_size)`, train.py:44-49. -/
def chunks {X : Type} (size : ℕ) : ℕ → List X → List (List X)
  | 0, _ => []
  | k + 1, xs => if xs.isEmpty then [] else xs.take size :: chunks size k (xs.drop size)

/-- See `chunks`: at most as many batches as rows (`batch_size` is at least one). -/
def loader {X : Type} (size : ℕ) (xs : List X) : List (List X) := chunks size xs.length xs

/-- A data argument: a tensor, an iterable that can be read again, or a one-shot iterator (a generator). -/
inductive Source (X : Type)
  | tensor (xs : List X)
  | iterable (bs : List (List X))
  | generator (bs : List (List X))

/-- What is read in epoch `e` (from 0): a tensor is shuffled by `perm e` when `shuffle`; an exhausted generator gives nothing. -/
def Source.batches {X : Type} (size : ℕ) (perm : ℕ → List X → List X) (e : ℕ) : Source X → List (List X)
  | .tensor xs => loader size (perm e xs)
  | .iterable bs => bs
  | .generator bs => if e = 0 then bs else []

/-- The loop over the training batches of one epoch, train.py:164-177; the parameters are `σ`, `step` is one optimiser step. -/
noncomputable def trainLoop {X σ : Type} (loss : σ → List X → Except Exc Metrics) (step : σ → List X → σ) :
    List (List X) → σ × Metrics × ℕ → Except Exc (σ × Metrics × ℕ)
  | [], s => .ok s
  | b :: bs, s => match loss s.1 b with
    | .error e => .error e
    | .ok m => trainLoop loss step bs (step s.1 b, s.2.1.addMul b.length m, s.2.2 + b.length)

/-- One row of the history. -/
structure Entry where
  epoch : ℕ
  train : Metrics
  val : Option Metrics

/-- The validation part of an epoch, train.py:185-187. -/
noncomputable def valPart {X σ : Type} (loss : σ → List X → Except Exc Metrics) (size : ℕ) (val : Option (Source X)) (e : ℕ) (p : σ) :
    Except Exc (Option Metrics) :=
  match val with
  | none => .ok none
  | some v => match (evaluate (loss p) true (v.batches size (fun _ xs => xs) e)).1 with
    | .error err => .error err
    | .ok m => .ok (some m)

/-- Epochs `e, …, e + k - 1` of `fit_apc`, train.py:160-191. -/
noncomputable def fitFrom {X σ : Type} (loss : σ → List X → Except Exc Metrics) (step : σ → List X → σ) (size : ℕ)
    (perm : ℕ → List X → List X) (train : Source X) (val : Option (Source X)) : ℕ → ℕ → σ → Except Exc (σ × List Entry)
  | _, 0, p => .ok (p, [])
  | e, k + 1, p => match trainLoop loss step (train.batches size perm e) (p, Metrics.zero, 0) with
    | .error err => .error err
    | .ok (p', t, n) =>
      if n = 0 then .error .invalidParameter
      else match valPart loss size val e p' with
        | .error err => .error err
        | .ok v => match fitFrom loss step size perm train val (e + 1) k p' with
          | .error err => .error err
          | .ok (q, hist) => .ok (q, ⟨e + 1, t.scale n, v⟩ :: hist)

/-- `fit_apc`, train.py:128-193, for `epochs` epochs (`ApcTrainConfig` requires at least one, config.py:77-78). -/
noncomputable def fit {X σ : Type} (loss : σ → List X → Except Exc Metrics) (step : σ → List X → σ) (size : ℕ)
    (perm : ℕ → List X → List X) (train : Source X) (val : Option (Source X)) (epochs : ℕ) (p : σ) : Except Exc (σ × List Entry) :=
  fitFrom loss step size perm train val 0 epochs p

end Verif.Apc

import Verif.SimpleLeaves
import Verif.LeafFit

/-!
# Autoencoding probabilistic circuits: latent statistics, loss, evaluation and training (model for C74)

Sources: `spflow/modules/leaves/leaf.py` (recording routed leaf parameters), `spflow/zoo/apc/encoders/latent_stats.py`,
`spflow/zoo/apc/config.py`, `spflow/zoo/apc/model.py`, `spflow/zoo/apc/train.py`. Arithmetic is real arithmetic; `eps` is
`torch.finfo(dtype).eps`.
-/

namespace Verif.Apc

open Finset

/-- A tensor of rank at most 4: its shape and its entries (unused indices are ignored). -/
structure Tens where
  shape : List ℕ
  at4 : ℕ → ℕ → ℕ → ℕ → ℝ

/-- The parameters of a leaf or of a record, by key (`params()` of the leaves; leaf.py:972-976 adds `log_scale`). -/
structure Params where
  loc : Option Tens := none
  scale : Option Tens := none
  logScale : Option Tens := none
  logits : Option Tens := none
  probs : Option Tens := none
  count : Option Tens := none

/-! ### Recording the parameters of the component that a leaf sampled from -/

/-- A parameter tensor with rows, features, channels, repetitions and, if `tail`, one more axis: `_normalize_param_tensor_for_routing`. -/
structure Routed where
  tail : Option ℕ
  val : ℕ → ℕ → ℕ → ℕ → ℕ → ℝ

/-- `_normalize_param_tensor_for_routing`, leaf.py:803-852, for tensors of rank 3 and 4, with `n` active rows and `out_shape` F, C, R. -/
def normalize (n F C R : ℕ) (t : Tens) : Except Exc Routed :=
  match t.shape with
  | [a, b, c] =>
    if a ≠ F then .error .shapeError
    else if b ≠ 1 ∧ b ≠ C then .error .shapeError
    else if c ≠ 1 ∧ c ≠ R then .error .shapeError
    else .ok ⟨none, fun _ f ch r _ => t.at4 f (if b = 1 then 0 else ch) (if c = 1 then 0 else r) 0⟩
  | [a, b, c, d] =>
    if a = n ∧ b = F then
      if c ≠ 1 ∧ c ≠ C then .error .shapeError
      else if d ≠ 1 ∧ d ≠ R then .error .shapeError
      else .ok ⟨none, fun i f ch r _ => t.at4 i f (if c = 1 then 0 else ch) (if d = 1 then 0 else r)⟩
    else if a ≠ F then .error .shapeError
    else if b ≠ 1 ∧ b ≠ C then .error .shapeError
    else if c ≠ 1 ∧ c ≠ R then .error .shapeError
    else .ok ⟨some d, fun _ f ch r k => t.at4 f (if b = 1 then 0 else ch) (if c = 1 then 0 else r) k⟩
  | _ => .error .shapeError

/-- One entry of `_collect_leaf_param_record`, leaf.py:980-1000, when all `B` rows are active: repetition `rep b` and channel
`ch b f` are selected (854-949; the one-hot decisions of C73 are given by their index). -/
def select (B F C R : ℕ) (ch : ℕ → ℕ → ℕ) (rep : ℕ → ℕ) (t : Tens) : Except Exc Tens :=
  match normalize B F C R t with
  | .error e => .error e
  | .ok p => .ok ⟨match p.tail with | none => [B, F] | some d => [B, F, d], fun b f k _ => p.val b f (ch b f) (rep b) k⟩

/-- `select` for a key that may be absent. -/
def selectOpt (B F C R : ℕ) (ch : ℕ → ℕ → ℕ) (rep : ℕ → ℕ) : Option Tens → Except Exc (Option Tens)
  | none => .ok none
  | some t => match select B F C R ch rep t with
    | .error e => .error e
    | .ok s => .ok (some s)

/-- `_collect_leaf_param_record`, leaf.py:951-1009: the routed parameters. -/
def collect (B F C R : ℕ) (ch : ℕ → ℕ → ℕ) (rep : ℕ → ℕ) (p : Params) : Except Exc Params := do
  let loc ← selectOpt B F C R ch rep p.loc
  let scale ← selectOpt B F C R ch rep p.scale
  let logScale ← selectOpt B F C R ch rep p.logScale
  let logits ← selectOpt B F C R ch rep p.logits
  let probs ← selectOpt B F C R ch rep p.probs
  let count ← selectOpt B F C R ch rep p.count
  pure ⟨loc, scale, logScale, logits, probs, count⟩

/-- `LeafParamRecord`, sampling_context.py: the leaf, its columns, the mask of the sampled cells with its shape, and the routed
parameters. -/
structure Rec where
  leafId : ℕ
  cols : List ℕ
  maskShape : List ℕ
  mask : ℕ → ℕ → Bool
  params : Params

/-- Does `_validate_record_for_latents` (latent_stats.py:42-54) see an active mask? -/
def allActive (r : Rec) (B D : ℕ) : Bool := (List.range B).all fun b => (List.range D).all fun j => r.mask b j

/-- `find_unique_latent_record`, latent_stats.py:57-80, with `_validate_record_for_latents`. -/
def findRecord (rs : List Rec) (leafId : ℕ) (cols : List ℕ) (B D : ℕ) : Except Exc Rec :=
  match (rs.filter fun r => r.leafId = leafId).filter fun r => r.cols = cols with
  | [r] =>
    if r.maskShape.length ≠ 2 then .error .shapeError
    else if r.maskShape ≠ [B, D] then .error .shapeError
    else if allActive r B D then .ok r else .error .unsupported
  | _ => .error .shapeError

/-! ### Latent statistics -/

/-- The leaf types that are told apart. -/
inductive Kind | normal | bernoulli | binomial | categorical | other
deriving DecidableEq

/-- `LatentStats`, encoders/base.py:11-26. -/
structure Stats where
  mu : ℕ → ℕ → ℝ
  logvar : ℕ → ℕ → ℝ
  kld : ℕ → ℝ
  decode : ℕ → ℕ → ℝ

/-- `_expect_matrix`, latent_stats.py:17-22. -/
def expectMatrix (B D : ℕ) (t : Tens) : Except Exc (ℕ → ℕ → ℝ) :=
  if t.shape = [B, D] then .ok fun b j => t.at4 b j 0 0 else .error .shapeError

/-- `torch.clamp`. -/
noncomputable def clamp (lo hi x : ℝ) : ℝ := min (max x lo) hi

/-- `_probs_from_logits_or_probs`, latent_stats.py:25-39. -/
noncomputable def probsOf (B D : ℕ) (p : Params) : Except Exc (ℕ → ℕ → ℝ) :=
  match p.logits, p.probs with
  | some t, _ => match expectMatrix B D t with
    | .error e => .error e
    | .ok l => .ok fun b j => Real.sigmoid (l b j)
  | none, some t => expectMatrix B D t
  | none, none => .error .unsupported

/-- The values of the Normal branch, latent_stats.py:95-114, from means and log-variances. -/
noncomputable def normalOf (D : ℕ) (mu s2 logvar : ℕ → ℕ → ℝ) : Stats :=
  ⟨mu, logvar, fun b => 1 / 2 * ∑ j ∈ range D, (mu b j ^ 2 + s2 b j - 1 - logvar b j), mu⟩

/-- Normal, latent_stats.py:91-114. -/
noncomputable def normalStats (eps : ℝ) (B D : ℕ) (p : Params) : Except Exc Stats :=
  match p.loc with
  | none => .error .unsupported
  | some t => match expectMatrix B D t with
    | .error e => .error e
    | .ok mu => match p.logScale, p.scale with
      | some t, _ => match expectMatrix B D t with
        | .error e => .error e
        | .ok ls => .ok (normalOf D mu (fun b j => Real.exp (2 * ls b j)) fun b j => 2 * ls b j)
      | none, some t => match expectMatrix B D t with
        | .error e => .error e
        | .ok sc => .ok (normalOf D mu (fun b j => max (sc b j ^ 2) eps) fun b j => Real.log (max (sc b j ^ 2) eps))
      | none, none => .error .unsupported

/-- The divergence of one dimension, latent_stats.py:125-127 and 159-160. -/
noncomputable def bernKl (p q : ℝ) : ℝ := p * (Real.log p - Real.log (1 / 2)) + q * (Real.log q - Real.log (1 / 2))

/-- The values of the Bernoulli branch, latent_stats.py:123-135, from the success probabilities. -/
noncomputable def bernOf (eps : ℝ) (D : ℕ) (q : ℕ → ℕ → ℝ) : Stats :=
  let pc := fun b j => clamp eps (1 - eps) (q b j)
  let qc := fun b j => clamp eps (1 - eps) (1 - pc b j)
  ⟨pc, fun b j => Real.log (max (pc b j * qc b j) eps), fun b => ∑ j ∈ range D, bernKl (pc b j) (qc b j),
    fun b j => if 1 / 2 ≤ pc b j then 1 else 0⟩

/-- Bernoulli, latent_stats.py:116-135. -/
noncomputable def bernoulliStats (eps : ℝ) (B D : ℕ) (p : Params) : Except Exc Stats :=
  match probsOf B D p with
  | .error e => .error e
  | .ok q => .ok (bernOf eps D q)

/-- `(total_count < 0).any()`, latent_stats.py:157. -/
noncomputable def anyNegative (B D : ℕ) (n : ℕ → ℕ → ℝ) : Prop := ∃ b < B, ∃ j < D, n b j < 0

/-- The values of the Binomial branch, latent_stats.py:146-172, from counts and success probabilities. -/
noncomputable def binOf (eps : ℝ) (D : ℕ) (n q : ℕ → ℕ → ℝ) : Stats :=
  let pc := fun b j => clamp eps (1 - eps) (q b j)
  let qc := fun b j => clamp eps (1 - eps) (1 - pc b j)
  ⟨fun b j => n b j * pc b j, fun b j => Real.log (max (n b j * pc b j * qc b j) eps),
    fun b => ∑ j ∈ range D, n b j * bernKl (pc b j) (qc b j),
    fun b j => min (max (⌊(n b j + 1) * pc b j⌋ : ℝ) 0) (n b j)⟩

open Classical in
/-- Binomial, latent_stats.py:137-172. -/
noncomputable def binomialStats (eps : ℝ) (B D : ℕ) (p : Params) : Except Exc Stats :=
  match p.count with
  | none => .error .unsupported
  | some t => match probsOf B D p with
    | .error e => .error e
    | .ok q => match expectMatrix B D t with
      | .error e => .error e
      | .ok n =>
        if anyNegative B D n then .error .shapeError
        else .ok (binOf eps D n q)

/-- Normalising one row of class probabilities, latent_stats.py:189-190 and 201-202. -/
noncomputable def renorm (eps : ℝ) (K : ℕ) (p : ℕ → ℝ) : ℕ → ℝ := fun k => p k / max (∑ i ∈ range K, p i) eps

/-- The first class with the largest probability, `torch.argmax`. -/
noncomputable def argmaxR (K : ℕ) (p : ℕ → ℝ) : ℕ := WSum.argmax p (K - 1)

/-- The probabilities of the Categorical branch before the final clamp, latent_stats.py:174-195. -/
noncomputable def classProbs (eps : ℝ) (B D : ℕ) (p : Params) : Except Exc (ℕ × (ℕ → ℕ → ℕ → ℝ)) :=
  match p.logits, p.probs with
  | some t, _ => match t.shape with
    | [b, d, K] => if b = B ∧ d = D then
        .ok (K, fun b j k => softmax K (fun k => ((t.at4 b j k 0 : ℝ) : LogV)) k)
      else .error .shapeError
    | _ => .error .shapeError
  | none, some t => match t.shape with
    | [b, d, K] => if b = B ∧ d = D then .ok (K, fun b j => renorm eps K fun k => max (t.at4 b j k 0) eps)
      else .error .shapeError
    | _ => .error .shapeError
  | none, none => .error .unsupported

/-- The values of the Categorical branch, latent_stats.py:196-212, from the probabilities of `K` classes. -/
noncomputable def catOf (eps : ℝ) (D K : ℕ) (q : ℕ → ℕ → ℕ → ℝ) : Stats :=
  let pr := fun b j => renorm eps K fun k => clamp eps 1 (q b j k)
  let mu := fun b j => ∑ k ∈ range K, pr b j k * (k : ℝ)
  ⟨mu, fun b j => Real.log (max (∑ k ∈ range K, pr b j k * (k : ℝ) ^ 2 - mu b j ^ 2) eps),
    fun b => ∑ j ∈ range D, ∑ k ∈ range K, pr b j k * (Real.log (pr b j k) + Real.log K),
    fun b j => (argmaxR K (pr b j) : ℝ)⟩

/-- Categorical, latent_stats.py:174-212. -/
noncomputable def categoricalStats (eps : ℝ) (B D : ℕ) (p : Params) : Except Exc Stats :=
  match classProbs eps B D p with
  | .error e => .error e
  | .ok (K, q) => if K = 0 then .error .shapeError else .ok (catOf eps D K q)

/-- `latent_stats_from_leaf_record`, latent_stats.py:83-212. -/
noncomputable def latentStats (eps : ℝ) (kind : Kind) (B D : ℕ) (p : Params) : Except Exc Stats :=
  match kind with
  | .normal => normalStats eps B D p
  | .bernoulli => bernoulliStats eps B D p
  | .binomial => binomialStats eps B D p
  | .categorical => categoricalStats eps B D p
  | .other => .error .unsupported

/-- The latents returned next to the statistics, joint_pc_base.py:217-226 (`encode` with `return_latent_stats=True`): for Normal
leaves they are drawn anew from `noise`, otherwise the sampled values `z` are returned. -/
noncomputable def statsLatent (kind : Kind) (mpe : Bool) (tau : ℝ) (s : Stats) (z noise : ℕ → ℕ → ℝ) : ℕ → ℕ → ℝ :=
  if mpe then z
  else if kind = .normal then fun b j => tau * noise b j * Real.exp (1 / 2 * s.logvar b j) + s.mu b j
  else z

end Verif.Apc

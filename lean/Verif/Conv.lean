import Verif.Sampling

/-!
# Model of the convolutional modules

spflow/modules/conv/sum_conv.py, prod_conv.py, utils.py and spflow/zoo/conv/conv_pc.py.

* A tensor `(features, channels, repetitions)` of one batch row is a function `Tens`; the number of features is passed
  separately.
* Image sides are `int(features ** 0.5)` = `Nat.sqrt` (exact for features < 2^52).
* Paddings are natural numbers (`F.conv2d` raises for negative ones).
* Reshapes (`rearrange`) are written as the index arithmetic they perform.
-/

namespace Verif.Conv

open Verif.Circ

/-- `ll[feature, channel, repetition]` of one row. -/
abbrev Tens := ℕ → ℕ → ℕ → LogV

/-- `int(num_features ** 0.5)`, sum_conv.py:186, 249; prod_conv.py:80. -/
def side (features : ℕ) : ℕ := Nat.sqrt features

/-! ## SumConv -/

/-- The parameters of a `SumConv`, sum_conv.py:48-107: `logits[co, ci, kh, kw, r]`. -/
structure SumConv where
  Ci : ℕ
  Co : ℕ
  K : ℕ
  R : ℕ
  θ : ℕ → ℕ → ℕ → ℕ → ℕ → LogV

/-- `SumConv.__init__`, sum_conv.py:68-107, up to the drawn initial logits. -/
def SumConv.mk? (Ci Co K R : ℕ) (θ : ℕ → ℕ → ℕ → ℕ → ℕ → LogV) : Except Exc SumConv :=
  if Co < 1 then .error .valueError
  else if K < 1 then .error .valueError
  else .ok ⟨Ci, Co, K, R, θ⟩

/-- The random initial logits, sum_conv.py:101-107 and utils/projections.py:35, for a tensor `u` of draws of
`torch.rand` (so every entry lies in [0, 1)): `log ((u + 1e-8) / sum over ci)`. -/
noncomputable def initLogits (Ci : ℕ) (u : ℕ → ℕ → ℕ → ℕ → ℕ → ℝ) (co ci kh kw r : ℕ) : LogV :=
  logL ((u co ci kh kw r + 1 / 10 ^ 8) / ∑ i ∈ Finset.range Ci, (u co i kh kw r + 1 / 10 ^ 8))

/-- `weights`, sum_conv.py:124-131 (softmax over input channels). -/
noncomputable def SumConv.weight (L : SumConv) (co ci kh kw r : ℕ) : ℝ := softmax L.Ci (fun i => L.θ co i kh kw r) ci

/-- `log_weights`, sum_conv.py:115-122. -/
noncomputable def SumConv.logW (L : SumConv) (co ci kh kw r : ℕ) : LogV := logSoftmax L.Ci (fun i => L.θ co i kh kw r) ci

/-- `ll` viewed as `b ci oh ow kh kw r`, sum_conv.py:218-222. -/
def toBlocks (H K : ℕ) (ll : Tens) (oh ow kh kw ci r : ℕ) : LogV := ll ((oh * K + kh) * H + (ow * K + kw)) ci r

/-- `result` flattened from `b co oh ow kh kw r` to `b (oh kh ow kw) co r`, sum_conv.py:235. -/
def fromBlocks (H K : ℕ) (g : ℕ → ℕ → ℕ → ℕ → ℕ → ℕ → LogV) : Tens := fun f co r =>
  g (f / K / (H / K) / K) (f / K % (H / K)) (f / K / (H / K) % K) (f % K) co r

/-- `SumConv.log_likelihood`, sum_conv.py:157-237, on the log-likelihoods of an input with `inF` features and `inR`
repetitions. -/
noncomputable def SumConv.logLik (L : SumConv) (inF inR : ℕ) (ll : Tens) : Except Exc Tens :=
  if inR = 1 ∧ 1 < L.R then .error .runtimeError
  else if inR ≠ L.R ∧ inR ≠ 1 then .error .valueError
  else if side inF * side inF ≠ inF then .error .valueError
  else if side inF < L.K then
    .ok fun f co r => lse L.Ci fun ci => ll f ci r + L.logW co ci 0 0 r
  else if side inF % L.K ≠ 0 then .error .valueError
  else .ok (fromBlocks (side inF) L.K fun oh ow kh kw co r =>
    lse L.Ci fun ci => toBlocks (side inF) L.K ll oh ow kh kw ci r + L.logW co ci kh kw r)

/-- Categorical logits of pixel `f` in `SumConv._sample`, sum_conv.py:279-362, for requested channel `ch f` and repetition
`r`; `cached` are the cached input log-likelihoods, if any.  `logits_per_pos` has the kernel axes flattened; pixel
`(f / H, f % H)` gathers entry `k_row * K + k_col`. -/
noncomputable def SumConv.sampleLogits (L : SumConv) (H : ℕ) (cached : Option Tens) (ch : ℕ → ℕ) (r f : ℕ) : ℕ → LogV :=
  let kFlat := f / H % L.K * L.K + f % H % L.K
  let sel := fun ci => L.θ (ch f) ci (kFlat / L.K) (kFlat % L.K) r
  match cached with
  | none => logSoftmax L.Ci sel
  | some ll => logSoftmax L.Ci fun ci => sel ci + ll f ci r

/-- The checks of `SumConv._sample` that depend on the image, sum_conv.py:249-259: unlike `log_likelihood` there is no
special case for images smaller than the kernel. -/
def SumConv.sampleOk (L : SumConv) (inF : ℕ) : Except Exc Unit :=
  if side inF * side inF ≠ inF then .error .valueError
  else if side inF % L.K ≠ 0 then .error .valueError
  else .ok ()

/-- `_expectation_maximization_step`, sum_conv.py:391-497: the new logits, from a batch of `B` rows with `F` features:
`inp`/`out` the cached log-likelihoods of the input and of this module, `g` the gradient `out.grad` (`torch.log` is taken
of `g + 1e-10`).  `log_weights` are averaged over the kernel and the result is repeated over it.
The arithmetic is on finite numbers: every entry of `inp`, `out` and of the weights is assumed not to be `-inf`. -/
noncomputable def SumConv.emLogits (L : SumConv) (B F : ℕ) (inp out g : ℕ → ℕ → ℕ → ℕ → ℝ) (co ci _kh _kw r : ℕ) : LogV :=
  logSoftmax L.Ci (fun ci =>
    lse F fun f => lse B fun b =>
      (((∑ a ∈ Finset.range L.K, ∑ c ∈ Finset.range L.K, Real.log (L.weight co ci a c r)) / (L.K * L.K)
        + Real.log (g b f co r + 1 / 10 ^ 10) + inp b f ci r - out b f co r : ℝ) : LogV)) ci

/-- The layer after the EM step, sum_conv.py:494. -/
noncomputable def SumConv.emStep (L : SumConv) (B F : ℕ) (inp out g : ℕ → ℕ → ℕ → ℕ → ℝ) : SumConv :=
  { L with θ := L.emLogits B F inp out g }

/-- `SumConv.marginalize`, sum_conv.py:499-531, when the input's marginal has `Ci'` channels: a *new* layer with new random
weights drawn from `u`. -/
noncomputable def SumConv.marginalize (L : SumConv) (Ci' : ℕ) (u : ℕ → ℕ → ℕ → ℕ → ℕ → ℝ) : Except Exc SumConv :=
  SumConv.mk? Ci' L.Co L.K L.R (initLogits Ci' u)

/-! ## ProdConv -/

/-- The geometry of a `ProdConv`, prod_conv.py:66-92. -/
structure ProdConv where
  H : ℕ
  kh : ℕ
  kw : ℕ
  ph : ℕ
  pw : ℕ

namespace ProdConv

/-- `ProdConv.__init__`, prod_conv.py:59-92 (the assertion on the number of features is an AssertionError in the code, here
`valueError`). -/
def mk? (inF kh kw ph pw : ℕ) : Except Exc ProdConv :=
  if kh < 1 then .error .valueError
  else if kw < 1 then .error .valueError
  else if side inF * side inF ≠ inF then .error .valueError
  else .ok ⟨side inF, kh, kw, ph, pw⟩

/-- `_output_h`, prod_conv.py:84-86. -/
def oh (P : ProdConv) : ℕ := (P.H + 2 * P.ph) / P.kh

/-- `_output_w`, prod_conv.py:85-87. -/
def ow (P : ProdConv) : ℕ := (P.H + 2 * P.pw) / P.kw

/-- `out_shape.features`, prod_conv.py:97. -/
def outF (P : ProdConv) : ℕ := P.oh * P.ow

/-- `in_shape.features`. -/
def inF (P : ProdConv) : ℕ := P.H * P.H

/-- Rows (or columns) of the input inside the patch of output row `o`, prod_conv.py:143-152:
`range(max(0, o*k - p), min(in_h, o*k - p + k))`. -/
def patch1 (H k p o : ℕ) : List ℕ :=
  (List.range H).filter fun (i : ℕ) => decide ((o : ℤ) * k - p ≤ i) && decide ((i : ℤ) < (o : ℤ) * k - p + k)

/-- `feature_to_scope` of output `o`, prod_conv.py:118-165 (`Scope.join_all` is the union of the query sets). -/
def scopeAt (P : ProdConv) (inScope : ℕ → Finset Var) (o : ℕ) : Finset Var :=
  (patch1 P.H P.kh P.ph (o / P.ow)).foldr (fun ih S =>
    (patch1 P.H P.kw P.pw (o % P.ow)).foldr (fun iw S => inScope (ih * P.H + iw) ∪ S) S) ∅

/-- The zero-padded image `F.conv2d` reads, at row `i`, column `j` of the padded grid. -/
def padded (P : ProdConv) (ll : Tens) (i j ch r : ℕ) : LogV :=
  if P.ph ≤ i ∧ i < P.ph + P.H ∧ P.pw ≤ j ∧ j < P.pw + P.H then ll ((i - P.ph) * P.H + (j - P.pw)) ch r else 0

/-- `ProdConv.log_likelihood`, prod_conv.py:173-221: depthwise `F.conv2d` with a kernel of ones and stride = kernel;
`F.conv2d` raises when the kernel does not fit into the padded image. -/
def logLik (P : ProdConv) (ll : Tens) : Except Exc Tens :=
  if P.H + 2 * P.ph < P.kh ∨ P.H + 2 * P.pw < P.kw then .error .runtimeError
  else .ok fun f ch r => ∑ a ∈ Finset.range P.kh, ∑ b ∈ Finset.range P.kw,
    P.padded ll (f / P.ow * P.kh + a) (f % P.ow * P.kw + b) ch r

/-- `upsample_sampling_context`, conv/utils.py:17-79: entry `f` of the context upsampled from the output grid. -/
def upsample {α : Type} (P : ProdConv) (g : ℕ → α) (f : ℕ) : α :=
  g (f / (P.ow * P.kw) / P.kh * P.ow + f % (P.ow * P.kw) / P.kw)

/-- The routing part of `ProdConv._sample`, prod_conv.py:246-316: from a context of width `outF` (a context of width 1 has
been repeated to that width) to one of width `inF`. -/
def route {α : Type} (P : ProdConv) (g : ℕ → α) : Except Exc (ℕ → α) :=
  if P.outF = P.inF then .ok g
  else
    let up := P.oh * P.kh * (P.ow * P.kw)
    if P.inF < up then
      if P.ph = 0 ∧ P.pw = 0 then .error .shapeError
      else if up ≠ (P.H + 2 * P.ph) * (P.H + 2 * P.pw) then .error .shapeError
      else .ok (P.upsample g)
    else if up < P.inF then .error .shapeError
    else .ok (P.upsample g)

end ProdConv

/-! ## Networks of these layers, one repetition -/

/-- Layers over any modelled module.  `sum`: the ordinary `Sum` with logits `θ f ci co`.  `pair`, `pack` and `fuse` occur in
the APC encoder only: `_PairwiseLatentProduct` and `_LatentFeaturePacking` (with the list `perm`; `perm_inv` is its argsort),
convpc_joint_encoder.py:56-275, and `ElementwiseProduct(inputs=[a, b])` of two modules of equal shape. -/
inductive Net where
  | base (c : Circ)
  | sum (n : Net) (Co : ℕ) (θ : ℕ → ℕ → ℕ → LogV)
  | sumConv (n : Net) (Co K : ℕ) (θ : ℕ → ℕ → ℕ → ℕ → LogV)
  | prodConv (n : Net) (kh kw ph pw : ℕ)
  | pair (n : Net)
  | pack (n : Net) (t : ℕ) (perm : Option (List ℕ))
  | fuse (a b : Net)

/-- `base_f2s[perm]`, `packed[:, perm]`, convpc_joint_encoder.py:195-196 and 214-215: which entry output `f` reads. -/
def permAt (perm : Option (List ℕ)) (f : ℕ) : ℕ :=
  match perm with
  | none => f
  | some p => p.getD f 0

/-- `perm_inv = torch.argsort(perm)`, convpc_joint_encoder.py:409. -/
def permInv (perm : Option (List ℕ)) (i : ℕ) : ℕ :=
  match perm with
  | none => i
  | some p => p.idxOf i

namespace Net

/-- `out_shape.features`. -/
def F : Net → ℕ
  | base c => c.F
  | sum n _ _ => F n
  | sumConv n _ _ _ => F n
  | prodConv n kh kw ph pw => (ProdConv.mk (side (F n)) kh kw ph pw).outF
  | pair n => F n / 2
  | pack _ t _ => t
  | fuse a _ => F a

/-- `out_shape.channels`. -/
def C : Net → ℕ
  | base c => c.C
  | sum _ Co _ => Co
  | sumConv _ Co _ _ => Co
  | prodConv n _ _ _ _ => C n
  | pair n => C n
  | pack n _ _ => C n
  | fuse a _ => C a

/-- The geometry of a product layer over `n`. -/
def geo (n : Net) (kh kw ph pw : ℕ) : ProdConv := ⟨side (F n), kh, kw, ph, pw⟩

/-- The `SumConv` layer over `n`. -/
def layer (n : Net) (Co K : ℕ) (θ : ℕ → ℕ → ℕ → ℕ → LogV) : SumConv := ⟨C n, Co, K, 1, fun co ci kh kw _ => θ co ci kh kw⟩

/-- `feature_to_scope`: sum.py:185-187, sum_conv.py:109-112, prod_conv.py:118-165, convpc_joint_encoder.py:80-87 and 190-197,
elementwise_product.py:143-167. -/
noncomputable def fscope : Net → ℕ → Finset Var
  | base c => fun f => Circ.fscope c f
  | sum n _ _ => fscope n
  | sumConv n _ _ _ => fscope n
  | prodConv n kh kw ph pw => (geo n kh kw ph pw).scopeAt (fscope n)
  | pair n => fun f => fscope n (2 * f) ∪ fscope n (2 * f + 1)
  | pack n _ perm => fun f => if permAt perm f < F n then fscope n (permAt perm f) else ∅
  | fuse a b => fun f => fscope a f ∪ fscope b f

/-- `scope` of the module, prod_conv.py:107-116 (union over *all* input features), sum_conv.py:79. -/
noncomputable def scope : Net → Finset Var
  | base c => (Circ.scope c).query.toFinset
  | sum n _ _ => scope n
  | sumConv n _ _ _ => scope n
  | prodConv n _ _ _ _ => (Finset.range (F n)).biUnion (fscope n)
  | pair n => scope n
  | pack n _ _ => scope n
  | fuse a b => scope a ∪ scope b

/-- `log_likelihood` of one row. -/
noncomputable def logLik : Net → Row → Except Exc Tens
  | base c, x => Circ.logLik c x
  | sum n _ θ, x => do
    let ll ← logLik n x
    return fun f co r => lse (C n) fun ci => ll f ci r + logSoftmax (C n) (fun i => θ f i co) ci
  | sumConv n Co K θ, x => do
    let ll ← logLik n x
    (layer n Co K θ).logLik (F n) 1 ll
  | prodConv n kh kw ph pw, x => do
    let ll ← logLik n x
    (geo n kh kw ph pw).logLik ll
  | pair n, x => do
    let ll ← logLik n x
    return fun f ch r => ll (2 * f) ch r + ll (2 * f + 1) ch r
  | pack n _ perm, x => do
    let ll ← logLik n x
    return fun f ch r => if permAt perm f < F n then ll (permAt perm f) ch r else 0
  | fuse a b, x => do
    let la ← logLik a x
    let lb ← logLik b x
    return fun f ch r => la f ch r + lb f ch r

/-- The cached log-likelihoods of the input, if `log_likelihood` has been called on the row `ev`. -/
noncomputable def cachedLL (n : Net) (ev : Option Row) : Option Tens :=
  match ev with
  | none => none
  | some e => match logLik n e with
    | .ok T => some T
    | .error _ => none

/-- Categorical logits of a `Sum`, sum.py:313-364 (as `Circ.sumLogits`). -/
noncomputable def sumLogits (n : Net) (ev : Option Row) (θ : ℕ → ℕ → ℕ → LogV) (ch : ℕ → ℕ) (f : ℕ) : ℕ → LogV :=
  match cachedLL n ev with
  | none => fun ci => θ f ci (ch f)
  | some T => logSoftmax (C n) fun ci => θ f ci (ch f) + T f ci 0

/-- `_sample` for one row (see `Circ.sample`); repetition 0.  `pair`: convpc_joint_encoder.py:103-143; `pack`:
convpc_joint_encoder.py:218-266 - a context of the width of the inputs is passed on as it is; `fuse`: base_product.py:114-200
(the same channels and mask for both inputs, one after the other). -/
noncomputable def sample (ev : Option Row) : Net → (ℕ → ℕ) → (ℕ → Bool) → Row → Prog Row
  | base c => fun ch mask y => Circ.sample ev 0 c ch mask y
  | sum n Co θ => fun ch mask y =>
    if ! validCtx (F n) Co 1 ch mask 0 then .fail .invalidParameter
    else if ! (List.range (F n)).all (fun f => decide (ch f < Co)) then .fail .runtimeError
    else (pickAll (C n) (sumLogits n ev θ ch) (F n)).bind fun ch' => sample ev n ch' mask y
  | sumConv n Co K θ => fun ch mask y =>
    match (layer n Co K θ).sampleOk (F n) with
    | .error e => .fail e
    | .ok () =>
      if ! validCtx (F n) Co 1 ch mask 0 then .fail .invalidParameter
      else if ! (List.range (F n)).all (fun f => decide (ch f < Co)) then .fail .runtimeError
      else (pickAll (C n) ((layer n Co K θ).sampleLogits (side (F n)) (cachedLL n ev) ch 0) (F n)).bind fun ch' =>
        sample ev n ch' mask y
  | prodConv n kh kw ph pw => fun ch mask y =>
    if ! validCtx (geo n kh kw ph pw).outF (C n) 1 ch mask 0 then .fail .invalidParameter
    else match (geo n kh kw ph pw).route ch, (geo n kh kw ph pw).route mask with
      | .ok ch', .ok mask' => sample ev n ch' mask' y
      | .error e, _ => .fail e
      | _, .error e => .fail e
  | pair n => fun ch mask y =>
    if ! validCtx (F n / 2) (C n) 1 ch mask 0 then .fail .invalidParameter
    else sample ev n (fun f => ch (f / 2)) (fun f => mask (f / 2)) y
  | pack n t perm => fun ch mask y =>
    if ! validCtx t (C n) 1 ch mask 0 then .fail .invalidParameter
    else if t = F n then sample ev n ch mask y
    else sample ev n (fun f => ch (permInv perm f)) (fun f => mask (permInv perm f)) y
  | fuse a b => fun ch mask y =>
    if ! validCtx (F a) (C a) 1 ch mask 0 then .fail .invalidParameter
    else seqAll [sample ev a ch mask, sample ev b ch mask] y

end Net

/-! ## ConvPc -/

/-- `compute_non_overlapping_kernel_and_padding` for one axis, conv_pc.py:45-63 (`math.ceil` of a quotient). -/
def kernelPadding (data target : ℕ) : Except Exc (ℕ × ℕ) :=
  if data = 0 ∨ target = 0 then .error .valueError
  else
    let k := (data + target - 1) / target
    .ok (k, (k * target - data) / 2)

/-- `ProdConv(inputs=n, ...)`. -/
def addProd (n : Net) (kh kw ph pw : ℕ) : Except Exc Net := do
  let _ ← ProdConv.mk? n.F kh kw ph pw
  return .prodConv n kh kw ph pw

/-- `SumConv(inputs=n, ...)` with logits `θ`. -/
def addSumConv (n : Net) (Co K : ℕ) (θ : ℕ → ℕ → ℕ → ℕ → LogV) : Except Exc Net := do
  let _ ← SumConv.mk? n.C Co K 1 (fun co ci kh kw _ => θ co ci kh kw)
  return .sumConv n Co K θ

/-- `Sum(inputs=n, out_channels=Co)` with logits `θ` (sum.py:94). -/
def addSum (n : Net) (Co : ℕ) (θ : ℕ → ℕ → ℕ → LogV) : Except Exc Net :=
  if Co < 1 then .error .valueError else .ok (.sum n Co θ)

/-- The layers above the bottom product, conv_pc.py:126-152 and 178-205, bottom-up: `d` pairs (sum, product) over `n`.
`W l` are the logits of the sum layer of level `l`: per kernel position when `conv`, per feature otherwise. -/
def stack (conv : Bool) (channels k : ℕ) (W : ℕ → ℕ → ℕ → ℕ → ℕ → LogV) : ℕ → Net → Except Exc Net
  | 0, n => .ok n
  | d + 1, n => do
    let s ← if conv then addSumConv n channels k (W d) else addSum n channels (fun f ci co => W d f ci co 0)
    let m ← addProd s k k 0 0
    stack conv channels k W d m

/-- `ConvPc.__init__`, conv_pc.py:85-228.  `W`, `w0`: the logits of the sum layers and of the root; `height`, `width` are
the user's arguments, the image side actually used is `side leaf.F`. -/
def build (leaf : Circ) (height width channels depth k reps : ℕ) (conv : Bool) (W : ℕ → ℕ → ℕ → ℕ → ℕ → LogV)
    (w0 : ℕ → ℕ → ℕ → LogV) : Except Exc Net := do
  if reps ≠ 1 then throw .unsupported
  if depth < 1 then throw .valueError
  if channels < 1 then throw .valueError
  let h ← kernelPadding height (k ^ depth)
  let w ← kernelPadding width (k ^ depth)
  let b ← addProd (.base leaf) h.1 w.1 h.2 w.2
  let m ← stack conv channels k W depth b
  addSum m 1 w0

end Verif.Conv

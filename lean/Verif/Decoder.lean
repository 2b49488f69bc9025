import Verif.Scope
import Mathlib.Analysis.SpecialFunctions.Exp
import Mathlib.Analysis.SpecialFunctions.Sqrt
import Mathlib.Analysis.Complex.Trigonometric
import Mathlib.Algebra.BigOperators.Group.Finset.Basic
import Mathlib.Algebra.Order.Floor.Semiring

/-!
# Model of the neural decoders of autoencoding circuits: spflow/zoo/apc/decoders.py

Weights are arbitrary functions of the position of the layer in the network.  Tensors are batches: a vector batch
`[n, d]` or an image batch `[n, c, h, w]`.  The torch operations are modelled by their documented formulas over the
reals.  Rounding is not modelled.
-/

namespace Verif
namespace Dec

/-- A batch of vectors. -/
structure Vec where
  n : ℕ
  d : ℕ
  v : ℕ → ℕ → ℝ

/-- A batch of images. -/
structure Img where
  n : ℕ
  c : ℕ
  h : ℕ
  w : ℕ
  v : ℕ → ℕ → ℕ → ℕ → ℝ

/-- The option strings `out_activation`. -/
inductive Act where
  | identity
  | linear
  | tanh
  | sigmoid
  | other
deriving DecidableEq

/-- `nn.Identity`, `nn.Tanh`, `nn.Sigmoid`. -/
noncomputable def Act.app : Act → ℝ → ℝ
  | .tanh, x => Real.tanh x
  | .sigmoid, x => 1 / (1 + Real.exp (-x))
  | _, x => x

/-- The parameters of all layers, by the position of the layer. -/
structure Params where
  /-- `nn.Linear`: layer, output, input -/
  L : ℕ → ℕ → ℕ → ℝ
  Lb : ℕ → ℕ → ℝ
  /-- convolutions: layer, first and second channel index as stored by torch, kernel row and column -/
  W : ℕ → ℕ → ℕ → ℕ → ℕ → ℝ
  Wb : ℕ → ℕ → ℝ
  /-- `nn.BatchNorm2d`: weight, bias, running mean, running variance -/
  g : ℕ → ℕ → ℝ
  gb : ℕ → ℕ → ℝ
  rm : ℕ → ℕ → ℝ
  rv : ℕ → ℕ → ℝ

/-- `nn.Linear(i, o)`. -/
noncomputable def linear (P : Params) (l i o : ℕ) (x : Vec) : Except Exc Vec :=
  if x.d ≠ i then .error .runtimeError
  else .ok ⟨x.n, o, fun n a => (∑ k ∈ Finset.range i, P.L l a k * x.v n k) + P.Lb l a⟩

/-- Apply a function to every entry. -/
def Vec.map (f : ℝ → ℝ) (x : Vec) : Vec := ⟨x.n, x.d, fun n i => f (x.v n i)⟩
def Img.map (f : ℝ → ℝ) (x : Img) : Img := ⟨x.n, x.c, x.h, x.w, fun n c i j => f (x.v n c i j)⟩

/-- `nn.LeakyReLU(0.1)`. -/
noncomputable def leaky (x : ℝ) : ℝ := if 0 ≤ x then x else x / 10

/-- `F.relu`. -/
noncomputable def relu (x : ℝ) : ℝ := max x 0

/-- Zero padding by `p`: the entry read at padded position `(i, j)`. -/
def Img.padded (x : Img) (p n c i j : ℕ) : ℝ :=
  if p ≤ i ∧ i < x.h + p ∧ p ≤ j ∧ j < x.w + p then x.v n c (i - p) (j - p) else 0

/-- `nn.Conv2d(ci, co, kernel_size=k, stride=1, padding=p, bias=...)`. -/
noncomputable def conv2d (P : Params) (l ci co k p : ℕ) (bias : Bool) (x : Img) : Except Exc Img :=
  if x.c ≠ ci then .error .runtimeError
  else if x.h + 2 * p < k ∨ x.w + 2 * p < k then .error .runtimeError
  else .ok ⟨x.n, co, x.h + 2 * p + 1 - k, x.w + 2 * p + 1 - k, fun n o i j =>
    (∑ c ∈ Finset.range ci, ∑ a ∈ Finset.range k, ∑ b ∈ Finset.range k, P.W l o c a b * x.padded p n c (i + a) (j + b)) +
      if bias then P.Wb l o else 0⟩

/-- `nn.ConvTranspose2d(ci, co, kernel_size=4, stride=2, padding=1)`: input position `a` and kernel position `s` meet in
output position `2a + s - 1`; the output has `(h - 1)·2 - 2 + 4` rows. -/
noncomputable def convT (P : Params) (l ci co : ℕ) (x : Img) : Except Exc Img :=
  if x.c ≠ ci then .error .runtimeError
  else .ok ⟨x.n, co, (x.h - 1) * 2 + 4 - 2, (x.w - 1) * 2 + 4 - 2, fun n o i j =>
    (∑ c ∈ Finset.range ci, ∑ a ∈ Finset.range x.h, ∑ b ∈ Finset.range x.w, ∑ s ∈ Finset.range 4, ∑ t ∈ Finset.range 4,
      if 2 * a + s = i + 1 ∧ 2 * b + t = j + 1 then x.v n c a b * P.W l c o s t else 0) + P.Wb l o⟩

/-- `nn.Upsample(scale_factor=2, mode="nearest")`. -/
def upsample (x : Img) : Img := ⟨x.n, x.c, 2 * x.h, 2 * x.w, fun n c i j => x.v n c (i / 2) (j / 2)⟩

/-- Source coordinate of `F.interpolate(..., align_corners=False)`: `max((i + 1/2)·(src/dst) - 1/2, 0)`. -/
noncomputable def srcAt (src dst i : ℕ) : ℝ := max (((i : ℝ) + 1 / 2) * ((src : ℝ) / dst) - 1 / 2) 0

/-- `F.interpolate(x, size=(h, w), mode="bilinear", align_corners=False)`. -/
noncomputable def bilinear (h w : ℕ) (x : Img) : Img :=
  ⟨x.n, x.c, h, w, fun n c i j =>
    let a := ⌊srcAt x.h h i⌋₊
    let b := ⌊srcAt x.w w j⌋₊
    let a' := if a + 1 < x.h then a + 1 else a
    let b' := if b + 1 < x.w then b + 1 else b
    let s := srcAt x.h h i - a
    let t := srcAt x.w w j - b
    (1 - s) * ((1 - t) * x.v n c a b + t * x.v n c a b') + s * ((1 - t) * x.v n c a' b + t * x.v n c a' b')⟩

/-- `if x.shape[-2:] != target: F.interpolate(...)`, decoders.py:261-263 and 393-394. -/
noncomputable def fit (h w : ℕ) (x : Img) : Img := if x.h ≠ h ∨ x.w ≠ w then bilinear h w x else x

/-- Mean and biased variance of one channel over the batch and all pixels. -/
noncomputable def mean (x : Img) (c : ℕ) : ℝ :=
  (∑ n ∈ Finset.range x.n, ∑ i ∈ Finset.range x.h, ∑ j ∈ Finset.range x.w, x.v n c i j) / (x.n * x.h * x.w : ℕ)
noncomputable def var (x : Img) (c : ℕ) : ℝ :=
  (∑ n ∈ Finset.range x.n, ∑ i ∈ Finset.range x.h, ∑ j ∈ Finset.range x.w, (x.v n c i j - mean x c) ^ 2) /
    (x.n * x.h * x.w : ℕ)

/-- `nn.BatchNorm2d(ch)` with its default `eps`: batch statistics while training (which need more than one value per
channel), running statistics otherwise.  The update of the running statistics is not modelled. -/
noncomputable def batchNorm (P : Params) (l ch : ℕ) (train : Bool) (x : Img) : Except Exc Img :=
  if x.c ≠ ch then .error .runtimeError
  else if train = true ∧ x.n * x.h * x.w ≤ 1 then .error .valueError
  else .ok ⟨x.n, x.c, x.h, x.w, fun n c i j =>
    let m := if train then mean x c else P.rm l c
    let s := if train then var x c else P.rv l c
    (x.v n c i j - m) / Real.sqrt (s + 10 ^ (-5 : ℤ)) * P.g l c + P.gb l c⟩

/-- `x + y` for images of the same shape (anything else raises here; broadcasting is not modelled). -/
def addImg (x y : Img) : Except Exc Img :=
  if x.n ≠ y.n ∨ x.c ≠ y.c ∨ x.h ≠ y.h ∨ x.w ≠ y.w then .error .runtimeError
  else .ok ⟨x.n, x.c, x.h, x.w, fun n c i j => x.v n c i j + y.v n c i j⟩

/-- Optional batch norm. -/
noncomputable def bnIf (P : Params) (bn : Bool) (l ch : ℕ) (train : Bool) (x : Img) : Except Exc Img :=
  if bn then batchNorm P l ch train x else .ok x

/-- `_Residual`, decoders.py:16-53, at layer position `l` (uses `l` and `l + 1`): ReLU, 3×3 convolution, [norm], ReLU, 1×1
convolution, [norm], plus the input.  The first ReLU works in place, so "the input" that is added is already rectified. -/
noncomputable def residual (P : Params) (l ci hid res : ℕ) (bn train : Bool) (x : Img) : Except Exc Img :=
  conv2d P l ci res 3 1 false (x.map relu) >>= fun a =>
  bnIf P bn l res train a >>= fun a =>
  conv2d P (l + 1) res hid 1 0 false (a.map relu) >>= fun a =>
  bnIf P bn (l + 1) hid train a >>= fun a =>
  addImg (x.map relu) a

/-- `_ResidualStack`, decoders.py:56-84, without its final ReLU: `m` blocks at positions `l, l + 2, …`. -/
noncomputable def stack (P : Params) (ch res : ℕ) (bn train : Bool) : ℕ → ℕ → Img → Except Exc Img
  | 0, _, x => .ok x
  | m + 1, l, x =>
    residual P l ch ch res bn train x >>= fun y => stack P ch res bn train m (l + 2) y

/-! ## MLPDecoder1D -/

/-- A built `MLPDecoder1D`. -/
structure Mlp where
  latent : ℕ
  output : ℕ
  /-- input and output width of every linear layer -/
  layers : List (ℕ × ℕ)
  act : Act

/-- The widths of the linear layers, decoders.py:118-124. -/
def mlpLayers (output : ℕ) : ℕ → List ℕ → List (ℕ × ℕ)
  | d, [] => [(d, output)]
  | d, h :: hs => (d, h) :: mlpLayers output h hs

/-- `MLPDecoder1D.__init__`, decoders.py:94-138. -/
def mkMlp (latent output : ℤ) (hidden : List ℤ) (act : Act) : Except Exc Mlp :=
  if latent ≤ 0 then .error .invalidParameter
  else if output ≤ 0 then .error .invalidParameter
  else if hidden.length = 0 then .error .invalidParameter
  else if hidden.any (· ≤ 0) then .error .invalidParameter
  else if act = .other ∨ act = .linear then .error .invalidParameter
  else .ok ⟨latent.toNat, output.toNat, mlpLayers output.toNat latent.toNat (hidden.map Int.toNat), act⟩

/-- `nn.Sequential`: linear layers with `LeakyReLU(0.1)` between them. -/
noncomputable def mlpRun (P : Params) : ℕ → List (ℕ × ℕ) → Vec → Except Exc Vec
  | _, [], x => .ok x
  | l, [(i, o)], x => linear P l i o x
  | l, (i, o) :: rest, x =>
    linear P l i o x >>= fun y => mlpRun P (l + 1) rest (y.map leaky)

/-- `MLPDecoder1D.forward`, decoders.py:140-152. -/
noncomputable def Mlp.forward (m : Mlp) (P : Params) (z : Vec) : Except Exc Vec :=
  if z.d ≠ m.latent then .error .invalidParameter
  else mlpRun P 0 m.layers z >>= fun y => .ok (y.map m.act.app)

/-! ## ConvDecoder2D -/

/-- A built `ConvDecoder2D`. -/
structure Conv where
  latent : ℕ
  c : ℕ
  h : ℕ
  w : ℕ
  startH : ℕ
  startW : ℕ
  startC : ℕ
  /-- input and output channels of the upsampling blocks -/
  blocks : List (ℕ × ℕ)
  lastC : ℕ
  act : Act

/-- The blocks, decoders.py:212-223: the list of channel pairs and the final channel number. -/
def convBlocks (c : ℕ) : ℕ → ℕ → List (ℕ × ℕ) × ℕ
  | 0, i => ([], i)
  | m + 1, i => ((i, max c (i / 2)) :: (convBlocks c m (max c (i / 2))).1, (convBlocks c m (max c (i / 2))).2)

/-- `max(1, math.ceil(x / scale))`. -/
def startSize (x scale : ℕ) : ℕ := max 1 ((x + scale - 1) / scale)

/-- `ConvDecoder2D.__init__`, decoders.py:162-233; `shape` is the tuple `output_shape`. -/
def mkConv (latent : ℤ) (shape : List ℤ) (base ups : ℤ) (act : Act) : Except Exc Conv :=
  if latent ≤ 0 then .error .invalidParameter
  else
    match shape with
    | [c, h, w] =>
      if c ≤ 0 ∨ h ≤ 0 ∨ w ≤ 0 then .error .invalidParameter
      else if base ≤ 0 then .error .invalidParameter
      else if ups < 0 then .error .invalidParameter
      else if act = .other ∨ act = .linear then .error .invalidParameter
      else
        let s := 2 ^ ups.toNat
        let bl := convBlocks c.toNat ups.toNat base.toNat
        .ok ⟨latent.toNat, c.toNat, h.toNat, w.toNat, startSize h.toNat s, startSize w.toNat s, base.toNat, bl.1, bl.2, act⟩
    | _ => .error .invalidParameter

/-- `rearrange(x, "b (c h w) -> b c h w", h=h, w=w)`. -/
def unflatten (c h w : ℕ) (x : Vec) : Except Exc Img :=
  if x.d ≠ c * h * w then .error .runtimeError
  else .ok ⟨x.n, c, h, w, fun n a i j => x.v n ((a * h + i) * w + j)⟩

/-- `self.upsample`. -/
noncomputable def upRun (P : Params) : ℕ → List (ℕ × ℕ) → Img → Except Exc Img
  | _, [], x => .ok x
  | l, (i, o) :: rest, x =>
    conv2d P l i o 3 1 true (upsample x) >>= fun y => upRun P (l + 1) rest (y.map leaky)

/-- `ConvDecoder2D.forward`, decoders.py:235-265. -/
noncomputable def Conv.forward (m : Conv) (P : Params) (z : Vec) : Except Exc Img :=
  if z.d ≠ m.latent then .error .invalidParameter
  else
    linear P 0 m.latent (m.startC * m.startH * m.startW) z >>= fun y =>
    unflatten m.startC m.startH m.startW y >>= fun x =>
    upRun P 1 m.blocks x >>= fun x =>
    conv2d P 0 m.lastC m.c 3 1 true x >>= fun x =>
    .ok ((fit m.h m.w x).map m.act.app)

/-! ## NeuralDecoder2D -/

/-- A built `NeuralDecoder2D`. -/
structure Neural where
  latent : ℕ
  c : ℕ
  h : ℕ
  w : ℕ
  firstH : ℕ
  firstW : ℕ
  hid : ℕ
  res : ℕ
  nres : ℕ
  nscales : ℕ
  bn : Bool
  act : Act

/-- `NeuralDecoder2D.__init__`, decoders.py:271-371. -/
def mkNeural (latent : ℤ) (shape : List ℤ) (hid res nres nscales : ℤ) (bn : Bool) (act : Act) : Except Exc Neural :=
  if latent ≤ 0 then .error .invalidParameter
  else
    match shape with
    | [c, h, w] =>
      if c ≤ 0 ∨ h ≤ 0 ∨ w ≤ 0 then .error .invalidParameter
      else if hid ≤ 0 ∨ res ≤ 0 ∨ nres ≤ 0 then .error .invalidParameter
      else if nscales < 2 then .error .invalidParameter
      else if h.toNat % 2 ^ nscales.toNat ≠ 0 ∨ w.toNat % 2 ^ nscales.toNat ≠ 0 then .error .invalidParameter
      else if hid.toNat % 2 ≠ 0 then .error .invalidParameter
      else if act = .other then .error .invalidParameter
      else .ok ⟨latent.toNat, c.toNat, h.toNat, w.toNat, h.toNat / 2 ^ nscales.toNat, w.toNat / 2 ^ nscales.toNat,
        hid.toNat, res.toNat, nres.toNat, nscales.toNat, bn, act⟩
    | _ => .error .invalidParameter

/-- `for scale in self.scales: x = relu(scale(x))`, decoders.py:382-384, at layer positions `l, l + 1, …`. -/
noncomputable def scaleRun (P : Params) (ch : ℕ) : ℕ → ℕ → Img → Except Exc Img
  | 0, _, x => .ok x
  | m + 1, l, x =>
    convT P l ch ch x >>= fun y => scaleRun P ch m (l + 1) (y.map relu)

/-- `NeuralDecoder2D.forward`, decoders.py:373-396. -/
noncomputable def Neural.forward (m : Neural) (P : Params) (train : Bool) (z : Vec) : Except Exc Img :=
  if z.d ≠ m.latent then .error .invalidParameter
  else
    linear P 0 m.latent (m.firstH * m.firstW * m.hid) z >>= fun y =>
    unflatten ((m.firstH * m.firstW * m.hid) / (m.firstH * m.firstW)) m.firstH m.firstW y >>= fun x =>
    conv2d P 0 m.hid m.hid 3 1 true x >>= fun x =>
    stack P m.hid m.res m.bn train m.nres 3 x >>= fun x =>
    scaleRun P m.hid (m.nscales - 2) (3 + 2 * m.nres) (x.map relu) >>= fun x =>
    convT P 1 m.hid (m.hid / 2) x >>= fun x =>
    convT P 2 (m.hid / 2) m.c (x.map relu) >>= fun x =>
    .ok ((fit m.h m.w x).map m.act.app)

end Dec
end Verif

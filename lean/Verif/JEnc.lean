import Verif.ApcEnc
import Verif.Conv

/-!
Model of `ConvPcJointEncoder`, spflow/zoo/apc/encoders/convpc_joint_encoder.py, on top of `Verif.Conv.Net` (the layers) and of
`Verif.Apc` (columns, evidence, the shared base class joint_pc_base.py).

Simplifications: a module with `R` repetitions is represented by its `R` slices, each a network of one repetition (no layer
below the mixing layer mixes repetitions); the draws of the constructor (logits, permutation) are arguments; one row at a
time; the relaxed (`is_differentiable`) sampling is represented by its hard forward value.
-/

namespace Verif.JEnc

open Verif.Circ Verif.Conv Verif.Apc

/-- Constructor arguments, convpc_joint_encoder.py:281-300; `none` stands for `None`. -/
structure Args where
  height : ℤ
  width : ℤ
  inC : ℤ := 1
  nz : ℤ
  channels : ℤ
  depth : ℤ
  k : ℤ
  reps : ℤ := 1
  conv : Bool := false
  latentDepth : ℤ := 0
  perm : Bool := false
  zC : Option ℤ := none
  xC : Option ℤ := none

/-- What the constructor draws for one repetition: the logits of the sum layers, of the latent sum and of the root. -/
structure Draws where
  W : ℕ → ℕ → ℕ → ℕ → ℕ → LogV
  z : ℕ → ℕ → ℕ → LogV
  root : ℕ → ℕ → ℕ → LogV

/-- A leaf factory: from the scope, the channels and the repetitions to the leaf, given by its repetition slices. -/
abbrev Factory := List Var → ℕ → ℕ → ℕ → Option Circ

/-- `x_leaf_channels`, `latent_channels`: `channels` by default, convpc_joint_encoder.py:343-344. -/
def orChannels (a : Args) (o : Option ℤ) : ℤ :=
  match o with
  | none => a.channels
  | some c => c

/-- The checks of the constructor, convpc_joint_encoder.py:304-329 and 345-348. -/
def checkArgs (a : Args) : Except Exc Unit :=
  if a.height ≤ 0 ∨ a.width ≤ 0 then .error .invalidParameter
  else if a.inC ≤ 0 then .error .invalidParameter
  else if a.nz ≤ 0 then .error .invalidParameter
  else if a.channels ≤ 0 then .error .invalidParameter
  else if a.depth ≤ 0 then .error .invalidParameter
  else if a.k ≤ 0 then .error .invalidParameter
  else if a.reps ≤ 0 then .error .invalidParameter
  else if a.depth < 2 then .error .invalidParameter
  else if a.latentDepth < 0 ∨ a.latentDepth ≥ a.depth then .error .invalidParameter
  else if orChannels a a.xC ≤ 0 ∨ orChannels a a.zC ≤ 0 then .error .invalidParameter
  else .ok ()

/-- The product reductions of the latent stream, convpc_joint_encoder.py:388-401 (`while reduced_features > target_features`;
`fuel` bounds the number of halvings, `n.F` of them suffice). -/
def reduceLoop (target : ℕ) : ℕ → Net → Except Exc Net
  | 0, n => .ok n
  | fuel + 1, n =>
    if n.F ≤ target then .ok n
    else if n.F % 2 ≠ 0 then .error .invalidParameter
    else reduceLoop target fuel (.pair n)

/-- `_build_reference_latent_stream`, convpc_joint_encoder.py:378-430; `p` is the drawn permutation. -/
def latentStream (zl : Net) (target channels : ℕ) (permute : Bool) (p : List ℕ) (θ : ℕ → ℕ → ℕ → LogV) : Except Exc Net :=
  match reduceLoop target zl.F zl with
  | .error e => .error e
  | .ok m =>
    if m.F < target ∨ permute = true then addSum (.pack m target (if permute then some p else none)) channels θ
    else addSum m channels θ

/-- The fusion at product stage `st`, convpc_joint_encoder.py:518-548. -/
def inject (zl : Circ) (ld channels : ℕ) (permute : Bool) (p : List ℕ) (θ : ℕ → ℕ → ℕ → LogV) (st : ℕ) (n : Net) : Except Exc Net :=
  if st ≠ ld then .ok n
  else match latentStream (.base zl) n.F channels permute p θ with
    | .error e => .error e
    | .ok l =>
      if n.F ≠ l.F then .error .shapeError
      else if n.C ≠ l.C then .error .shapeError
      else .ok (.fuse n l)

/-- The `d` stages (sum, product) above product stage `st`, convpc_joint_encoder.py:485-548. -/
def tower (conv : Bool) (channels k : ℕ) (W : ℕ → ℕ → ℕ → ℕ → ℕ → LogV) (inj : ℕ → Net → Except Exc Net) : ℕ → ℕ → Net → Except Exc Net
  | _, 0, n => .ok n
  | st, d + 1, n => do
    let s ← if conv then addSumConv n channels k (W d) else addSum n channels (fun f ci co => W d f ci co 0)
    let m ← addProd s k k 0 0
    let m' ← inj (st + 1) m
    tower conv channels k W inj (st + 1) d m'

/-- `_build_joint_convpc_reference`, convpc_joint_encoder.py:432-550, for one repetition. -/
def buildSlice (a : Args) (xl zl : Circ) (p : List ℕ) (d : Draws) : Except Exc Net := do
  let t := a.k.toNat ^ (a.depth.toNat - 1)
  let h ← kernelPadding a.height.toNat t
  let w ← kernelPadding a.width.toNat t
  let b ← addProd (.base xl) h.1 w.1 h.2 w.2
  let inj := inject zl a.latentDepth.toNat a.channels.toNat a.perm p d.z
  let b' ← inj 0 b
  let m ← tower a.conv a.channels.toNat a.k.toNat d.W inj 0 (a.depth.toNat - 1) b'
  addSum m 1 d.root

/-- A built encoder: the widths, the image shape, the repetition slices and the logits of the mixing layer. -/
structure Enc where
  nx : ℕ
  nz : ℕ
  inC : ℕ
  height : ℕ
  width : ℕ
  slices : List Net
  mix : ℕ → LogV

/-- `num_x_features`, convpc_joint_encoder.py:333. -/
def Args.nx (a : Args) : ℕ := (a.height * a.width * a.inC).toNat

/-- `ConvPcJointEncoder.__init__`, convpc_joint_encoder.py:281-376 and 550-557; `d r`: the draws for repetition `r`. -/
def build (a : Args) (xf zf : Factory) (p : List ℕ) (d : ℕ → Draws) (mix : ℕ → LogV) : Except Exc Enc :=
  match checkArgs a with
  | .error e => .error e
  | .ok () =>
    let slice (r : ℕ) : Except Exc Net :=
      match validateLeaf (xf (xCols a.nx) (orChannels a a.xC).toNat a.reps.toNat r) (xCols a.nx) with
      | .error e => .error e
      | .ok xl => match validateLeaf (zf (zCols a.nx a.nz.toNat) (orChannels a a.zC).toNat a.reps.toNat r) (zCols a.nx a.nz.toNat) with
        | .error e => .error e
        | .ok zl => buildSlice a xl zl p (d r)
    match (List.range a.reps.toNat).mapM slice with
    | .error e => .error e
    | .ok l => .ok ⟨a.nx, a.nz.toNat, a.inC.toNat, a.height.toNat, a.width.toNat, l, mix⟩

namespace Enc

/-- `RepetitionMixingLayer.log_likelihood`, repetition_mixing_layer.py:169-198, for one feature and channel. -/
noncomputable def mixLL (E : Enc) (v : ℕ → LogV) : LogV := lse E.slices.length fun r => v r + logSoftmax E.slices.length E.mix r

/-- Values of the root of every slice. -/
noncomputable def slices1 (E : Enc) (x : Row) : Except Exc (List LogV) :=
  E.slices.mapM fun n => match n.logLik x with
    | .error e => .error e
    | .ok T => .ok (T 0 0 0)

/-- `_flatten_ll(self.pc.log_likelihood(row))`, joint_pc_base.py:101-110: exactly one feature is required; the mixing layer
exists when there is more than one repetition, convpc_joint_encoder.py:553-555. -/
noncomputable def logLik (E : Enc) (x : Row) : Except Exc LogV :=
  match E.slices1 x with
  | .error e => .error e
  | .ok vs =>
    if E.slices.any fun n => n.F ≠ 1 then .error .shapeError
    else if E.slices.length ≤ 1 then .ok (vs.getD 0 ⊥)
    else .ok (E.mixLL fun r => vs.getD r ⊥)

/-- `_flatten_x`, convpc_joint_encoder.py:560-583: rank 2, or rank 4 of exactly the image shape. -/
def flattenX (E : Enc) (t : Batch) : Except Exc Flat :=
  match t.dims with
  | [b, n] => if n ≠ E.nx then .error .shapeError else .ok ⟨b, t.at2⟩
  | [b, c, h, w] =>
    if c ≠ E.inC ∨ h ≠ E.height ∨ w ≠ E.width then .error .shapeError
    else if c * h * w ≠ E.nx then .error .shapeError
    else .ok ⟨b, t.at2⟩
  | _ => .error .shapeError

/-- `log_likelihood` of the evidence rows. -/
noncomputable def logLiks (E : Enc) (n : ℕ) (e : ℕ → Row) : Except Exc (List LogV) := (List.range n).mapM fun b => E.logLik (e b)

/-- `joint_log_likelihood`, joint_pc_base.py:262-268; `_flatten_z`: convpc_joint_encoder.py:591-598. -/
noncomputable def jointLL (E : Enc) (x z : Batch) : Except Exc (List LogV) :=
  match E.flattenX x with
  | .error e => .error e
  | .ok xf => match flatten E.nz z with
    | .error e => .error e
    | .ok zf => match buildEvidence E.nx E.nz (some xf) (some zf) none with
      | .error e => .error e
      | .ok (n, e) => E.logLiks n e

/-- `log_likelihood_x`, joint_pc_base.py:270-275. -/
noncomputable def marginalLL (E : Enc) (x : Batch) : Except Exc (List LogV) :=
  match E.flattenX x with
  | .error e => .error e
  | .ok xf => match buildEvidence E.nx E.nz (some xf) none none with
    | .error e => .error e
    | .ok (n, e) => E.logLiks n e

/-- The slice of repetition `r`. -/
def slice (E : Enc) (r : ℕ) : Net := E.slices.getD r (.base (.cat1 0 fun i => i.elim0))

/-- `_sample` of the root of one slice with a context of channel 0 and mask True. -/
noncomputable def sliceSample (ev : Option Row) (n : Net) (y : Row) : Prog Row := n.sample ev (fun _ => 0) (fun _ => true) y

/-- `_sample_joint`, joint_pc_base.py:122-158: log-likelihoods of the evidence are cached, then top-down; the repetition is
drawn from the mixing logits plus the cached values, repetition_mixing_layer.py:97-165. -/
noncomputable def sampleJoint (E : Enc) (e : Row) : Prog Row :=
  if E.slices.length ≤ 1 then sliceSample (some e) (E.slice 0) e
  else .choose E.slices.length (logSoftmax E.slices.length fun r => E.mix r + (E.slice r).val 0 e 0)
    fun r => sliceSample (some e) (E.slice r) e

/-- `self.pc.sample()` of one row: no cached likelihoods, so the repetition is drawn from the mixing logits. -/
noncomputable def samplePc (E : Enc) : Prog Row :=
  if E.slices.length ≤ 1 then sliceSample none (E.slice 0) fun _ => none
  else .choose E.slices.length E.mix fun r => sliceSample none (E.slice r) fun _ => none

/-- `encode` without statistics: the number of rows and how each latent row is sampled, joint_pc_base.py:160-169 and 216-239. -/
noncomputable def encode (E : Enc) (x : Batch) : Except Exc (ℕ × (ℕ → Prog (ℕ → Option ℝ))) :=
  match E.flattenX x with
  | .error e => .error e
  | .ok xf => match buildEvidence E.nx E.nz (some xf) none none with
    | .error e => .error e
    | .ok (n, e) => .ok (n, fun b => Prog.bind (E.sampleJoint (e b)) fun y => .ret (zPart E.nx E.nz y))

/-- `sample_prior_z`, joint_pc_base.py:277-285. -/
noncomputable def prior (E : Enc) (n : ℤ) : Except Exc (ℕ × (ℕ → Prog (ℕ → Option ℝ))) :=
  if n ≤ 0 then .error .invalidParameter
  else match buildEvidence E.nx E.nz none none (some n.toNat) with
    | .error e => .error e
    | .ok (n, e) => .ok (n, fun b => Prog.bind (E.sampleJoint (e b)) fun y => .ret (zPart E.nx E.nz y))

/-- `x_flat = None if x is None else self._flatten_x(x)`, joint_pc_base.py:253. -/
def flattenXOpt (E : Enc) (x : Option Batch) : Except Exc (Option Flat) :=
  match x with
  | none => .ok none
  | some x => match E.flattenX x with
    | .error e => .error e
    | .ok xf => .ok (some xf)

/-- Shape of `_reshape_x_like(x_flat, x)`, convpc_joint_encoder.py:585-589, for `n` rows. -/
def likeDims (E : Enc) (n : ℕ) (x : Option Batch) : List ℕ :=
  if (x.map fun t => t.dims.length) = some 2 then [n, E.nx] else [n, E.inC, E.height, E.width]

/-- `decode`, joint_pc_base.py:240-260: the shape of the result and how each (flattened) row is sampled. -/
noncomputable def decode (E : Enc) (z : Batch) (x : Option Batch) (fill : Bool) :
    Except Exc (List ℕ × (ℕ → Prog (ℕ → Option ℝ))) :=
  match flatten E.nz z with
  | .error e => .error e
  | .ok zf => match E.flattenXOpt x with
    | .error e => .error e
    | .ok xf => match buildEvidence E.nx E.nz xf (some zf) none with
      | .error e => .error e
      | .ok (n, e) => .ok (E.likeDims n x, fun b => Prog.bind (E.sampleJoint (e b)) fun y => .ret (fillRow fill xf b (xPart E.nx y)))

end Enc

end Verif.JEnc

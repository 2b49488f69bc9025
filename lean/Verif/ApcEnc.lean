import Verif.EinetProps
import Verif.SimpleCirc

/-!
# Joint APC encoder over an Einet (model for C75)

Sources: `spflow/zoo/apc/encoders/einet_joint_encoder.py`, `spflow/zoo/apc/encoders/joint_pc_base.py`.
Variables are columns; `none` is NaN. The rows of a batch are sampled independently, so sampling is modelled per row. Sampling is
differentiable; its decisions are the `choose` nodes of a program, whose one-hot implementation is C73. `mpe=True` is not modelled.
-/

namespace Verif.Apc

open Verif.Rat Verif.Circ
open Verif.Prog hiding bind

/-- A tensor: its shape, and the flattened entries of every row (`rearrange(x, "b ... -> b (...)")`). -/
structure Batch where
  dims : List ℕ
  at2 : ℕ → ℕ → Option ℝ

/-- A flattened batch: the number of rows and the entries. -/
structure Flat where
  rows : ℕ
  at2 : ℕ → ℕ → Option ℝ

/-- Constructor arguments of `EinetJointEncoder`, einet_joint_encoder.py:43-55. -/
structure EncArgs where
  nx : ℤ
  nz : ℤ
  sums : ℕ
  leaves : ℕ
  depth : ℤ
  R : ℕ
  layer : Layer

/-- An `EinetJointEncoder`. -/
structure JointEnc where
  nx : ℕ
  nz : ℕ
  pc : Model

/-- The columns of the observed variables, einet_joint_encoder.py:79. -/
def xCols (nx : ℕ) : List Var := (List.range nx).map fun i : ℕ => (i : ℤ)

/-- The columns of the latent variables, einet_joint_encoder.py:80. -/
def zCols (nx nz : ℕ) : List Var := (List.range nz).map fun j : ℕ => ((nx + j : ℕ) : ℤ)

/-- `_validate_leaf_scope`, joint_pc_base.py:30-42; `none`: the factory did not return a leaf. -/
def validateLeaf (leaf : Option Circ) (expected : List Var) : Except Exc Circ :=
  match leaf with
  | none => .error .invalidParameter
  | some c =>
    if (scope c).query.toFinset ≠ expected.toFinset ∨ (scope c).query.length ≠ expected.length then .error .invalidParameter
    else .ok c

/-- The arguments handed to `Einet`, einet_joint_encoder.py:92-101. -/
def EncArgs.einet (a : EncArgs) : EArgs := ⟨1, a.sums, a.leaves, a.depth, a.R, a.layer, .topDown⟩

/-- `EinetJointEncoder.__init__`, einet_joint_encoder.py:43-101. -/
def buildEncoder (a : EncArgs) (xf zf : List Var → ℕ → ℕ → Option Circ) (d : Draws) : Except Exc JointEnc :=
  if a.nx ≤ 0 then .error .invalidParameter
  else if a.nz ≤ 0 then .error .invalidParameter
  else match validateLeaf (xf (xCols a.nx.toNat) a.leaves a.R) (xCols a.nx.toNat) with
    | .error e => .error e
    | .ok xl => match validateLeaf (zf (zCols a.nx.toNat a.nz.toNat) a.leaves a.R) (zCols a.nx.toNat a.nz.toNat) with
      | .error e => .error e
      | .ok zl => match buildEinet [xl, zl] a.einet d with
        | .error e => .error e
        | .ok m => .ok ⟨a.nx.toNat, a.nz.toNat, m⟩

/-- `_flatten_x` and `_flatten_z`, einet_joint_encoder.py:103-121: `n` is the expected number of features. -/
def flatten (n : ℕ) (t : Batch) : Except Exc Flat :=
  match t.dims with
  | [] => .error .shapeError
  | [_] => .error .shapeError
  | b :: rest => if rest.prod ≠ n then .error .shapeError else .ok ⟨b, t.at2⟩

/-- One row of `torch.cat([x_flat, z_flat], dim=1)`. -/
def colRow (nx nz : ℕ) (x z : ℕ → Option ℝ) : Row := fun v : ℤ =>
  if 0 ≤ v ∧ v < nx then x v.toNat else if (nx : ℤ) ≤ v ∧ v < (nx + nz : ℕ) then z (v - nx).toNat else none

/-- `_build_evidence`, joint_pc_base.py:54-98. -/
def buildEvidence (nx nz : ℕ) (x z : Option Flat) (n : Option ℕ) : Except Exc (ℕ × (ℕ → Row)) :=
  match x, z, n with
  | none, none, none => .error .invalidParameter
  | none, none, some n => .ok (n, fun _ => colRow nx nz (fun _ => none) fun _ => none)
  | some x, none, _ => .ok (x.rows, fun b => colRow nx nz (x.at2 b) fun _ => none)
  | none, some z, none => .ok (z.rows, fun b => colRow nx nz (fun _ => none) (z.at2 b))
  | none, some z, some n => if z.rows ≠ n then .error .shapeError else .ok (n, fun b => colRow nx nz (fun _ => none) (z.at2 b))
  | some x, some z, _ =>
    if z.rows ≠ x.rows then .error .shapeError else .ok (x.rows, fun b => colRow nx nz (x.at2 b) (z.at2 b))

/-- The log-likelihoods of all rows. -/
noncomputable def logLiks (m : Model) (n : ℕ) (e : ℕ → Row) : Except Exc (List (Option LogV)) := (List.range n).mapM fun b => m.logLik (e b)

/-- `joint_log_likelihood`, joint_pc_base.py:252-258. -/
noncomputable def JointEnc.jointLL (E : JointEnc) (x z : Batch) : Except Exc (List (Option LogV)) :=
  match flatten E.nx x with
  | .error e => .error e
  | .ok xf => match flatten E.nz z with
    | .error e => .error e
    | .ok zf => match buildEvidence E.nx E.nz (some xf) (some zf) none with
      | .error e => .error e
      | .ok (n, e) => logLiks E.pc n e

/-- `log_likelihood_x`, joint_pc_base.py:260-265. -/
noncomputable def JointEnc.marginalLL (E : JointEnc) (x : Batch) : Except Exc (List (Option LogV)) :=
  match flatten E.nx x with
  | .error e => .error e
  | .ok xf => match buildEvidence E.nx E.nz (some xf) none none with
    | .error e => .error e
    | .ok (n, e) => logLiks E.pc n e

/-- `joint[:, self._z_cols]`. -/
def zPart (nx nz : ℕ) (y : Row) : ℕ → Option ℝ := fun j => if j < nz then y ((nx + j : ℕ) : ℤ) else none

/-- `joint[:, self._x_cols]`. -/
def xPart (nx : ℕ) (y : Row) : ℕ → Option ℝ := fun i => if i < nx then y (i : ℤ) else none

/-- `encode` without statistics, joint_pc_base.py:164-173 and 203-214: the number of rows and how each is sampled. -/
noncomputable def JointEnc.encode (E : JointEnc) (x : Batch) : Except Exc (ℕ × (ℕ → Prog (ℕ → Option ℝ))) :=
  match flatten E.nx x with
  | .error e => .error e
  | .ok xf => match buildEvidence E.nx E.nz (some xf) none none with
    | .error e => .error e
    | .ok (n, e) => .ok (n, fun b => Prog.bind (E.pc.sampleWithEvidence (e b)) fun y => .ret (zPart E.nx E.nz y))

/-- `torch.where(finite_mask, x_flat, x_rec_flat)`, joint_pc_base.py:247-249. -/
def fillRow (fill : Bool) (x : Option Flat) (b : ℕ) (r : ℕ → Option ℝ) : ℕ → Option ℝ :=
  match fill, x with
  | true, some xf => fun i => match xf.at2 b i with
    | some t => some t
    | none => r i
  | _, _ => r

/-- `x_flat = None if x is None else self._flatten_x(x)`, joint_pc_base.py:242. -/
def flattenOpt (n : ℕ) (x : Option Batch) : Except Exc (Option Flat) :=
  match x with
  | none => .ok none
  | some x => match flatten n x with
    | .error e => .error e
    | .ok xf => .ok (some xf)

/-- `decode`, joint_pc_base.py:228-250. -/
noncomputable def JointEnc.decode (E : JointEnc) (z : Batch) (x : Option Batch) (fill : Bool) :
    Except Exc (ℕ × (ℕ → Prog (ℕ → Option ℝ))) :=
  match flatten E.nz z with
  | .error e => .error e
  | .ok zf => match flattenOpt E.nx x with
    | .error e => .error e
    | .ok xf => match buildEvidence E.nx E.nz xf (some zf) none with
      | .error e => .error e
      | .ok (n, e) => .ok (n, fun b => Prog.bind (E.pc.sampleWithEvidence (e b)) fun y => .ret (fillRow fill xf b (xPart E.nx y)))

/-- `sample_prior_z`, joint_pc_base.py:267-275. -/
noncomputable def JointEnc.prior (E : JointEnc) (n : ℤ) : Except Exc (ℕ × (ℕ → Prog (ℕ → Option ℝ))) :=
  if n ≤ 0 then .error .invalidParameter
  else match buildEvidence E.nx E.nz none none (some n.toNat) with
    | .error e => .error e
    | .ok (n, e) => .ok (n, fun b => Prog.bind (E.pc.sampleWithEvidence (e b)) fun y => .ret (zPart E.nx E.nz y))

end Verif.Apc

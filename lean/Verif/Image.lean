import Verif.Marginalize
import Verif.Sampling
/-
Model of spflow/modules/wrapper/image_wrapper.py: `ImageWrapper`, which lets a circuit be used on image tensors
`(batch, channels, height, width)`, on top of the circuit, marginalisation and sampling models.

Tensors are a shape and a cell function; NaN is `none`. Rows of a batch are treated independently, as in the sampling
model. Devices, the cache, in-place effects on the caller's tensor, `extra_repr` and the EM step (which only flattens and
delegates) are not modelled.
-/
namespace Verif.Image
open Circ

/-- A tensor: its shape and its entries (`none` is NaN). -/
structure Tensor where
  shape : List ℕ
  cell : List ℕ → Option ℝ

/-- `ImageWrapper`: the module and the three sizes (image_wrapper.py:41-80). The sizes are Python integers. -/
structure Wrap where
  module : Circ
  c : ℤ
  h : ℤ
  w : ℤ

/-- `ImageWrapper.__init__` (image_wrapper.py:57-80). -/
def mkWrap (m : Circ) (c h w : ℤ) : Except Exc Wrap :=
  if ((scope m).query.length : ℤ) ≠ h * w * c then .error .structureError else .ok ⟨m, c, h, w⟩

/-- `rearrange(t, "b c h w -> b (c h w)")` (image_wrapper.py:102): the image index of a column. -/
def pixelOf (h w j : ℕ) : List ℕ := [j / (h * w), j % (h * w) / w, j % (h * w) % w]

/-- `flatten` (image_wrapper.py:82-102). -/
def flatten (W : Wrap) (t : Tensor) : Except Exc Tensor :=
  match t.shape with
  | [b, c, h, w] =>
    if (c : ℤ) ≠ W.c then .error .shapeError
    else .ok ⟨[b, c * h * w], fun idx => t.cell (idx.getD 0 0 :: pixelOf h w (idx.getD 1 0))⟩
  | _ => .error .shapeError

/-- The size check of `rearrange` with given sizes (einops raises an `EinopsError`, a `RuntimeError`). -/
def sizeOk (W : Wrap) (n : ℕ) : Prop := 0 ≤ W.c ∧ 0 ≤ W.h ∧ 0 ≤ W.w ∧ W.c * W.h * W.w = n

instance (W : Wrap) (n : ℕ) : Decidable (sizeOk W n) := by unfold sizeOk; infer_instance

/-- The column of pixel `(c, h, w)` in `rearrange(t, "b (c h w) -> b c h w")` (image_wrapper.py:123-129). -/
def column (W : Wrap) (c h w : ℕ) : ℕ := (c * W.h.toNat + h) * W.w.toNat + w

/-- `to_image_format(tensor)` (image_wrapper.py:104-129). -/
def toImage (W : Wrap) (t : Tensor) : Except Exc Tensor :=
  match t.shape with
  | [b, n] =>
    if sizeOk W n then
      .ok ⟨[b, W.c.toNat, W.h.toNat, W.w.toNat], fun idx =>
        t.cell [idx.getD 0 0, column W (idx.getD 1 0) (idx.getD 2 0) (idx.getD 3 0)]⟩
    else .error .runtimeError
  | _ => .error .shapeError

/-- Row `i` of a flat tensor as the data row of a circuit: variable `v` reads column `v`. -/
def rowOf (t : Tensor) (i : ℕ) : Row := fun v => if 0 ≤ v ∧ v < (t.shape.getD 1 0 : ℕ) then t.cell [i, v.toNat] else none

/-- `module.log_likelihood(data)` on a two-dimensional tensor: the leaves read `data[:, scope.query]` (leaf.py), which
raises an IndexError for a variable that is no column. (If the tensors of the module also do not fit together, which of the
two exceptions comes first is not modelled.) -/
noncomputable def llFlat (m : Circ) (t : Tensor) : Except Exc (ℕ → ℕ → ℕ → ℕ → LogV) :=
  open Classical in
  if ∃ v ∈ (scope m).query, ((t.shape.getD 1 0 : ℕ) : ℤ) ≤ v then .error .indexError
  else
    match tensorR m with
    | none => .error .runtimeError
    | some _ => .ok fun i f ch r => featAt (den m) f (rowOf t i) r ch

/-- `log_likelihood` (image_wrapper.py:174-207). -/
noncomputable def logLik (W : Wrap) (t : Tensor) : Except Exc (ℕ → ℕ → ℕ → ℕ → LogV) :=
  match t.shape with
  | [] => .error .indexError
  | _ :: dims =>
    if (dims.map fun n : ℕ => (n : ℤ)) ≠ [W.c, W.h, W.w] then .error .shapeError
    else
      match flatten W t with
      | .error e => .error e
      | .ok flat => llFlat W.module flat

/-- `_prepare_sample_data` (image_wrapper.py:209-238). (For a tensor without axes `data.shape[0]` raises an IndexError; here the
ShapeError of `flatten` is reported.) -/
def prepare (W : Wrap) (num : Option ℕ) (data : Option Tensor) : Except Exc Tensor :=
  match data with
  | some t =>
    match num with
    | some n => if t.shape.getD 0 0 ≠ n then .error .valueError else .ok t
    | none => .ok t
  | none => .ok ⟨[num.getD 1, W.c.toNat, W.h.toNat, W.w.toNat], fun _ => none⟩

/-- One image: the entries at channel, height and width. -/
abbrev Pic := ℕ → ℕ → ℕ → Option ℝ

/-- Image `i` of a tensor in image format. -/
def picOf (t : Tensor) (i : ℕ) : Pic := fun c h w =>
  if c < t.shape.getD 1 0 ∧ h < t.shape.getD 2 0 ∧ w < t.shape.getD 3 0 then t.cell [i, c, h, w] else none

/-- The flat tensor whose row `i` is the sampled row. -/
def withRow (flat : Tensor) (y : Row) : Tensor := ⟨flat.shape, fun idx => y (idx.getD 1 0 : ℕ)⟩

/-- `sample` (image_wrapper.py:240-291): the number of images, and for each of them the random program that produces it;
with `ev` the cache holds the likelihoods of the data. A size that does not fit the image format raises after sampling. -/
noncomputable def sample (ev : Bool) (W : Wrap) (num : Option ℕ) (data : Option Tensor) :
    Except Exc (ℕ × (ℕ → Prog Pic)) :=
  match prepare W num data with
  | .error e => .error e
  | .ok t =>
    match flatten W t with
    | .error e => .error e
    | .ok flat =>
      open Classical in
      if ∃ v ∈ (scope W.module).query, ((flat.shape.getD 1 0 : ℕ) : ℤ) ≤ v then .error .indexError
      else
        match toImage W flat with
        | .error e => .error e
        | .ok _ => .ok (flat.shape.getD 0 0, fun i =>
            (if ev = true then sampleWithEvidence W.module (rowOf flat i) else sampleData W.module (rowOf flat i)).bind
              fun y =>
                match toImage W (withRow flat y) with
                | .error e => .fail e
                | .ok t => .ret (picOf t i))

/-- `sample_with_evidence(e)` (module.py:297-329): the log-likelihood of the evidence first, then `sample(data=e)`. -/
noncomputable def sampleEvidence (W : Wrap) (t : Tensor) : Except Exc (ℕ × (ℕ → Prog Pic)) :=
  match logLik W t with
  | .error e => .error e
  | .ok _ => sample true W none (some t)

/-! ### Marginalisation -/

/-- A Python index into an axis of length `n`: negative indices count from the end, others raise an IndexError. -/
def pyIndex (n : ℕ) (i : ℤ) : Except Exc ℕ :=
  if 0 ≤ i ∧ i < n then .ok i.toNat else if i < 0 ∧ -n ≤ i then .ok (i + n).toNat else .error .indexError

/-- The variables at the positions of the slices `sel k` for the indices of `idx`, concatenated. -/
def slices (n : ℕ) (sel : ℕ → List Var) : List ℤ → Except Exc (List Var)
  | [] => .ok []
  | i :: l =>
    match pyIndex n i with
    | .error e => .error e
    | .ok k =>
      match slices n sel l with
      | .error e => .error e
      | .ok r => .ok (sel k ++ r)

/-- The scope in image format (image_wrapper.py:326-328): the variable at pixel `(c, h, w)`. -/
def varAt (W : Wrap) (c h w : ℕ) : Var := (scope W.module).query.getD (column W c h w) 0

/-- `marg_rvs` (image_wrapper.py:325-340), for `MarginalizationContext(c, h, w)`. -/
def margVars (W : Wrap) (cs hs ws : List ℤ) : Except Exc (List Var) :=
  let C := W.c.toNat
  let H := W.h.toNat
  let D := W.w.toNat
  match slices H (fun h => (List.range C).flatMap fun c => (List.range D).map fun w => varAt W c h w) hs with
  | .error e => .error e
  | .ok a =>
    match slices D (fun w => (List.range C).flatMap fun c => (List.range H).map fun h => varAt W c h w) ws with
    | .error e => .error e
    | .ok b =>
      match slices C (fun c => (List.range H).flatMap fun h => (List.range D).map fun w => varAt W c h w) cs with
      | .error e => .error e
      | .ok d => .ok (a ++ b ++ d)

/-- `marginalize` (image_wrapper.py:307-350). -/
noncomputable def marginalize (W : Wrap) (cs hs ws : List ℤ) (prune : Bool) : Except Exc (Option Wrap) :=
  if sizeOk W (scope W.module).query.length then
    match margVars W cs hs ws with
    | .error e => .error e
    | .ok M =>
      match marg M prune W.module with
      | .error e => .error e
      | .ok none => .ok none
      | .ok (some m) =>
        match mkWrap m (W.c - cs.length) (W.h - hs.length) (W.w - ws.length) with
        | .error e => .error e
        | .ok V => .ok (some V)
  else .error .runtimeError

end Verif.Image

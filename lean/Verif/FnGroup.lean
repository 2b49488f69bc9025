import Verif.Pic
import Mathlib.Analysis.SpecialFunctions.Trigonometric.Basic

/-!
# Model of functional sharing (C86)

spflow/zoo/pic/functional_sharing.py (FourierFeatures, SharedMLP, MultiHeadedMLP, FunctionGroup) and the materialisation of a
group, `materialize_integral_group` in spflow/zoo/pic/pipeline.py:512-566.

Simplifications: real arithmetic, one device; the random initial parameters are arguments (`draws i` is the `i`-th linear
head that is created); the activation is the default SiLU; `rearrange` to rows and `reshape` back (functional_sharing.py:
325-346) are mutually inverse, so an entry of the result is written directly as a function of the entries at the same place.
-/

namespace Verif.Fs

/-- What the calls raise: one of the exceptions of `Exc`, or an AssertionError. -/
inductive Err
  | exc (e : Exc)
  | assertion
  deriving DecidableEq

/-! ### The shared network -/

/-- `SharedMLP` (functional_sharing.py:74-123): sizes, `num_layers`, the frequencies `B`, and weight (output, input) and bias
of the linear layers. -/
structure Mlp where
  inDim : ℕ
  hidden : ℕ
  layers : ℕ
  B : ℕ → ℕ → ℝ
  W : ℕ → ℕ → ℕ → ℝ
  b : ℕ → ℕ → ℝ

/-- `nn.SiLU()` (functional_sharing.py:92): `t * sigmoid(t)`. -/
noncomputable def silu (t : ℝ) : ℝ := t / (1 + Real.exp (-t))

/-- `nn.Softplus()` (functional_sharing.py:187, 343). -/
noncomputable def softplus (t : ℝ) : ℝ := Real.log (1 + Real.exp t)

/-- `FourierFeatures.forward` (functional_sharing.py:58-71): entry `j` of the `2 * hidden` features of one row. -/
noncomputable def fourier (M : Mlp) (x : ℕ → ℝ) (j : ℕ) : ℝ :=
  if j < M.hidden then Real.sin (∑ i ∈ Finset.range M.inDim, x i * M.B i j)
  else Real.cos (∑ i ∈ Finset.range M.inDim, x i * M.B i (j - M.hidden))

/-- A linear layer with `n` inputs and the activation (functional_sharing.py:112-119). -/
noncomputable def dense (n : ℕ) (W : ℕ → ℕ → ℝ) (b : ℕ → ℝ) (x : ℕ → ℝ) (m : ℕ) : ℝ :=
  silu ((∑ j ∈ Finset.range n, W m j * x j) + b m)

/-- The hidden layers, `range(num_layers - 1)` (functional_sharing.py:117-119), numbered from 1. -/
noncomputable def hiddens (M : Mlp) : ℕ → (ℕ → ℝ) → ℕ → ℝ
  | 0, h => h
  | k + 1, h => dense M.hidden (M.W (k + 1)) (M.b (k + 1)) (hiddens M k h)

/-- `SharedMLP.forward` of one row (functional_sharing.py:126-139). -/
noncomputable def mlp (M : Mlp) (x : ℕ → ℝ) : ℕ → ℝ :=
  hiddens M (M.layers - 1) (dense (2 * M.hidden) (M.W 0) (M.b 0) (fourier M x))

/-- `nn.Linear(hidden_dim, 1)`. -/
structure Head where
  w : ℕ → ℝ
  b : ℝ

/-- A linear head on a hidden vector of size `n`. -/
noncomputable def Head.app (h : Head) (n : ℕ) (x : ℕ → ℝ) : ℝ := (∑ m ∈ Finset.range n, h.w m * x m) + h.b

/-- `MultiHeadedMLP.forward(x)` of one row (functional_sharing.py:193-215): one output per head, or the output of a head given
by a Python index. (`nn.ModuleList` raises an IndexError for other indices, `torch.cat` a RuntimeError without heads.) -/
noncomputable def multi (M : Mlp) (heads : List Head) (x : ℕ → ℝ) (idx : Option ℤ) : Except Exc (List ℝ) :=
  let h := mlp M x
  match idx with
  | some i =>
    if -(heads.length : ℤ) ≤ i ∧ i < heads.length then
      match heads[(if i < 0 then i + heads.length else i).toNat]? with
      | some hd => .ok [softplus (hd.app M.hidden h)]
      | none => .error .indexError
    else .error .indexError
  | none => if heads.isEmpty then .error .runtimeError else .ok (heads.map fun hd => softplus (hd.app M.hidden h))

/-! ### Tensors -/

/-- A tensor of any rank. -/
structure Ten where
  shape : List ℕ
  cell : List ℕ → ℝ

/-- `torch.broadcast_shapes` of two shapes given from the last axis to the first. -/
def bcRev : List ℕ → List ℕ → Option (List ℕ)
  | [], t => some t
  | s, [] => some s
  | a :: s, b :: t =>
    if a = b ∨ b = 1 then (bcRev s t).map (a :: ·)
    else if a = 1 then (bcRev s t).map (b :: ·)
    else none

/-- The index that is read in a tensor of shape `s` for an index of the broadcast shape (both from the last axis to the
first). -/
def rdRev : List ℕ → List ℕ → List ℕ
  | [], _ => []
  | _ :: _, [] => []
  | a :: s, i :: idx => (if a = 1 then 0 else i) :: rdRev s idx

/-- Feature `j` of the row of `t` (last axis) at place `idx` of the broadcast leading shape. -/
def Ten.rowAt (t : Ten) (idx : List ℕ) (j : ℕ) : ℝ :=
  t.cell ((rdRev t.shape.dropLast.reverse idx.reverse).reverse ++ [j])

/-! ### Groups -/

/-- `FunctionGroup` (functional_sharing.py:218-266): kind of sharing (`c` or not), number of units, heads of
`_multi_headed`, `_f_head`; `drawn` counts the heads created so far. -/
structure Group where
  isC : Bool
  mlp : Mlp
  units : ℕ
  heads : Option (List Head)
  fHead : Option Head
  drawn : ℕ

/-- `FunctionGroup.__init__` (functional_sharing.py:230-266). -/
def new (sharing : String) (M : Mlp) : Except Exc Group :=
  if sharing ≠ "c" ∧ sharing ≠ "f" then .error .valueError
  else .ok ⟨decide (sharing = "c"), M, 0, none, none, 0⟩

/-- `add_unit` (functional_sharing.py:268-279). -/
def add (g : Group) : ℕ × Group := (g.units, { g with units := g.units + 1 })

/-- `finalize` (functional_sharing.py:281-299). -/
def finalize (draws : ℕ → Head) (g : Group) : Group :=
  if g.units = 0 then g
  else if g.isC then
    { g with heads := some ((List.range g.units).map fun i => draws (g.drawn + i)), drawn := g.drawn + g.units }
  else { g with fHead := some (draws g.drawn), drawn := g.drawn + 1 }

/-- The first lines of `evaluate_batched` (functional_sharing.py:318-321). -/
def prepared (draws : ℕ → Head) (g : Group) : Group :=
  if (g.isC = true ∧ g.heads.isNone = true) ∨ (g.isC = false ∧ g.fHead.isNone = true) then finalize draws g else g

/-- The concatenated row `cat([z, y])` (functional_sharing.py:325-330). -/
def xy (z y : Ten) (idx : List ℕ) (j : ℕ) : ℝ :=
  let d := z.shape.getLastD 0
  if j < d then z.rowAt idx j else y.rowAt idx (j - d)

/-- `evaluate_batched(z, y)` (functional_sharing.py:301-346): the group afterwards and the result. Without axes `z.shape[-1]`
raises an IndexError; if the widths do not add up to the input dimension, the matrix product raises a RuntimeError; the
assertions come last. -/
noncomputable def evaluate (draws : ℕ → Head) (g : Group) (z y : Ten) : Group × Except Err Ten :=
  let g' := prepared draws g
  (g', match bcRev z.shape.dropLast.reverse y.shape.dropLast.reverse with
    | none => .error (.exc .runtimeError)
    | some lead =>
      if z.shape = [] ∨ y.shape = [] then .error (.exc .indexError)
      else if z.shape.getLastD 0 + y.shape.getLastD 0 ≠ g'.mlp.inDim then .error (.exc .runtimeError)
      else
        let out := fun (hs : List Head) => (⟨hs.length :: lead.reverse, fun i =>
          softplus (((hs[i.headD 0]?).getD ⟨0, 0⟩).app g'.mlp.hidden (mlp g'.mlp (xy z y i.tail)))⟩ : Ten)
        if g'.isC then
          match g'.heads with
          | none => .error .assertion
          | some hs => .ok (out hs)
        else
          match g'.fHead with
          | none => .error .assertion
          | some h => .ok (out [h]))

/-- `t[i]` of a tensor with at least one axis. -/
def pick (t : Ten) (i : ℤ) : Except Err Ten :=
  match t.shape with
  | [] => .error (.exc .indexError)
  | n :: s =>
    if -(n : ℤ) ≤ i ∧ i < n then .ok ⟨s, fun idx => t.cell ((if i < 0 then i + n else i).toNat :: idx)⟩
    else .error (.exc .indexError)

/-- `get_function(unit_idx)(z, y)` (functional_sharing.py:348-366). -/
noncomputable def call (draws : ℕ → Head) (g : Group) (i : ℤ) (z y : Ten) : Group × Except Err Ten :=
  ((evaluate draws g z y).1, match (evaluate draws g z y).2 with
    | .error e => .error e
    | .ok t => pick t (if g.isC then i else 0))

/-- What a program does with a group. -/
inductive Op
  | add
  | finalize
  | evaluate (z y : Ten)
  | call (i : ℤ) (z y : Ten)

/-- The group after one operation. -/
noncomputable def Op.run (draws : ℕ → Head) (g : Group) : Op → Group
  | .add => (Fs.add g).2
  | .finalize => Fs.finalize draws g
  | .evaluate z y => (Fs.evaluate draws g z y).1
  | .call i z y => (Fs.call draws g i z y).1

/-- The group after a history. -/
noncomputable def runs (draws : ℕ → Head) (g : Group) (ops : List Op) : Group := ops.foldl (Op.run draws) g

/-! ### Materialisation of a group -/

open PicQ in
/-- The grids `z` of shape `(out_ch, in_ch, z_dim)` and `y` of shape `(out_ch, in_ch, y_dim)` (pipeline.py:534-544). -/
def grids (ρ : Rule) (zd yd : ℕ) : Ten × Ten :=
  (⟨[(gridPts ρ zd).length, (gridPts ρ yd).length, zd], fun i => ((gridPts ρ zd).getD (i.getD 0 0) []).getD (i.getD 2 0) 0⟩,
   ⟨[(gridPts ρ zd).length, (gridPts ρ yd).length, yd], fun i => ((gridPts ρ yd).getD (i.getD 1 0) []).getD (i.getD 2 0) 0⟩)

open PicQ in
/-- The weights `weights_mat[ci, co]` for the unit with index `head` of a group in `materialize_integral_group`
(pipeline.py:546-564); `vals_all[head_idx]` is an indexing of the first axis. -/
noncomputable def groupWeights (draws : ℕ → Head) (ρ : Rule) (g : Group) (zd yd : ℕ) (head : ℕ) :
    Group × Except Err (ℕ → ℕ → ℝ) :=
  let r := evaluate draws g (grids ρ zd yd).1 (grids ρ zd yd).2
  (r.1, match r.2 with
    | .error e => .error e
    | .ok t => match pick t head with
      | .error e => .error e
      | .ok v => .ok fun ci co => v.cell [co, ci] * (kron ρ yd).getD ci 0)

end Verif.Fs

import Verif.Graph
import Verif.Leaves
import Mathlib.Analysis.SpecialFunctions.Log.Basic
import Mathlib.Data.List.Sort
/-
Model of spflow/zoo/pic/tensorized/qpc.py and utils.py: `TensorizedQPC`, the folded tensorised circuit of a
region graph (C82).

Regions are natural numbers, one per class of the dataclass equality of `Region` (the equality under which the
dictionaries of the code are keyed). A row of data is a function from variables to reals: NaN entries, the batch
axis (every step acts on the rows separately), dtype and device are not modelled, and the columns named by the leaf
regions are assumed to be present. The neural networks before the softplus are arbitrary functions of the latent
points, so the sharing modes, the number of chunks and the Fourier features are instances. Logarithms are taken on the
reals; `C82_semantics` shows that their arguments are positive (otherwise its equations would fail, because
`Real.log` of a non-positive number is not the logarithm of torch).
-/
namespace Verif.Qpc
open Graph

/-! ### Quadrature rule, configuration, parameters -/

/-- `QuadratureRule` as it reaches the constructor (pipeline.py; checked in qpc.py:340-343): the number of axes of the
two tensors, their lengths and entries. -/
structure Rule where
  pointsDim : ℕ
  weightsDim : ℕ
  K : ℕ
  weightsLen : ℕ
  pt : ℕ → ℝ
  wt : ℕ → ℝ

/-- `layer_cls` (qpc.py:68). -/
inductive Cls
  | auto | tucker | cp
  deriving DecidableEq

/-- `leaf_type` (qpc.py:51); `other` stands for any further string. -/
inductive LeafType
  | bernoulli | categorical | normal | other
  deriving DecidableEq

/-- The fields of `TensorizedQPCConfig` (qpc.py:47-68) that decide something here. `sharingOk`: both sharing strings are
among `none`, `f`, `c`. -/
structure Config where
  leafType : LeafType
  numCategories : Option ℤ
  netDim : ℕ
  ffDim : Option ℕ
  sharingOk : Bool
  nChunks : ℤ
  numClasses : ℤ
  cls : Cls

/-- Parameters: outputs of the networks (before softplus) and mixing logits, all arbitrary. `leaf v z` are the
parameters of leaf number `v` at the latent point `z`; `net p f zs` is function `f` of inner network `p` at the tuple
`zs`; `mix i f h k` the mixing logits (qpc.py:414-417). -/
structure Params where
  leaf : ℕ → ℝ → ℕ → ℝ
  net : ℕ → ℕ → List ℝ → ℝ
  mix : ℕ → ℕ → ℕ → ℕ → ℝ

/-! ### Log-space evaluation (utils.py) -/

/-- `torch.max` over an axis of length `n` (utils.py:34). -/
noncomputable def maxOf (n : ℕ) (x : ℕ → ℝ) : ℝ :=
  if h : (Finset.range n).Nonempty then (Finset.range n).sup' h x else 0

/-- `eval_tucker` (utils.py:58-73 with `log_func_exp`, 12-55) for one fold. -/
noncomputable def evalTucker (K : ℕ) (l r : ℕ → ℝ) (W : ℕ → ℕ → ℕ → ℝ) (o : ℕ) : ℝ :=
  Real.log (∑ i ∈ Finset.range K, ∑ j ∈ Finset.range K,
    Real.exp (l i - maxOf K l) * Real.exp (r j - maxOf K r) * W i j o) + (maxOf K l + maxOf K r)

/-- A mask row: no mask keeps every entry. -/
def keep (mask : Option (List Bool)) (h : ℕ) : Bool :=
  match mask with
  | none => true
  | some l => l.getD h false

/-- The inner sum of `eval_collapsed_cp` for one child (utils.py:88-91). -/
noncomputable def cpRow (K : ℕ) (x : ℕ → ℝ) (W : ℕ → ℕ → ℝ) (o : ℕ) : ℝ :=
  Real.log (∑ k ∈ Finset.range K, W k o * Real.exp (x k - maxOf K x)) + maxOf K x

/-- `eval_collapsed_cp` (utils.py:76-100) for one fold: a masked child contributes 0 to the sum of logarithms. -/
noncomputable def evalCp (K : ℕ) (xs : List (ℕ → ℝ)) (W : ℕ → ℕ → ℕ → ℝ) (mask : Option (List Bool)) (o : ℕ) : ℝ :=
  ((List.range xs.length).map fun h => if keep mask h then cpRow K (xs.getD h 0) (W h) o else 0).sum

/-- `_masked_softmax` over the partitions (qpc.py:579-586); the exponential of `-inf` is 0. -/
noncomputable def maskedSoftmax (n : ℕ) (logits : ℕ → ℝ) (mask : Option (List Bool)) (h : ℕ) : ℝ :=
  if keep mask h then
    Real.exp (logits h) / ∑ h' ∈ Finset.range n, if keep mask h' then Real.exp (logits h') else 0
  else 0

/-- `eval_mixing` (utils.py:103-123) for one fold and one unit: `x h` is the log-value of partition `h`. -/
noncomputable def evalMix (n : ℕ) (x w : ℕ → ℝ) (mask : Option (List Bool)) : ℝ :=
  Real.log (∑ h ∈ Finset.range n, w h * (Real.exp (x h - maxOf n x) * if keep mask h then 1 else 0)) + maxOf n x

/-! ### Inner networks -/

/-- `IntegralGroupArgs` (qpc.py:71-78). -/
structure Group where
  dim : ℕ
  funcs : ℕ
  perm : List ℕ
  norm : List ℕ

/-- `_layer_to_group_args` (qpc.py:789-810). -/
def groupArgs (tucker : Bool) (folds arity out : ℕ) : Group :=
  if tucker then
    if out = 1 then ⟨2, folds, [1, 2], [1, 2]⟩ else ⟨3, folds, [3, 2, 1], [1, 2]⟩
  else
    if out = 1 then ⟨1, folds * arity, [1], [1]⟩ else ⟨2, folds * arity, [2, 1], [1]⟩

/-- `eps` (qpc.py:229): the square root of the smallest normal float32. -/
noncomputable def eps : ℝ := Real.sqrt ((2 : ℝ) ^ (-126 : ℤ))

/-- `nn.Softplus(beta=1)` (qpc.py:254). -/
noncomputable def softplus (t : ℝ) : ℝ := Real.log (1 + Real.exp t)

/-- `permute` (qpc.py:289): entry `idx` of the permuted tensor is the entry of the original tensor whose axis
`perm[d]` has index `idx[d]` (axes counted from 1, axis 0 is the function). -/
def unperm (dim : ℕ) (perm idx : List ℕ) : List ℕ :=
  (List.range dim).map fun a => idx.getD (perm.idxOf (a + 1)) 0

/-- The meshgrid of quadrature weights on the normalised axes (qpc.py:291-294). -/
noncomputable def wmesh (w : ℕ → ℝ) (norm idx : List ℕ) : ℝ := (norm.map fun d => w (idx.getD (d - 1) 0)).prod

/-- `.sum(norm_dim, keepdim=True)` (qpc.py:296): the sum over the listed axes. -/
noncomputable def sumDims (K : ℕ) : List ℕ → (List ℕ → ℝ) → List ℕ → ℝ
  | [], F, idx => F idx
  | d :: ds, F, idx => ∑ k ∈ Finset.range K, sumDims K ds F (idx.set (d - 1) k)

/-- The logits of the inner network at function `f` and (permuted) index `idx` (qpc.py:276-289). -/
noncomputable def logits (ρ : Rule) (net : ℕ → List ℝ → ℝ) (g : Group) (f : ℕ) (idx : List ℕ) : ℝ :=
  softplus (net f ((unperm g.dim g.perm idx).map ρ.pt)) + eps

/-- `InnerNet.forward` (qpc.py:266-299). The checks of the constructor and of the shape of the logits cannot fail for
the arguments of `groupArgs`. -/
noncomputable def innerNet (ρ : Rule) (net : ℕ → List ℝ → ℝ) (g : Group) (f : ℕ) (idx : List ℕ) : ℝ :=
  let denom := sumDims ρ.K g.norm (fun i => logits ρ net g f i * wmesh ρ.wt g.norm i) idx
  logits ρ net g f idx / denom * wmesh ρ.wt g.norm idx

/-! ### Layers -/

/-- `_BookEntry` (qpc.py:302-306). -/
structure Book where
  pad : Bool
  ins : List ℕ
  rows : List (List ℕ)

/-- `_PartitionLayer` (qpc.py:309-317). -/
structure PLayer where
  tucker : Bool
  folds : ℕ
  arity : ℕ
  out : ℕ
  mask : Option (List (List Bool))

/-- `_MixingLayer` (qpc.py:320-325). -/
structure MLayer where
  folds : ℕ
  arity : ℕ
  units : ℕ
  mask : Option (List (List Bool))

/-- One entry of `eval_plan` with the layer it points to (and the index of its parameters). -/
inductive Op
  | part (i : ℕ) (l : PLayer)
  | mix (i : ℕ) (l : MLayer)

/-- State of `_build_folded_layers` (qpc.py:648-660): `region_id_fold`, `fold_counts`, `layer_output_idx`, the numbers of
partition and mixing layers so far, and `zip(bookkeeping, eval_plan)`. -/
structure St where
  loc : ℕ → Option (ℕ × ℕ)
  counts : List ℕ
  cur : ℕ
  np : ℕ
  nm : ℕ
  steps : List (Book × Op)

/-- The heights (qpc.py:638-644). -/
def heights (g : RG) (post : List ℕ) : Except Exc (ℕ → Option ℕ) :=
  post.foldlM (fun ht r =>
    if (g.parts r).isEmpty then .ok (Function.update ht r (some 0))
    else
      match (g.children r).mapM ht with
      | none => .error .keyError
      | some [] => .error .valueError
      | some (d :: ds) => .ok (Function.update ht r (some (1 + ds.foldl max d)))) (fun _ => none)

/-- `max_h` (qpc.py:646). -/
def maxHeight (ht : ℕ → Option ℕ) (post : List ℕ) : ℕ := (post.filterMap ht).foldl max 0

/-- `lpartitions` (qpc.py:667-671). -/
def lparts (g : RG) (regs : List ℕ) : List (ℕ × List ℕ) := regs.flatMap fun r => (g.parts r).map fun p => (r, p)

/-- `base[lid]` (qpc.py:681-686): the offset of layer `lid` among the concatenated input layers. -/
def baseOf (counts : List ℕ) : List ℕ → ℕ → ℕ
  | [], _ => 0
  | i :: is, l => if i = l then 0 else counts.getD i 0 + baseOf counts is l

/-- `max(len(..) for ..)` of a list of lengths. -/
def maxLen (ls : List ℕ) : ℕ := ls.foldl max 0

/-- One row of `fold_indices` (qpc.py:691-699). -/
def partRow (loc : ℕ → Option (ℕ × ℕ)) (base : ℕ → ℕ) (total arity : ℕ) (p : List ℕ) : Except Exc (List ℕ) :=
  match p.mapM loc with
  | none => .error .keyError
  | some ls => .ok (ls.map (fun fl => base fl.2 + fl.1) ++ List.replicate (arity - ls.length) total)

/-- The kind of the partition layer (qpc.py:708-715). -/
def useTucker (cls : Cls) (arity : ℕ) (masked : Bool) : Bool :=
  if cls = .tucker ∧ arity = 2 ∧ masked = false then true
  else if cls = .cp then false
  else decide (arity = 2 ∧ masked = false)

/-- The partition layer of one height (qpc.py:673-738) and the locations of the regions with one partition (740-745). -/
def partLevel (g : RG) (cls : Cls) (out : ℕ) (regs : List ℕ) (st : St) : Except Exc St :=
  let ps := lparts g regs
  match (ps.flatMap Prod.snd).mapM st.loc with
  | none => .error .keyError
  | some ls =>
    let ids := (ls.map Prod.snd).dedup.insertionSort (· ≤ ·)
    let total := (ids.map fun i => st.counts.getD i 0).sum
    let arity := maxLen (ps.map fun rp => rp.2.length)
    let pad := ps.any fun rp => rp.2.length < arity
    match ps.mapM fun rp => partRow st.loc (baseOf st.counts ids) total arity rp.2 with
    | .error e => .error e
    | .ok rows =>
      let mask := if pad then some (rows.map fun row => row.map fun i => decide (i < total)) else none
      let l : PLayer := ⟨useTucker cls arity pad, ps.length, arity, out, mask⟩
      .ok {
        loc := ps.zipIdx.foldl (fun loc rpi =>
          if (g.parts rpi.1.1).length = 1 then Function.update loc rpi.1.1 (some (rpi.2, st.cur + 1)) else loc) st.loc
        counts := st.counts ++ [ps.length]
        cur := st.cur + 1
        np := st.np + 1
        nm := st.nm
        steps := st.steps ++ [(⟨pad, ids, rows⟩, .part st.np l)] }

/-- `region_mixing_indices` (qpc.py:740-745). -/
def mixIdx (ps : List (ℕ × List ℕ)) (r : ℕ) : List ℕ :=
  ps.zipIdx.filterMap fun rpi => if rpi.1.1 = r then some rpi.2 else none

/-- The mixing layer of one height (qpc.py:747-784), if some region has several partitions. -/
def mixLevel (g : RG) (out : ℕ) (regs : List ℕ) (st : St) : Except Exc St :=
  let non := regs.filter fun r => decide (1 < (g.parts r).length)
  if non.isEmpty then .ok st
  else
    let folds := (lparts g regs).length
    let arity := maxLen (non.map fun r => (g.parts r).length)
    let pad := non.any fun r => (g.parts r).length < arity
    let idx := non.map fun r => mixIdx (lparts g regs) r
    if (non.zip idx).any fun ri => ri.2.length ≠ (g.parts ri.1).length then .error .structureError
    else
      let rows := idx.map fun is => is ++ List.replicate (arity - is.length) folds
      let mask := if pad then some (rows.map fun row => row.map fun i => decide (i < folds)) else none
      let l : MLayer := ⟨non.length, arity, out, mask⟩
      .ok {
        loc := non.zipIdx.foldl (fun loc ri => Function.update loc ri.1 (some (ri.2, st.cur + 1))) st.loc
        counts := st.counts ++ [non.length]
        cur := st.cur + 1
        np := st.np
        nm := st.nm + 1
        steps := st.steps ++ [(⟨pad, [st.cur], rows⟩, .mix st.nm l)] }

/-- One iteration of the loop over the heights (qpc.py:662-784). -/
def level (g : RG) (cls : Cls) (K classes maxh : ℕ) (post : List ℕ) (ht : ℕ → Option ℕ) (st : St) (h : ℕ) :
    Except Exc St :=
  let regs := post.filter fun r => ht r = some h
  if regs.isEmpty then .ok st
  else
    let out := if h < maxh then K else classes
    match partLevel g cls out regs st with
    | .error e => .error e
    | .ok st' => mixLevel g out regs st'

/-- The initial `region_id_fold` (qpc.py:649): the leaf regions are the folds of layer 0. -/
def leafLoc (leaves : List ℕ) : ℕ → Option (ℕ × ℕ) :=
  leaves.zipIdx.foldl (fun loc ri => Function.update loc ri.1 (some (ri.2, 0))) (fun _ => none)

/-- `_build_folded_layers` (qpc.py:623-786). -/
def build (g : RG) (cls : Cls) (K classes : ℕ) (post leaves : List ℕ) : Except Exc St :=
  match heights g post with
  | .error e => .error e
  | .ok ht =>
    let maxh := maxHeight ht post
    let st : St := ⟨leafLoc leaves, [leaves.length], 0, 0, 0, []⟩
    (List.range' 1 maxh).foldlM (level g cls K classes maxh post ht) st

/-! ### The module -/

/-- What the constructor stores. -/
structure Model where
  ρ : Rule
  cfg : Config
  leafVars : List Var
  st : St

/-- The variable of a leaf region (qpc.py:365-367). -/
def varOf (g : RG) (r : ℕ) : Var := (g.scope r).query.headD 0

/-- `TensorizedQPC.__init__` (qpc.py:331-421) on the region graph `g` with root `root` (`fuel` bounds the recursion of
`post_order`). The Fourier layer rejects an odd width (qpc.py:95); the dictionary of leaf types has three keys
(qpc.py:385). -/
def construct (ρ : Rule) (cfg : Config) (g : RG) (fuel root : ℕ) : Except Exc Model :=
  if ρ.pointsDim ≠ 1 ∨ ρ.weightsDim ≠ 1 then .error .shapeError
  else if ρ.K ≠ ρ.weightsLen then .error .shapeError
  else if cfg.nChunks ≤ 0 then .error .invalidParameter
  else if cfg.leafType = .categorical ∧ (cfg.numCategories.all fun c => decide (c ≤ 1)) then .error .invalidParameter
  else if cfg.numClasses ≤ 0 then .error .invalidParameter
  else
    match postOrder g.children fuel root with
    | none => .error .recursionError
    | some post =>
      let leaves := post.filter fun r => (g.parts r).isEmpty
      if leaves.any fun r => (g.scope r).query.length ≠ 1 then .error .structureError
      else
        let leaves := leaves.insertionSort fun a b => varOf g a ≤ varOf g b
        match build g cfg.cls ρ.K cfg.numClasses.toNat post leaves with
        | .error e => .error e
        | .ok st =>
          if cfg.leafType = .other then .error .keyError
          else if cfg.sharingOk = false then .error .invalidParameter
          else if (cfg.ffDim.getD cfg.netDim) % 2 ≠ 0 then .error .invalidParameter
          else .ok ⟨ρ, cfg, leaves.map (varOf g), st⟩

/-- The category read by a categorical leaf (qpc.py:480): truncation towards zero, then clamping to the categories. -/
noncomputable def catIdx (C : ℕ) (t : ℝ) : ℕ :=
  (max 0 (min (if 0 ≤ t then ⌊t⌋ else ⌈t⌉) (C - 1 : ℤ))).toNat

/-- `_leaf_log_likelihood` for one leaf and one latent unit with parameters `par` (qpc.py:441-486). -/
noncomputable def leafLL (cfg : Config) (par : ℕ → ℝ) (t : ℝ) : ℝ :=
  match cfg.leafType with
  | .normal =>
    let scale := softplus (par 1) + 1e-6
    0 - (t - par 0) ^ 2 / (2 * scale ^ 2) - Real.log scale - Real.log (Real.sqrt (2 * Real.pi))
  | .bernoulli => -((1 - t) * par 0 + Real.log (1 + Real.exp (-par 0)))
  | .categorical =>
    let C := (cfg.numCategories.getD 0).toNat
    par (catIdx C t) - Real.log (∑ c ∈ Finset.range C, Real.exp (par c))
  | .other => 0

/-- A folded tensor of one data row: number of units and the folds. -/
structure Ten where
  units : ℕ
  folds : List (ℕ → ℝ)

/-- The initial layer (qpc.py:494-501). -/
noncomputable def leafLayer (m : Model) (θ : Params) (x : Var → ℝ) : Ten :=
  ⟨m.ρ.K, m.leafVars.zipIdx.map fun vi => fun k => leafLL m.cfg (θ.leaf vi.2 (m.ρ.pt k)) (x vi.1)⟩

/-- `cat[book.fold_indices]` (qpc.py:526). -/
def pickRows (cat : List (ℕ → ℝ)) (rows : List (List ℕ)) : Option (List (List (ℕ → ℝ))) :=
  rows.mapM fun row => row.mapM fun i => cat[i]?

/-- The concatenation and indexing of one book entry (qpc.py:520-526): input layers of a wrong number of units are
rejected by torch. -/
noncomputable def gather (outs : List Ten) (units : ℕ) (b : Book) : Except Exc (List (List (ℕ → ℝ))) :=
  match b.ins.mapM (fun i => outs[i]?) with
  | none => .error .indexError
  | some ts =>
    if ts.any (fun t => decide (t.units ≠ units)) then .error .runtimeError
    else
      match pickRows (ts.flatMap Ten.folds ++ (if b.pad then [0] else [] : List (ℕ → ℝ))) b.rows with
      | none => .error .indexError
      | some xs => .ok xs

/-- The parameters of a partition layer (qpc.py:503-517). -/
noncomputable def tuckerW (ρ : Rule) (θ : Params) (p : ℕ) (l : PLayer) (f i j o : ℕ) : ℝ :=
  innerNet ρ (θ.net p) (groupArgs l.tucker l.folds l.arity l.out) f (if l.out = 1 then [i, j] else [i, j, o])

/-- The parameters of a CP layer; the view splits the functions into folds and children (qpc.py:514-517). -/
noncomputable def cpW (ρ : Rule) (θ : Params) (p : ℕ) (l : PLayer) (f h k o : ℕ) : ℝ :=
  innerNet ρ (θ.net p) (groupArgs l.tucker l.folds l.arity l.out) (f * l.arity + h)
    (if l.out = 1 then [k] else [k, o])

/-- The mask of one fold. -/
def maskRow (mask : Option (List (List Bool))) (f : ℕ) : Option (List Bool) := mask.map fun m => m.getD f []

/-- One step of the evaluation (qpc.py:519-539 with 589-620). -/
noncomputable def step (ρ : Rule) (θ : Params) (outs : List Ten) (b : Book) : Op → Except Exc Ten
  | .part p l =>
    match gather outs ρ.K b with
    | .error e => .error e
    | .ok inputs =>
      if l.tucker then
        if l.arity ≠ 2 then .error .structureError
        else .ok ⟨l.out, inputs.zipIdx.map fun (xf : List (ℕ → ℝ) × ℕ) =>
          evalTucker ρ.K (xf.1.getD 0 0) (xf.1.getD 1 0) (tuckerW ρ θ p l xf.2)⟩
      else .ok ⟨l.out, inputs.zipIdx.map fun (xf : List (ℕ → ℝ) × ℕ) => evalCp ρ.K xf.1 (cpW ρ θ p l xf.2) (maskRow l.mask xf.2)⟩
  | .mix i l =>
    match gather outs l.units b with
    | .error e => .error e
    | .ok inputs =>
      .ok ⟨l.units, inputs.zipIdx.map fun (xf : List (ℕ → ℝ) × ℕ) => fun (k : ℕ) =>
        evalMix xf.1.length (fun h => xf.1.getD h 0 k)
          (maskedSoftmax xf.1.length (fun h => θ.mix i xf.2 h k) (maskRow l.mask xf.2)) (maskRow l.mask xf.2)⟩

/-- The loop over `zip(bookkeeping, eval_plan)` (qpc.py:519-539). -/
noncomputable def run (ρ : Rule) (θ : Params) (outs : List Ten) (steps : List (Book × Op)) : Except Exc (List Ten) :=
  steps.foldlM (fun outs bo =>
    match step ρ θ outs bo.1 bo.2 with
    | .error e => .error e
    | .ok t => .ok (outs ++ [t])) outs

/-- A `view` of the parameters that fails (qpc.py:512-517): the networks give the output axis `K` entries, or none if
the layer has one output. -/
def badView (K : ℕ) : Book × Op → Bool
  | (_, .part _ l) => decide (l.out ≠ 1 ∧ l.out ≠ K)
  | (_, .mix _ _) => false

/-- `TensorizedQPC.log_likelihood` (qpc.py:489-552) for one row of data. -/
noncomputable def logLik (m : Model) (θ : Params) (x : Var → ℝ) : Except Exc ℝ :=
  if m.st.steps.any (badView m.ρ.K) then .error .runtimeError
  else
    match run m.ρ θ [leafLayer m θ x] m.st.steps with
    | .error e => .error e
    | .ok outs =>
      match outs.getLast? with
      | none => .error .indexError
      | some out =>
        match out.folds with
        | [v] =>
          if (out.units : ℤ) ≠ m.cfg.numClasses then .error .shapeError
          else if m.cfg.numClasses ≠ 1 then .error .notImplemented
          else .ok (v 0)
        | _ => .error .shapeError

end Verif.Qpc

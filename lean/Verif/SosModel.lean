import Verif.TripleMain
import Verif.SocsProps

/-!
# Model of spflow/zoo/sos/models.py: `SOSModel` and `ExpSOSModel`

The two constructors draw a region tree over the variables, turn it into circuits (one leaf module per tree leaf, a
`Product` followed by a `SignedSum` or a `Sum` per inner tree node), and wrap the circuits into a `SOCS` or an `ExpSOCS`.
-/

open Verif.Inner

namespace Verif
namespace Sos

/-- `_TreeNode`, models.py:26-29. -/
inductive Tree where
  | leaf (scope : List ℕ)
  | node (scope : List ℕ) (n : ℕ) (cs : Fin n → Tree)

/-- `_TreeNode.scope`. -/
def Tree.scope : Tree → List ℕ
  | leaf s => s
  | node s _ _ => s

/-! ## Region trees -/

/-- `_build_random_binary_tree` with `_split_random_binary`, models.py:230-250.  `shuf l` is the permutation that
`rng.shuffle` makes of `l`: every scope list is shuffled at most once while one tree is built, so an oracle indexed by the
list is as general as the generator. The number is a recursion bound; that it is never reached follows from the fact that
every leaf is a single variable (`C78_trees`). -/
def randBin (shuf : List ℕ → List ℕ) : ℕ → List ℕ → Tree
  | 0, l => .leaf l
  | k + 1, l =>
    if l.length ≤ 1 then .leaf l
    else
      let p := shuf l
      let left := p.take (p.length / 2)
      let right := p.drop (p.length / 2)
      if left = [] ∨ right = [] then .leaf l
      else .node l 2 ![randBin shuf k left, randBin shuf k right]

/-- `_build_linear_tree_from_order`, models.py:252-264. -/
def linear : List ℕ → Tree
  | [] => .leaf []
  | [a] => .leaf [a]
  | a :: b :: l => .node (a :: b :: l) 2 ![.leaf [a], linear (b :: l)]

/-- A rectangle of pixels: rows `y0 ≤ y < y1`, columns `x0 ≤ x < x1`. -/
structure Patch where
  y0 : ℕ
  y1 : ℕ
  x0 : ℕ
  x1 : ℕ

/-- `_pixel_indices_for_patch`, models.py:266-283, for an image of `c` channels of `h` rows of `w` pixels. -/
def pixels (c h w : ℕ) (p : Patch) : List ℕ :=
  (List.range c).flatMap fun ch =>
    (List.range' p.y0 (p.y1 - p.y0)).flatMap fun y =>
      (List.range' p.x0 (p.x1 - p.x0)).map fun x => ch * (h * w) + y * w + x

/-- `children_bounds`, models.py:300-316. -/
def bounds (splits : ℕ) (p : Patch) : List Patch :=
  let hh := p.y1 - p.y0
  let ww := p.x1 - p.x0
  if splits = 2 then
    if ww ≤ hh ∧ 1 < hh then
      let ym := p.y0 + hh / 2
      [⟨p.y0, ym, p.x0, p.x1⟩, ⟨ym, p.y1, p.x0, p.x1⟩]
    else if 1 < ww then
      let xm := p.x0 + ww / 2
      [⟨p.y0, p.y1, p.x0, xm⟩, ⟨p.y0, p.y1, xm, p.x1⟩]
    else []
  else
    let ym := p.y0 + hh / 2
    let xm := p.x0 + ww / 2
    [⟨p.y0, ym, p.x0, xm⟩, ⟨p.y0, ym, xm, p.x1⟩, ⟨ym, p.y1, p.x0, xm⟩, ⟨ym, p.y1, xm, p.x1⟩]

/-- The child patches that are not skipped, models.py:318-321. -/
def kept (splits : ℕ) (p : Patch) : List Patch :=
  (bounds splits p).filter fun q => decide (¬ (q.y1 ≤ q.y0 ∨ q.x1 ≤ q.x0))

/-- `_build_quadtree_patch`, models.py:285-336.  The number is a recursion bound, see `randBin`. -/
def quad (c h w splits : ℕ) : ℕ → Patch → Tree
  | 0, p => .leaf (pixels c h w p)
  | k + 1, p =>
    if p.y1 - p.y0 ≤ 1 ∧ p.x1 - p.x0 ≤ 1 then .leaf (pixels c h w p)
    else
      let ch := kept splits p
      if ch.length < 2 then .leaf (pixels c h w p)
      else .node (pixels c h w p) ch.length fun i => quad c h w splits k (ch.get i)

/-- `_build_tree`, models.py:338-371.  `rng seed` is the shuffle oracle of `random.Random(seed)`. -/
def buildTree (rng : ℤ → List ℕ → List ℕ) (region : String) (n : ℕ) (image : Option (ℕ × ℕ × ℕ)) (seed : ℤ) :
    Except Exc Tree :=
  if region = "rnd-bt" then .ok (randBin (rng seed) n (List.range n))
  else if region = "rnd-lt" then .ok (linear (rng seed (List.range n)))
  else if region = "lt" then .ok (linear (List.range n))
  else if region = "qt" ∨ region = "qt-4" ∨ region = "qt-2" then
    match image with
    | none => .error .invalidParameter
    | some (c, h, w) => .ok (quad c h w (if region = "qt-2" then 2 else 4) (h + w) ⟨0, h, 0, w⟩)
  else .error .invalidParameter

/-! ## Circuits from trees -/

/-- `_CircuitConfig`, models.py:32-40. -/
structure Cfg where
  inputUnits : ℕ
  sumUnits : ℕ
  layer : String
  states : Option ℕ
  n : ℕ
  nonMono : Bool
  nonMonoInputs : Bool

/-- The random numbers used for one circuit: initial locations and scales of Normal leaves (normal.py:48-49, by variable
and channel), initial probabilities of Categorical leaves (categorical.py:77-83), `torch.rand` draws for the tables of
SignedCategorical leaves (variable, channel, state), `torch.rand` draws for the weights of the SignedSum and the initial
weights of the Sum at the tree node with a given scope (input channel, output channel), and the same for the sum that
`_finalize_scalar` may add. Distinct tree nodes have distinct scopes. -/
structure Draws where
  loc : ℕ → ℕ → ℝ
  scale : ℕ → ℕ → ℝ
  probs : ℕ → ℕ → ℕ → ℝ
  table : ℕ → ℕ → ℕ → ℝ
  signed : List ℕ → ℕ → ℕ → ℝ
  weight : List ℕ → ℕ → ℕ → ℝ
  rootSigned : ℕ → ℝ
  rootWeight : ℕ → ℝ

/-- `_rand_uniform` with `_signed_init_bounds`, models.py:100-115, applied to one draw `t` of `torch.rand`. -/
noncomputable def signedInit (n : ℕ) (t : ℝ) : ℝ :=
  let b : ℝ × ℝ := if n ≤ 2 then (-2, 2) else (0, 1)
  (b.2 - b.1) * t + b.1

/-- `_make_leaf`, models.py:118-153.  The constructor of `SignedCategorical` rejects `K ≤ 0` (signed_categorical.py:56). -/
noncomputable def makeLeaf (cfg : Cfg) (d : Draws) (scope : List ℕ) : Except Exc IC :=
  let q : List Var := scope.map fun v : ℕ => (v : ℤ)
  if cfg.layer = "gaussian" then
    .ok (.leaf q cfg.inputUnits 1 fun f ch _ => .normal (d.loc (scope.getD f 0) ch) (d.scale (scope.getD f 0) ch))
  else
    match cfg.states with
    | none => .error .runtimeError
    | some K =>
      if cfg.nonMono = true ∧ cfg.nonMonoInputs = true then
        if K = 0 then .error .valueError
        else .ok (.leaf q cfg.inputUnits 1 fun f ch _ =>
          .scat K fun k => signedInit cfg.n (d.table (scope.getD f 0) ch k))
      else .ok (.leaf q cfg.inputUnits 1 fun f ch _ => .cat K (d.probs (scope.getD f 0) ch))

/-- `Product(children)`, product.py:25-47, with the checks of `Cat(dim=1)`, cat.py:31-43. -/
def productOf {n : ℕ} (ks : Fin n → IC) : Except Exc IC :=
  if h : n = 1 then .ok (.prod (ks ⟨0, by omega⟩))
  else if ∃ i j, (ks i).C ≠ (ks j).C then .error .valueError
  else if ∃ i j, i ≠ j ∧ ¬ Disjoint (ks i).vars (ks j).vars then .error .valueError
  else .ok (.prod (.cat1 n ks))

/-- The sum over a product: `_make_signed_sum` (models.py:156-181) or `Sum` (192), for the tree node with this scope. -/
noncomputable def sumOver (cfg : Cfg) (d : Draws) (scope : List ℕ) (p : IC) : IC :=
  .sum p cfg.sumUnits p.R fun _ i o _ =>
    if cfg.nonMono = true then signedInit cfg.n (d.signed scope i o) else d.weight scope i o

/-- `_instantiate_tree`, models.py:184-192. -/
noncomputable def inst (cfg : Cfg) (d : Draws) : Tree → Except Exc IC
  | .leaf s => makeLeaf cfg d s
  | .node s n cs =>
    if n = 0 then makeLeaf cfg d s
    else
      match seqFin fun i : Fin n => inst cfg d (cs i) with
      | .error e => .error e
      | .ok ks =>
        match productOf ks with
        | .error e => .error e
        | .ok p => .ok (sumOver cfg d s p)

/-- The sum added by `_finalize_scalar`, models.py:207-211. -/
noncomputable def rootSum (cfg : Cfg) (d : Draws) (c : IC) : IC :=
  .sum c 1 c.R fun _ i _ _ => if cfg.nonMono = true then signedInit cfg.n (d.rootSigned i) else d.rootWeight i

/-- `_finalize_scalar`, models.py:195-215. -/
noncomputable def finalize (cfg : Cfg) (d : Draws) (force : Bool) (root : IC) : Except Exc IC :=
  let out := if root.F ≠ 1 then .prod root else root
  let out := if out.C ≠ 1 ∨ force = true then rootSum cfg d out else out
  if (out.F, out.C, out.R) ≠ (1, 1, 1) then .error .shapeError else .ok out

/-- `_build_component`, models.py:218-227. -/
noncomputable def component (cfg : Cfg) (d : Draws) (force : Bool) (t : Tree) : Except Exc IC :=
  match inst cfg d t with
  | .error e => .error e
  | .ok root => finalize cfg d force root

/-! ## The constructors -/

/-- `_validate_model_common`, models.py:52-82. -/
def validate (n inputUnits sumUnits : ℤ) (layer : String) (image : Option (List ℤ)) : Except Exc Unit :=
  if n ≤ 0 then .error .invalidParameter
  else if inputUnits ≤ 0 then .error .invalidParameter
  else if sumUnits ≤ 0 then .error .invalidParameter
  else if ¬ (layer = "categorical" ∨ layer = "embedding" ∨ layer = "gaussian") then .error .invalidParameter
  else
    match image with
    | none => .ok ()
    | some [c, h, w] =>
      if c ≤ 0 ∨ h ≤ 0 ∨ w ≤ 0 then .error .shapeError
      else if c * h * w ≠ n then .error .shapeError
      else .ok ()
    | some _ => .error .shapeError

/-- `input_layer_kwargs`: the two entries that are read. A number of states is taken to be a natural number (for a
negative one `torch` raises when the leaf allocates its parameters). -/
structure Kwargs where
  numCategories : Option ℕ
  numStates : Option ℕ

/-- Reading a required keyword, models.py:88-92 and 94-96. -/
def required : Option ℕ → Except Exc (Option ℕ)
  | none => .error .invalidParameter
  | some k => .ok (some k)

/-- `_resolve_num_states`, models.py:85-98. -/
def resolveStates (layer : String) (kw : Option Kwargs) : Except Exc (Option ℕ) :=
  if layer = "categorical" then required (kw.bind Kwargs.numCategories)
  else if layer = "embedding" then required (kw.bind Kwargs.numStates)
  else .ok none

/-- `_structure_seed`, models.py:373-376. -/
def structureSeed (base : ℤ) (i : ℕ) (structured : Bool) : ℤ := if structured = true then base else base + i * 123

/-- The arguments shared by the two constructors. -/
structure Args where
  n : ℤ
  image : Option (List ℤ)
  inputUnits : ℤ
  sumUnits : ℤ
  layer : String
  kwargs : Option Kwargs
  region : String
  structured : Bool
  complex : Bool
  nonMonoInputs : Option Bool
  seed : ℤ

/-- The image shape as natural numbers (after validation). -/
def Args.shape (a : Args) : Option (ℕ × ℕ × ℕ) :=
  match a.image with
  | some [c, h, w] => some (c.toNat, h.toNat, w.toNat)
  | _ => none

/-- The default of `non_monotonic_inputs`, models.py:415-416 and 556-557. -/
def Args.signedInputs (a : Args) : Bool := a.nonMonoInputs.getD (decide (a.layer = "embedding"))

/-- The configuration of the (signed) components, models.py:419-427 and 561-569. -/
def Args.cfg (a : Args) (K : Option ℕ) : Cfg :=
  ⟨a.inputUnits.toNat, a.sumUnits.toNat, a.layer, K, a.n.toNat, true, a.signedInputs⟩

/-- The region tree of square number `i`, models.py:432-438. -/
def Args.tree (a : Args) (rng : ℤ → List ℕ → List ℕ) (i : ℕ) : Except Exc Tree :=
  buildTree rng a.region a.n.toNat a.shape (structureSeed a.seed i a.structured)

/-- The circuits of square number `i`: one, or a real and an imaginary part (models.py:440-446).  `d j` are the random
numbers used for circuit number `j` of the model. -/
noncomputable def square (cfg : Cfg) (d : ℕ → Draws) (complex : Bool) (i : ℕ) (t : Tree) : Except Exc (List IC) :=
  if complex = true then
    match component cfg (d (2 * i)) false t with
    | .error e => .error e
    | .ok re =>
      match component cfg (d (2 * i + 1)) false t with
      | .error e => .error e
      | .ok im => .ok [re, im]
  else
    match component cfg (d i) false t with
    | .error e => .error e
    | .ok c => .ok [c]

/-- The loop over the squares, models.py:431-446, from square number `i` on. -/
noncomputable def squares (a : Args) (cfg : Cfg) (rng : ℤ → List ℕ → List ℕ) (d : ℕ → Draws) :
    ℕ → ℕ → Except Exc (List IC)
  | 0, _ => .ok []
  | m + 1, i =>
    match a.tree rng i with
    | .error e => .error e
    | .ok t =>
      match square cfg d a.complex i t with
      | .error e => .error e
      | .ok cs =>
        match squares a cfg rng d m (i + 1) with
        | .error e => .error e
        | .ok ds => .ok (cs ++ ds)

/-- `SOSModel.__init__`, models.py:387-453: the components of `self.socs`. -/
noncomputable def sosModel (a : Args) (numSquares : ℤ) (rng : ℤ → List ℕ → List ℕ) (d : ℕ → Draws) :
    Except Exc (List IC) :=
  if numSquares ≤ 0 then .error .invalidParameter
  else
    match validate a.n a.inputUnits a.sumUnits a.layer a.image with
    | .error e => .error e
    | .ok () =>
      match resolveStates a.layer a.kwargs with
      | .error e => .error e
      | .ok K =>
        match squares a (a.cfg K) rng d numSquares.toNat 0 with
        | .error e => .error e
        | .ok comps => mkSocs comps

/-- The components of an `ExpSOSModel`, models.py:597-605. -/
noncomputable def expComps (cfg : Cfg) (d : ℕ → Draws) (complex : Bool) (t : Tree) : Except Exc (List IC) :=
  if complex = true then
    match component cfg (d 1) true t with
    | .error e => .error e
    | .ok re =>
      match component cfg (d 2) true t with
      | .error e => .error e
      | .ok im => .ok [re, im]
  else
    match component cfg (d 1) true t with
    | .error e => .error e
    | .ok c => .ok [c]

/-- The configuration of the monotone circuit, models.py:571-579. -/
def Args.monoCfg (a : Args) (monoInput monoSum : ℤ) (K : Option ℕ) : Cfg :=
  ⟨monoInput.toNat, monoSum.toNat, a.layer, K, a.n.toNat, false, false⟩

/-- `ExpSOSModel.__init__`, models.py:524-613.  `d 0` are the random numbers of the monotone circuit. -/
noncomputable def expSosModel (a : Args) (monoInput monoSum : ℤ) (rng : ℤ → List ℕ → List ℕ) (d : ℕ → Draws) :
    Except Exc Exp :=
  match validate a.n a.inputUnits a.sumUnits a.layer a.image with
  | .error e => .error e
  | .ok () =>
    if monoInput ≤ 0 then .error .invalidParameter
    else if monoSum ≤ 0 then .error .invalidParameter
    else
      match resolveStates a.layer a.kwargs with
      | .error e => .error e
      | .ok K =>
        match a.tree rng 0 with
        | .error e => .error e
        | .ok t =>
          match component (a.monoCfg monoInput monoSum K) (d 0) true t with
          | .error e => .error e
          | .ok m =>
            match expComps (a.cfg K) d a.complex t with
            | .error e => .error e
            | .ok cs => mkExp m cs

end Sos
end Verif

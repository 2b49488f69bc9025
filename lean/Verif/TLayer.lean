import Verif.Scope
import Mathlib.Analysis.SpecialFunctions.Log.Basic
import Mathlib.Algebra.BigOperators.Intervals
import Mathlib.Algebra.Order.Monoid.Unbundled.WithTop
/-
Model of spflow/zoo/pic/tensorized/{base,utils,tucker,cp,mixing}.py: the tensorized layers (C84).

A tensor entry is a NaN (`none`), minus infinity or a real; rounding and overflow are not modelled, and no value becomes
plus infinity. A layer acts on the trailing batch dimensions of its input entry by entry (`...` in every einsum), so one batch
entry is modelled: the input has shape `(F, H, K)` and the output `(F, O)`. A fold mask is a two-dimensional boolean tensor of
any shape (a mask of floats is not modelled). Python integers are `ℤ`; dtype and device are not modelled.
-/
namespace Verif.TL

/-- A tensor entry: NaN (`none`), `-inf` (`some ⊥`) or a real number. -/
abbrev Num := Option (WithBot ℝ)

/-- A tensor of shape `(a, b, c)`. -/
structure T3 where
  a : ℕ
  b : ℕ
  c : ℕ
  v : ℕ → ℕ → ℕ → Num

/-- A tensor of shape `(a, b)`. -/
structure T2 where
  a : ℕ
  b : ℕ
  v : ℕ → ℕ → Num

/-- A fold mask of shape `(a, b)`. -/
structure Mask where
  a : ℕ
  b : ℕ
  v : ℕ → ℕ → Bool

/-! ### Scalars -/

/-- Maximum of `n` entries, `torch.max`: NaN if there is one (utils.py:31). -/
noncomputable def vmax (n : ℕ) (x : ℕ → Num) : Num :=
  open Classical in
  if ∃ k < n, x k = none then none else some ((Finset.range n).sup fun k => (x k).getD ⊥)

/-- `torch.exp(xi - xi_max)` (utils.py:34): `-inf - -inf` is NaN. (A difference of `+inf` does not occur: no entry exceeds
the maximum.) -/
noncomputable def expSub : Num → Num → Option ℝ
  | some (some x), some (some m) => some (Real.exp (x - m))
  | some none, some (some _) => some 0
  | _, _ => none

/-- A sum of `n` linear-space entries: NaN if one of them is. -/
noncomputable def osum (n : ℕ) (x : ℕ → Option ℝ) : Option ℝ :=
  open Classical in
  if ∃ k < n, x k = none then none else some (∑ k ∈ Finset.range n, (x k).getD 0)

/-- A weight times a linear-space entry. -/
noncomputable def scale (w : ℝ) (x : Option ℝ) : Option ℝ := x.map fun r => w * r

/-- A product of two linear-space entries. -/
noncomputable def omul : Option ℝ → Option ℝ → Option ℝ
  | some x, some y => some (x * y)
  | _, _ => none

/-- `torch.log` (utils.py:52): NaN for negative numbers, `-inf` for zero. -/
noncomputable def lg : Option ℝ → Num
  | none => none
  | some r => open Classical in if r < 0 then none else if r = 0 then some ⊥ else some ((Real.log r : ℝ) : WithBot ℝ)

/-- Sum of two log-space entries. -/
noncomputable def vadd : Num → Num → Num
  | some x, some y => some (x + y)
  | _, _ => none

/-- Sum of `n` log-space entries. -/
noncomputable def vsum (n : ℕ) (x : ℕ → Num) : Num :=
  open Classical in
  if ∃ k < n, x k = none then none else some (∑ k ∈ Finset.range n, (x k).getD ⊥)

/-! ### Shapes -/

/-- The size of a dimension of two broadcast operands; also `torch.einsum` repeats operands of size one. -/
def bc (a b : ℕ) : Except Exc ℕ :=
  if a = b then .ok a else if a = 1 then .ok b else if b = 1 then .ok a else .error .runtimeError

/-- The index into a dimension of size `n` that is broadcast. -/
def at1 (n i : ℕ) : ℕ := if n = 1 then 0 else i

/-! ### Evaluation -/

/-- `eval_tucker(left, right, weights)` (utils.py:58-73) for operands of shape `(F, K)` and weights of shape `(wF, I, I, O)`. -/
noncomputable def evalTucker (l r : T2) (wF I O : ℕ) (W : ℕ → ℕ → ℕ → ℕ → ℝ) : Except Exc T2 :=
  if l.b = 0 ∨ r.b = 0 then .error .indexError
  else
    match bc l.a r.a with
    | .error e => .error e
    | .ok F₁ =>
      match bc wF F₁, bc I l.b, bc I r.b with
      | .ok F, .ok Kl, .ok Kr =>
        .ok ⟨F, O, fun f o =>
          let lf := fun i => l.v (at1 l.a f) i
          let rf := fun j => r.v (at1 r.a f) j
          vadd (lg (osum Kl fun i => osum Kr fun j =>
            scale (W (at1 wF f) (at1 I i) (at1 I j) o)
              (omul (expSub (lf (at1 l.b i)) (vmax l.b lf)) (expSub (rf (at1 r.b j)) (vmax r.b rf)))))
            (vadd (vmax l.b lf) (vmax r.b rf))⟩
      | .error e, _, _ => .error e
      | _, .error e, _ => .error e
      | _, _, .error e => .error e

/-- The inner sum of a CP layer, `log_func_exp(x, func=in_linear, dim=2, keepdim=True)` with `"fhko,fhk...->fho..."`
(utils.py:88-91, cp.py:137-140 and 167, cp.py:237-243): weights of shape `(wF, wH, I, O)`. -/
noncomputable def inner (x : T3) (wF wH I O : ℕ) (W : ℕ → ℕ → ℕ → ℕ → ℝ) : Except Exc T3 :=
  if x.c = 0 then .error .indexError
  else
    match bc wF x.a, bc wH x.b, bc I x.c with
    | .ok F, .ok H, .ok K =>
      .ok ⟨F, H, O, fun f h o =>
        let xf := fun k => x.v (at1 x.a f) (at1 x.b h) k
        vadd (lg (osum K fun k => scale (W (at1 wF f) (at1 wH h) (at1 I k) o) (expSub (xf (at1 x.c k)) (vmax x.c xf))))
          (vmax x.c xf)⟩
    | .error e, _, _ => .error e
    | _, .error e, _ => .error e
    | _, _, .error e => .error e

/-- Combining a tensor of shape `(F, H, O)` entrywise with a mask of shape `(F', H')`, viewed with trailing ones. -/
noncomputable def withMask (g : Bool → Num → Num) (y : T3) (m : Mask) : Except Exc T3 :=
  match bc m.a y.a, bc m.b y.b with
  | .ok F, .ok H => .ok ⟨F, H, y.c, fun f h o => g (m.v (at1 m.a f) (at1 m.b h)) (y.v (at1 y.a f) (at1 y.b h) o)⟩
  | .error e, _ => .error e
  | _, .error e => .error e

/-- `torch.where(mask, x_out, 0)` (utils.py:93-98): a masked entry is 0, whatever it was. -/
noncomputable def whereMask (b : Bool) (x : Num) : Num := if b then x else some ((0 : ℝ) : WithBot ℝ)

/-- `x * mask` (cp.py:142-147): a masked finite entry is 0, but `-inf * 0` and `nan * 0` are NaN. -/
noncomputable def timesMask (b : Bool) (x : Num) : Num :=
  if b then x
  else match x with
    | some (some _) => some ((0 : ℝ) : WithBot ℝ)
    | _ => none

/-- `x.sum(dim=1)` (utils.py:100, cp.py:148, cp.py:247). -/
noncomputable def sumH (y : T3) : T2 := ⟨y.a, y.c, fun f o => vsum y.b fun h => y.v f h o⟩

/-- `eval_collapsed_cp` (utils.py:76-100). -/
noncomputable def evalCollapsed (x : T3) (wF wH I O : ℕ) (W : ℕ → ℕ → ℕ → ℕ → ℝ) (mask : Option Mask) : Except Exc T2 :=
  match inner x wF wH I O W with
  | .error e => .error e
  | .ok y =>
    match mask with
    | none => .ok (sumH y)
    | some m =>
      match withMask whereMask y m with
      | .error e => .error e
      | .ok z => .ok (sumH z)

/-- `eval_mixing` (utils.py:103-123): weights of shape `(wF, wH, O)`; a mask multiplies the probabilities. -/
noncomputable def evalMixing (x : T3) (wF wH O : ℕ) (W : ℕ → ℕ → ℕ → ℝ) (mask : Option Mask) : Except Exc T2 :=
  if x.b = 0 then .error .indexError
  else
    let xf := fun f k h => x.v (at1 x.a f) h (at1 x.c k)
    let m := fun f k => vmax x.b (xf f k)
    let body := fun (F₁ H₁ : ℕ) (p : ℕ → ℕ → ℕ → Option ℝ) =>
      match bc wF F₁, bc wH H₁, bc O x.c with
      | .ok F, .ok H, .ok K =>
        .ok ⟨F, K, fun f k => vadd (lg (osum H fun h => scale (W (at1 wF f) (at1 wH h) (at1 O k)) (p f h k))) (m f k)⟩
      | .error e, _, _ => .error e
      | _, .error e, _ => .error e
      | _, _, .error e => .error e
    match mask with
    | none => body x.a x.b fun f h k => expSub (xf f k (at1 x.b h)) (m f k)
    | some M =>
      match bc M.a x.a, bc M.b x.b with
      | .ok F₁, .ok H₁ =>
        body F₁ H₁ fun f h k => scale (if M.v (at1 M.a f) (at1 M.b h) then 1 else 0) (expSub (xf f k (at1 x.b h)) (m f k))
      | .error e, _ => .error e
      | _, .error e => .error e

/-! ### Layers -/

/-- The layers: number of folds, arity, input and output units, mask and weights. -/
inductive Layer
  /-- `TuckerLayer` (tucker.py:15-85), weights `(F, I, I, O)` -/
  | tucker (F I O : ℕ) (W : ℕ → ℕ → ℕ → ℕ → ℝ)
  /-- `CollapsedCPLayer` (cp.py:16-75), weights `(F, H, I, O)` -/
  | collapsed (F H I O : ℕ) (mask : Option Mask) (W : ℕ → ℕ → ℕ → ℕ → ℝ)
  /-- `UncollapsedCPLayer` (cp.py:78-177), weights `(F, H, I, R)` and `(F, R, O)` -/
  | uncollapsed (F H I R O : ℕ) (mask : Option Mask) (Win : ℕ → ℕ → ℕ → ℕ → ℝ) (Wout : ℕ → ℕ → ℕ → ℝ)
  /-- `SharedCPLayer` (cp.py:180-250), weights `(H, I, O)`; the number of folds is only stored -/
  | shared (F H I O : ℕ) (W : ℕ → ℕ → ℕ → ℝ)
  /-- `MixingSumLayer` (mixing.py:16-90), weights `(F, H, K)` -/
  | mixing (F H K : ℕ) (mask : Option Mask) (W : ℕ → ℕ → ℕ → ℝ)

/-- The output step of `UncollapsedCPLayer.forward`, `log_func_exp(x, func=_forward_out_linear, dim=1, keepdim=True)` with
`"fro,fr...->fo..."` (cp.py:150-153, 174). -/
noncomputable def outStep (x : T2) (wF R O : ℕ) (W : ℕ → ℕ → ℕ → ℝ) : Except Exc T2 :=
  if x.b = 0 then .error .indexError
  else
    match bc wF x.a, bc R x.b with
    | .ok F, .ok R' =>
      .ok ⟨F, O, fun f o =>
        let xf := fun r => x.v (at1 x.a f) r
        vadd (lg (osum R' fun r => scale (W (at1 wF f) (at1 R r) o) (expSub (xf (at1 x.b r)) (vmax x.b xf)))) (vmax x.b xf)⟩
    | .error e, _ => .error e
    | _, .error e => .error e

/-- `x[:, i]`. -/
def child (x : T3) (i : ℕ) : T2 := ⟨x.a, x.c, fun f k => x.v f i k⟩

/-- `forward` of the five layers (tucker.py:75-85, cp.py:66-75, cp.py:155-177, cp.py:227-250, mixing.py:81-90). -/
noncomputable def forward : Layer → T3 → Except Exc T2
  | .tucker F I O W, x => if x.b < 2 then .error .indexError else evalTucker (child x 0) (child x 1) F I O W
  | .collapsed F H I O mask W, x => evalCollapsed x F H I O W mask
  | .uncollapsed F H I R O mask Win Wout, x =>
    match inner x F H I R Win with
    | .error e => .error e
    | .ok y =>
      match mask with
      | none => outStep (sumH y) F R O Wout
      | some m =>
        match withMask timesMask y m with
        | .error e => .error e
        | .ok z => outStep (sumH z) F R O Wout
  -- the einsum `"hio,fhi...->fho..."` has no fold dimension on the weights
  | .shared _ H I O W, x =>
    match inner x 1 H I O fun _ => W with
    | .error e => .error e
    | .ok y => .ok (sumH y)
  | .mixing F H K mask W, x => evalMixing x F H K W mask

/-! ### Constructors -/

/-- The constructor arguments (base.py:37-45). -/
structure Args where
  inp : ℤ
  out : ℤ
  arity : ℤ
  folds : ℤ
  mask : Option Mask

/-- The checks of `TensorizedLayer.__init__` (base.py:46-63). -/
def check (A : Args) : Except Exc Unit :=
  if A.inp ≤ 0 then .error .valueError
  else if A.out ≤ 0 then .error .valueError
  else if A.arity ≤ 0 then .error .valueError
  else if A.folds ≤ 0 then .error .valueError
  else .ok ()

/-- `TuckerLayer.__init__` (tucker.py:28-68); the weights are the random numbers `u` (base.py:78-82). -/
def newTucker (A : Args) (u : ℕ → ℕ → ℕ → ℕ → ℝ) : Except Exc Layer :=
  if A.arity ≠ 2 then .error .notImplemented
  else if A.mask.isSome then .error .valueError
  else
    match check A with
    | .error e => .error e
    | .ok _ => .ok (.tucker A.folds.toNat A.inp.toNat A.out.toNat u)

/-- `CollapsedCPLayer.__init__` (cp.py:30-59). -/
def newCollapsed (A : Args) (u : ℕ → ℕ → ℕ → ℕ → ℝ) : Except Exc Layer :=
  match check A with
  | .error e => .error e
  | .ok _ => .ok (.collapsed A.folds.toNat A.arity.toNat A.inp.toNat A.out.toNat A.mask u)

/-- `UncollapsedCPLayer.__init__` (cp.py:90-127). -/
def newUncollapsed (A : Args) (rank : ℤ) (u : ℕ → ℕ → ℕ → ℕ → ℝ) (u' : ℕ → ℕ → ℕ → ℝ) : Except Exc Layer :=
  if rank ≤ 0 then .error .valueError
  else
    match check A with
    | .error e => .error e
    | .ok _ => .ok (.uncollapsed A.folds.toNat A.arity.toNat A.inp.toNat rank.toNat A.out.toNat A.mask u u')

/-- `SharedCPLayer.__init__` (cp.py:190-220): the mask is ignored. -/
def newShared (A : Args) (u : ℕ → ℕ → ℕ → ℝ) : Except Exc Layer :=
  match check A with
  | .error e => .error e
  | .ok _ => .ok (.shared A.folds.toNat A.arity.toNat A.inp.toNat A.out.toNat u)

/-- `MixingSumLayer.__init__` and `reset_parameters` (mixing.py:28-74): random numbers divided by their sum over the arity. -/
noncomputable def newMixing (A : Args) (u : ℕ → ℕ → ℕ → ℝ) : Except Exc Layer :=
  if A.inp ≠ A.out then .error .valueError
  else
    match check A with
    | .error e => .error e
    | .ok _ => .ok (.mixing A.folds.toNat A.arity.toNat A.out.toNat A.mask fun f h k =>
        u f h k / ∑ h' ∈ Finset.range A.arity.toNat, u f h' k)

/-- `CPLayer` (cp.py:253-310). The random weights are given as a function of four indices; the shared layer uses fold 0. -/
def newCP (A : Args) (rank : ℤ) (collapsed shared : Bool) (u : ℕ → ℕ → ℕ → ℕ → ℝ) (u' : ℕ → ℕ → ℕ → ℝ) : Except Exc Layer :=
  if shared = true ∧ collapsed = true then newShared { A with mask := none } (u 0)
  else if shared = true ∧ collapsed = false then .error .notImplemented
  else if collapsed = true then newCollapsed A u
  else newUncollapsed A rank u u'

/-- `num_params` (base.py:73-76): the total number of entries of the parameters. -/
def numParams : Layer → ℕ
  | .tucker F I O _ => F * I * I * O
  | .collapsed F H I O _ _ => F * H * I * O
  | .uncollapsed F H I R O _ _ _ => F * H * I * R + F * R * O
  | .shared _ H I O _ => H * I * O
  | .mixing F H K _ _ => F * H * K

end Verif.TL

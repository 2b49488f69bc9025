import Verif.Sampling
import Verif.Outer

/-!
# Model of `ElementwiseProduct` and `OuterProduct` over a list of modules

Files modelled: spflow/modules/products/base_product.py, elementwise_product.py, outer_product.py with
`inputs=[m₁, …, mₙ]`, freely nested with `Cat`, `Product`, `Sum` (ops/cat.py, products/product.py, sums/sum.py) and with
the circuits of `Verif.Circuit`.  (Products over a `Split` are the subject of C17-C22, C67 and C68.)

Conventions as in `Verif.Circuit` and `Verif.Sampling`: one row at a time, non-differentiable routing, data columns are
global variable ids.
-/

namespace Verif.LP

open Verif.Circ (bc catCh validCtx seqAll pickAll sliceLoop routeOffsets Weights CloseToOne featAt)

/-- Modules.  `base`: a circuit of `Verif.Circuit`.  `cat1`/`cat2`: Cat with dim=1/2 (cat.py:19).  `fold`: Product of one
module (product.py:15).  `mul outer n cs`: OuterProduct (outer_product.py:19) or ElementwiseProduct
(elementwise_product.py:19) of the list `cs`.  `sum`: Sum (sum.py:31) with `logits θ f ci co r`. -/
inductive Mod where
  | base (c : Circ)
  | cat1 (n : ℕ) (cs : Fin n → Mod)
  | cat2 (n : ℕ) (cs : Fin n → Mod)
  | fold (m : Mod)
  | mul (outer : Bool) (n : ℕ) (cs : Fin n → Mod)
  | sum (m : Mod) (Co R : ℕ) (θ : ℕ → ℕ → ℕ → ℕ → LogV)

namespace Mod

/-! ## Shapes -/

/-- `out_shape.features`: cat.py:63,66; product.py:48; elementwise_product.py:84-91; outer_product.py:78-82; sum.py:113. -/
def F : Mod → ℕ
  | base c => c.F
  | cat1 n cs => (List.ofFn fun i : Fin n => F (cs i)).sum
  | cat2 n cs => if h : 0 < n then F (cs ⟨0, h⟩) else 0
  | fold _ => 1
  | mul _ n cs => if h : 0 < n then F (cs ⟨0, h⟩) else 0
  | sum m _ _ _ => F m

/-- `out_shape.channels`: the largest channel count for ElementwiseProduct (base_product.py:77,
elementwise_product.py:94), the number of rows of the index table for OuterProduct (outer_product.py:84). -/
def C : Mod → ℕ
  | base c => c.C
  | cat1 n cs => if h : 0 < n then C (cs ⟨0, h⟩) else 0
  | cat2 n cs => (List.ofFn fun i : Fin n => C (cs i)).sum
  | fold m => C m
  | mul outer n cs =>
    if outer then Outer.outChannels (List.ofFn fun i : Fin n => C (cs i))
    else (List.ofFn fun i : Fin n => C (cs i)).foldr max 0
  | sum _ Co _ _ => Co

/-- `out_shape.repetitions`: that of the first input (base_product.py:78-80), own value for Sum. -/
def R : Mod → ℕ
  | base c => c.R
  | cat1 n cs => if h : 0 < n then R (cs ⟨0, h⟩) else 0
  | cat2 n cs => if h : 0 < n then R (cs ⟨0, h⟩) else 0
  | fold m => R m
  | mul _ n cs => if h : 0 < n then R (cs ⟨0, h⟩) else 0
  | sum _ _ R _ => R

/-- The joined scope, `Scope.join_all` (base_product.py:73, cat.py:43); an error cannot occur once the constructor has
accepted the inputs. -/
def joined (l : List Scope) : Scope := match Scope.joinAll l with
  | .ok s => s
  | .error _ => ⟨[], []⟩

/-- `module.scope`. -/
def scope : Mod → Scope
  | base c => c.scope
  | cat1 n cs => joined (List.ofFn fun i : Fin n => scope (cs i))
  | cat2 n cs => if h : 0 < n then scope (cs ⟨0, h⟩) else ⟨[], []⟩
  | fold m => scope m
  | mul _ n cs => joined (List.ofFn fun i : Fin n => scope (cs i))
  | sum m _ _ _ => scope m

/-! ## Constructor checks -/

/-- `Cat.__init__` with dim=1, cat.py:31-43. -/
def check1 (l : List Mod) : Except Exc Unit := do
  if ! l.all (fun m => m.C == (l.head?.map C).getD 0) then throw .valueError
  let disj ← Scope.allPairwiseDisjoint (l.map scope)
  if ! disj then throw .valueError
  let _ ← Scope.joinAll (l.map scope)
  return ()

/-- `Cat.__init__` with dim=2, cat.py:45-55. -/
def check2 (l : List Mod) : Except Exc Unit := do
  if ! l.all (fun m => m.F == (l.head?.map F).getD 0) then throw .valueError
  if ! Scope.allEqual (l.map scope) then throw .valueError
  if l.isEmpty then throw .indexError
  return ()

/-- `ElementwiseProduct.check_shapes` for a list, elementwise_product.py:98-140; `Fs`, `Cs` are the feature and channel
counts of the inputs. -/
def shapesElem (Fs Cs : List ℕ) : Bool :=
  (Fs.zip Cs).all (fun p => (Fs.zip Cs).head? == some p)
  || (Fs.dedup.filter (· != 1)).length == 1
  || (Cs.dedup.filter (· != 1)).length == 1
  || (decide ((Fs.filter (· != 1)).length ≤ 1) && decide ((Cs.filter (· != 1)).length ≤ 1))

/-- `OuterProduct.check_shapes` for a list, outer_product.py:90-145. -/
def shapesOuter (Fs Cs : List ℕ) : Bool :=
  Fs.dedup.length == 1 || Cs.dedup.length == 1 || Fs.count 1 + 1 == Fs.length || Cs.count 1 + 1 == Cs.length

/-- The constructor of ElementwiseProduct and OuterProduct for a list: base_product.py:47-82, then
elementwise_product.py:68-82 (channels 1 or maximal; shapes) or outer_product.py:55-60 and 90-145 (for a single input
`ocs ** self.num_splits`, where base_product.py:61-64 has left `num_splits = None` unless the input has one feature).
The argument `num_splits` has its default. -/
def checkMul (outer : Bool) (l : List Mod) : Except Exc Unit := do
  if l.isEmpty then throw .valueError
  let disj ← Scope.allPairwiseDisjoint (l.map scope)
  if ! disj then throw .scopeError
  let _ ← Scope.joinAll (l.map scope)
  if outer then
    if l.length == 1 && (l.head?.map F).getD 0 != 1 then throw .typeError
    if ! shapesOuter (l.map F) (l.map C) then throw .shapeError
  else
    if ! (l.map C).all (fun c => c == 1 || c == (l.map C).foldr max 0) then throw .shapeError
    if ! shapesElem (l.map F) (l.map C) then throw .shapeError
  return ()

/-- `ElementwiseProduct(inputs=l)` / `OuterProduct(inputs=l)`. -/
def mkMul (outer : Bool) (l : List Mod) : Except Exc Mod := do checkMul outer l; return mul outer l.length l.get

/-- `Cat(inputs, dim)`, cat.py:20-69. -/
def mkCat (dim : Int) (l : List Mod) : Except Exc Mod :=
  if dim = 1 then do check1 l; return cat1 l.length l.get
  else if dim = 2 then do check2 l; return cat2 l.length l.get
  else .error .valueError

/-- `Product(inputs)` with a list argument, product.py:34-40. -/
def mkProd (l : List Mod) : Except Exc Mod :=
  match l with
  | [m] => .ok (fold m)
  | l => do return fold (← mkCat 1 l)

/-- The `weights` setter, sum.py:209-222. -/
noncomputable def setWeights (m : Mod) (Co R : ℕ) (w : Weights) : Except Exc (ℕ → ℕ → ℕ → ℕ → LogV) :=
  open Classical in
  if ¬ (w.Fw = m.F ∧ w.Ci = m.C ∧ w.Co = Co ∧ w.R = R) then .error .shapeError
  else if ¬ (∀ f < w.Fw, ∀ ci < w.Ci, ∀ co < w.Co, ∀ r < w.R, 0 < w.val f ci co r) then .error .invalidWeights
  else if ¬ (∀ f < w.Fw, ∀ co < w.Co, ∀ r < w.R,
      CloseToOne (∑ ci ∈ Finset.range w.Ci, w.val f ci co r)) then .error .invalidWeights
  else .ok fun f ci co r => logL (w.val f ci co r)

/-- `Sum(inputs, weights=w)`, sum.py:46-126.  Without `weights` the constructor draws them (sum.py:173-177): then `w` is
what it drew. -/
noncomputable def mkSum (l : List Mod) (w : Weights) : Except Exc Mod := do
  if l.isEmpty then throw .valueError
  if w.Co < 1 then throw .valueError
  let m ← match l with
    | [m] => .ok m
    | l => mkCat 2 l
  let θ ← setWeights m w.Co w.R w
  return sum m w.Co w.R θ

/-! ## log_likelihood -/

/-- The block that contains position `j`: `torch.cat` along the feature axis. -/
def blk {α : Type} (d : α) : List (ℕ × (ℕ → α)) → ℕ → α
  | [], _ => d
  | (n, g) :: rest, j => if j < n then g j else blk d rest (j - n)

/-- `log_likelihood(x)[f, ch, r]`.
ElementwiseProduct (elementwise_product.py:238-273): one-channel inputs are repeated, then the sum over the inputs.
OuterProduct (outer_product.py:236-279): the outer sum; an input with one feature broadcasts. -/
noncomputable def val : Mod → ℕ → Row → ℕ → ℕ → LogV
  | base c => fun f x r ch => featAt c.den f x r ch
  | cat1 n cs => fun f x r ch => blk ⊥ (List.ofFn fun i : Fin n => (F (cs i), fun k => val (cs i) k x r ch)) f
  | cat2 n cs => fun f x r ch => catCh (List.ofFn fun i : Fin n => (C (cs i), fun k => val (cs i) f x r k)) ch
  | fold m => fun _ x r ch => ∑ f ∈ Finset.range (F m), val m f x r ch
  | mul false n cs => fun f x r ch =>
      (List.ofFn fun i : Fin n => val (cs i) f x r (if C (cs i) = 1 then 0 else ch)).sum
  | mul true n cs => fun f x r ch =>
      (Outer.outerLL (List.ofFn fun i : Fin n =>
        (List.range (C (cs i))).map fun k => val (cs i) (if F (cs i) = 1 then 0 else f) x r k)).getD ch ⊥
  | sum m _ R θ => fun f x r co =>
      lse (C m) fun ci => val m f x r ci + logSoftmax (C m) (fun i => θ f i co (bc R r)) ci

/-- Repetition size of the tensor `log_likelihood` really returns, or `none` if torch raises.
ElementwiseProduct: `torch.stack` needs equal shapes, the final `view` needs the declared repetition count.
OuterProduct: features and repetitions of later inputs broadcast against the first; both `view`s need the declared
counts, which are those of the first input. -/
def tensorR : Mod → Option ℕ
  | base c => c.tensorR
  | cat1 n cs =>
    if h : 0 < n then
      if ∀ i : Fin n, tensorR (cs i) = tensorR (cs ⟨0, h⟩) then tensorR (cs ⟨0, h⟩) else none
    else none
  | cat2 n cs =>
    if h : 0 < n then
      if ∀ i : Fin n, tensorR (cs i) = tensorR (cs ⟨0, h⟩) then tensorR (cs ⟨0, h⟩) else none
    else none
  | fold m => tensorR m
  | mul false n cs =>
    if h : 0 < n then
      if (∀ i : Fin n, F (cs i) = F (cs ⟨0, h⟩)) ∧ ∀ i : Fin n, tensorR (cs i) = some (R (cs ⟨0, h⟩)) then
        some (R (cs ⟨0, h⟩)) else none
    else none
  | mul true n cs =>
    if h : 0 < n then
      if (∀ i : Fin n, F (cs i) = F (cs ⟨0, h⟩) ∨ F (cs i) = 1) ∧ tensorR (cs ⟨0, h⟩) = some (R (cs ⟨0, h⟩)) ∧
          ∀ i : Fin n, tensorR (cs i) = some (R (cs ⟨0, h⟩)) ∨ tensorR (cs i) = some 1 then
        some (R (cs ⟨0, h⟩)) else none
    else none
  | sum m _ R _ =>
    match tensorR m with
    | none => none
    | some T => if T = R then some R else if T = 1 then some R else if R = 1 then some T else none

/-- `module.log_likelihood(row)` as the user sees it. -/
noncomputable def logLik (m : Mod) (x : Row) : Except Exc (ℕ → ℕ → ℕ → LogV) :=
  match tensorR m with
  | none => .error .runtimeError
  | some _ => .ok fun f ch r => val m f x r ch

/-! ## Sampling -/

/-- `map_out_channels_to_in_channels` followed by the loop of `BaseProduct._sample` (base_product.py:127-160): the channel
handed to input `i`.  One-channel inputs get 0; OuterProduct looks up its table (outer_product.py:158-168), the
ElementwiseProduct passes the index on (elementwise_product.py:186-192). -/
def chan (outer : Bool) (counts : List ℕ) (ch i : ℕ) : ℕ :=
  if counts.getD i 0 = 1 then 0
  else if outer then ((Outer.unravelTable counts).getD ch []).getD i 0
  else ch

/-- Logits of the Categorical that a Sum draws from, sum.py:313-364. -/
noncomputable def sumLogits (ev : Option Row) (r : ℕ) (m : Mod) (θ : ℕ → ℕ → ℕ → ℕ → LogV) (ch : ℕ → ℕ) (f : ℕ) :
    ℕ → LogV :=
  match ev with
  | none => fun ci => θ f ci (ch f) r
  | some e => logSoftmax (C m) fun ci => θ f ci (ch f) r + val m f e r ci

/-- `module._sample(data, sampling_ctx, cache)` for one row.  Products: base_product.py:101-182; a context of width `F`
fits an input with `F` features, and a context of width 1 fits every input (it is repeated); otherwise
`validate_sampling_context` of the input raises (sampling_context.py:771-779). -/
noncomputable def sample (ev : Option Row) (r : ℕ) : Mod → (ℕ → ℕ) → (ℕ → Bool) → Row → Prog Row
  | base c => Circ.sample ev r c
  | cat1 n cs => fun ch mask y =>
    if ! validCtx (F (cat1 n cs)) (C (cat1 n cs)) (R (cat1 n cs)) ch mask r then .fail .invalidParameter
    else
      let ctx := sliceLoop ch mask 0 (List.ofFn fun i : Fin n => F (cs i))
      seqAll (List.ofFn fun i : Fin n =>
        sample ev r (cs i) (ctx.getD i (fun _ => 0, fun _ => false)).1 (ctx.getD i (fun _ => 0, fun _ => false)).2) y
  | cat2 n cs => fun ch mask y =>
    if ! validCtx (F (cat2 n cs)) (C (cat2 n cs)) (R (cat2 n cs)) ch mask r then .fail .invalidParameter
    else match routeOffsets (F (cat2 n cs)) (List.ofFn fun i : Fin n => C (cs i)) ch mask with
      | .error e => .fail e
      | .ok ctx =>
        seqAll (List.ofFn fun i : Fin n =>
          sample ev r (cs i) (ctx.getD i (fun _ => 0, fun _ => false)).1
            (ctx.getD i (fun _ => 0, fun _ => false)).2) y
  | fold m => fun ch mask y =>
    if ! validCtx 1 (C m) (R m) ch mask r then .fail .invalidParameter
    else sample ev r m (fun _ => ch 0) (fun _ => mask 0) y
  | mul outer n cs => fun ch mask y =>
    if ! validCtx (F (mul outer n cs)) (C (mul outer n cs)) (R (mul outer n cs)) ch mask r then .fail .invalidParameter
    else if outer && ! (List.range (F (mul outer n cs))).all (fun f => decide (ch f < C (mul outer n cs))) then
      .fail .indexError
    else
      seqAll (List.ofFn fun i : Fin n =>
        if F (cs i) = F (mul outer n cs) then
          sample ev r (cs i) (fun f => chan outer (List.ofFn fun j : Fin n => C (cs j)) (ch f) i) mask
        else if F (mul outer n cs) = 1 then
          sample ev r (cs i) (fun _ => chan outer (List.ofFn fun j : Fin n => C (cs j)) (ch 0) i) (fun _ => mask 0)
        else fun _ => .fail .shapeError) y
  | sum m Co R θ => fun ch mask y =>
    if ! validCtx (F m) Co R ch mask r then .fail .invalidParameter
    else if ! (List.range (F m)).all (fun f => decide (ch f < Co)) then .fail .runtimeError
    else (pickAll (C m) (sumLogits ev r m θ ch) (F m)).bind fun ch' => sample ev r m ch' mask y

/-- `module.sample(data=y)`, module.py:227-243. -/
noncomputable def sampleData (m : Mod) (y : Row) : Prog Row := sample none 0 m (fun _ => 0) (fun _ => true) y

/-- `module.sample_with_evidence(e)`, module.py:297-329: `log_likelihood(e)` first (it fills the cache), then `sample`. -/
noncomputable def sampleWithEvidence (m : Mod) (e : Row) : Prog Row :=
  match logLik m e with
  | .error x => .fail x
  | .ok _ => sample (some e) 0 m (fun _ => 0) (fun _ => true) e

end Mod

end Verif.LP

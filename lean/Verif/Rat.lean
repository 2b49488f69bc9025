import Verif.Conv
import Verif.Factorize
import Verif.Splits
import Verif.Outer
import Verif.Einsum
import Verif.Classify

/-!
# Model of RatSPN

spflow/zoo/rat/rat_spn.py, end to end, with the layers it is made of: Factorize (modules/rat/factorize.py), the two
splits (modules/ops), ElementwiseProduct and OuterProduct over a split (modules/products), Sum and
RepetitionMixingLayer (modules/sums); and the additional layers of Einet (zoo/einet/einet.py): EinsumLayer,
LinsumLayer (modules/einsum) over an interleaved split, and Product over the features.

* One batch row at a time.  A log-likelihood tensor is `NT`: `T f ch r`, where `none` is NaN.
* What the constructor draws is a parameter: the shuffled group sizes, one permutation per repetition, all initial logits.
* All layers have the same number `R` of repetitions, as RatSPN and Einet construct them.
-/

namespace Verif.Rat

open Verif.Circ

/-- `ll[feature, channel, repetition]` of one row; `none` is NaN. -/
abbrev NT := ℕ → ℕ → ℕ → Option LogV

/-- `SplitMode.consecutive()` / `SplitMode.interleaved()`, split.py:75-100. -/
inductive Mode | consecutive | interleaved
  deriving DecidableEq

/-- The layers.  `fact`: Factorize over the (concatenated) leaves `c`, with `R` repetitions and groups `G r`.
`prod`: `ElementwiseProduct(Split(n))` or (`outer`) `OuterProduct(Split(n))` with a split into `k` parts.
`sum`: logits `θ f ci co r`.  `einsum`: logits `θ f co r i j`, contraction schedule `path`.  `linsum`: logits
`θ f co r c`.  `collapse`: `Product(inputs=n)`. -/
inductive Net where
  | fact (c : Circ) (depth R : ℕ) (G : ℕ → List (List ℕ))
  | prod (n : Net) (mode : Mode) (k : ℕ) (outer : Bool)
  | sum (n : Net) (Co : ℕ) (θ : ℕ → ℕ → ℕ → ℕ → LogV)
  | einsum (n : Net) (Co : ℕ) (path : Einsum.Path) (θ : ℕ → ℕ → ℕ → ℕ → ℕ → LogV)
  | linsum (n : Net) (Co : ℕ) (θ : ℕ → ℕ → ℕ → ℕ → LogV)
  | collapse (n : Net)

namespace Net

/-- `out_shape.repetitions`. -/
def R : Net → ℕ
  | fact _ _ R _ => R
  | prod n _ _ _ => R n
  | sum n _ _ => R n
  | einsum n _ _ _ => R n
  | linsum n _ _ => R n
  | collapse n => R n

/-- Output features of a product over a split: elementwise_product.py:79-86, outer_product.py:81-87 (OuterProduct
overwrites the number of splits with its default 2, line 58). -/
def prodF (inF k : ℕ) (outer : Bool) : ℕ := if outer then inF / 2 else if inF = 1 then 1 else inF / k

/-- `out_shape.features`: factorize.py:76; einsum_layer.py:144-153; linsum_layer.py; product.py. -/
def F : Net → ℕ
  | fact _ depth _ _ => 2 ^ depth
  | prod n _ k outer => prodF (F n) k outer
  | sum n _ _ => F n
  | einsum n _ _ _ => F n / 2
  | linsum n _ _ => F n / 2
  | collapse _ => 1

/-- `out_shape.channels`. -/
def C : Net → ℕ
  | fact c _ _ _ => c.C
  | prod n _ _ outer => if outer then Outer.outChannels [C n, C n] else C n
  | sum _ Co _ => Co
  | einsum _ Co _ _ => Co
  | linsum _ Co _ => Co
  | collapse n => C n

/-! ## log_likelihood -/

/-- All of the first `n` entries are numbers. -/
def allSome (n : ℕ) (g : ℕ → Option LogV) : Option (ℕ → LogV) :=
  if (List.range n).all (fun i => (g i).isSome) then some fun i => (g i).getD ⊥ else none

/-- `torch.logsumexp` of `n` entries `g i + w i`: NaN absorbs. -/
noncomputable def nanLse (n : ℕ) (g : ℕ → Option LogV) (w : ℕ → LogV) : Option LogV :=
  (allSome n g).map fun u => lse n fun i => u i + w i

/-- The indices of the input features in each part of the split: split_consecutive.py:80-82, split_interleaved.py:91-99. -/
def chunks (mode : Mode) (k F : ℕ) : Except Exc (List (List ℕ)) :=
  match mode with
  | .consecutive => Split.splitConsecutive k (List.range F)
  | .interleaved => .ok (Split.splitInterleaved k (List.range F))

/-- Value of a product over the parts `ch` of a split.  Elementwise (elementwise_product.py:252-271): the sum of entry `f`
of every part.  Outer (outer_product.py:258-278, two parts): `view` flattens the two channel axes in row-major order. -/
noncomputable def prodVal (T : NT) (ch : List (List ℕ)) (C : ℕ) (outer : Bool) (f co r : ℕ) : Option LogV :=
  if outer then
    Routing.fsum [T ((ch.getD 0 []).getD f 0) (co / C) r, T ((ch.getD 1 []).getD f 0) (co % C) r]
  else Routing.fsum (ch.map fun l => T (l.getD f 0) co r)

/-- `log_likelihood` of one row.
Factorize: factorize.py:143-164, `torch.einsum` broadcasts a repetition axis of size 1; for other sizes it raises - or, if
`R = 1`, keeps the input's repetitions, and the `view` of the product above raises (simplification: without a product above
it does not).
Products: `torch.stack` (elementwise) resp. `+` and `view` (outer) raise if the parts have different lengths, or a length
different from `out_shape.features`; an OuterProduct over a split into `k ≠ 2` parts is modelled as raising (its table is for
2 parts).  Sum: sum.py:250-280.  EinsumLayer: einsum_layer.py:364-400; a NaN input makes the maximum, hence everything, NaN.
LinsumLayer: linsum_layer.py:272-296.  Product: product.py:60-82. -/
noncomputable def logLik : Net → Row → Except Exc NT
  | fact c _ R G, x =>
    match tensorR c with
    | none => .error .runtimeError
    | some t =>
      if t ≠ R ∧ t ≠ 1 then .error .runtimeError
      else .ok fun o ch r => Fact.logLik (G r) c.F (fun i => featAt (den c) i x r ch) o
  | prod n mode k outer, x => do
    let T ← logLik n x
    let ch ← chunks mode k (F n)
    if ! ch.all (fun l => l.length == prodF (F n) k outer) then throw .runtimeError
    if outer ∧ k ≠ 2 then throw .runtimeError
    return prodVal T ch (C n) outer
  | sum n _ θ, x => do
    let T ← logLik n x
    return fun f co r => nanLse (C n) (fun ci => T f ci r) (logSoftmax (C n) fun ci => θ f ci co r)
  | einsum n _ path θ, x => do
    let T ← logLik n x
    return fun f co r => (allSome (C n) fun i => T (2 * f) i r).bind fun left =>
      (allSome (C n) fun j => T (2 * f + 1) j r).bind fun right =>
        Einsum.logLik path (C n) (C n) left right (Einsum.weights (C n) (C n) (θ f co r))
  | linsum n _ θ, x => do
    let T ← logLik n x
    return fun f co r => (allSome (C n) fun i => T (2 * f) i r).bind fun left =>
      (allSome (C n) fun j => T (2 * f + 1) j r).map fun right => Einsum.linsumLL (C n) left right (θ f co r)
  | collapse n, x => do
    let T ← logLik n x
    return fun _ ch r => Routing.fsum ((List.range (F n)).map fun f => T f ch r)

/-! ## _sample -/

/-- The cached log-likelihoods of a module, if `log_likelihood` has been called on the row `ev`. -/
noncomputable def cachedLL (n : Net) (ev : Option Row) : Option NT :=
  match ev with
  | none => none
  | some e => match logLik n e with
    | .ok T => some T
    | .error _ => none

/-- Categorical logits over `m` components with logits `θ`: with cached log-likelihoods `u` of the components the
posterior, normalised (sum.py:339-364, einsum_layer.py:505-536, linsum_layer.py:375-405); `none` if NaN. -/
noncomputable def mixLogits (m : ℕ) (θ : ℕ → LogV) (u : Option (ℕ → Option LogV)) : Option (ℕ → LogV) :=
  match u with
  | none => some θ
  | some u => (allSome m u).map fun v => logSoftmax m fun i => θ i + v i

/-- Cached log-likelihood of the pair `(i, j)` of an EinsumLayer: NaN if either is. -/
noncomputable def pairLL (T : NT) (f r i j : ℕ) : Option LogV := Routing.fsum [T (2 * f) i r, T (2 * f + 1) j r]

/-- Draw one component per feature; `Categorical` raises ValueError if any entry of the logits is NaN. -/
noncomputable def pickNan (m : ℕ) (l : ℕ → Option (ℕ → LogV)) (F : ℕ) : Prog (ℕ → ℕ) :=
  if (List.range F).all (fun f => (l f).isSome) then pickAll m (fun f => (l f).getD fun _ => ⊥) F else .fail .valueError

/-- Routing of a request `req f i` (output feature `f`, part `i`) to the input features, for both kinds of splits:
elementwise_product.py:176-193, outer_product.py:181-186. -/
def routeSplit {α : Type} (mode : Mode) (k L : ℕ) (req : ℕ → ℕ → α) : List α :=
  match mode with
  | .consecutive => Split.routeConsecutive k L req
  | .interleaved => Split.routeInterleaved k L req

/-- Channel that a product requests from part `i` for its own channel `co`: the same one, or entry `i` of the table
`unraveled_channel_indices`; a one-channel input always gets 0 (base_product.py:157-159). -/
def partChannel (outer : Bool) (C co i : ℕ) : ℕ :=
  if C = 1 then 0
  else if outer then ((Outer.unravelTable [C, C]).getD co []).getD i 0 else co

/-- `_sample` for one row; `r` is the repetition index, one for the whole network.
Factorize: factorize.py:168-224.  Products: base_product.py:114-191 (an OuterProduct's table raises for an index out of
range; a routed context of another width than the input raises ShapeError).  Sum: sum.py:282-385.
EinsumLayer: einsum_layer.py:402-574, LinsumLayer: linsum_layer.py:298-442 (interleaved merge, mask repeated per pair).
Product: product.py:84-121. -/
noncomputable def sample (ev : Option Row) (r : ℕ) : Net → (ℕ → ℕ) → (ℕ → Bool) → Row → Prog Row
  | fact c depth R G => fun ch mask y =>
    if ! validCtx (2 ^ depth) c.C R ch mask r then .fail .invalidParameter
    else Circ.sample ev r c (fun i => (Fact.routeInt (G r) c.F ch).getD i 0)
      (fun i => (Fact.routeInt (G r) c.F mask).getD i false) y
  | prod n mode k outer => fun ch mask y =>
    if ! validCtx (F (prod n mode k outer)) (C (prod n mode k outer)) (R n) ch mask r then .fail .invalidParameter
    else if outer && ! (List.range (F (prod n mode k outer))).all (fun f => decide (ch f < C (prod n mode k outer))) then
      .fail .indexError
    else
      let parts := if outer then 2 else k
      if parts * F (prod n mode k outer) ≠ F n then .fail .shapeError
      else sample ev r n
        (fun j => (routeSplit mode parts (F (prod n mode k outer)) fun f i => partChannel outer (C n) (ch f) i).getD j 0)
        (fun j => (routeSplit mode parts (F (prod n mode k outer)) fun f _ => mask f).getD j false) y
  | sum n Co θ => fun ch mask y =>
    if ! validCtx (F n) Co (R n) ch mask r then .fail .invalidParameter
    else if ! (List.range (F n)).all (fun f => decide (ch f < Co)) then .fail .runtimeError
    else (pickNan (C n) (fun f => mixLogits (C n) (fun ci => θ f ci (ch f) r)
        ((cachedLL n ev).map fun T ci => T f ci r)) (F n)).bind fun ch' => sample ev r n ch' mask y
  | einsum n Co _ θ => fun ch mask y =>
    if ! validCtx (F n / 2) Co (R n) ch mask r then .fail .invalidParameter
    else if ! (List.range (F n / 2)).all (fun f => decide (ch f < Co)) then .fail .runtimeError
    else (pickNan (C n * C n) (fun f => mixLogits (C n * C n) (fun i => θ f (ch f) r (i / C n) (i % C n))
        ((cachedLL n ev).map fun T i => pairLL T f r (i / C n) (i % C n))) (F n / 2)).bind fun k =>
      sample ev r n (fun j => if j % 2 = 0 then k (j / 2) / C n else k (j / 2) % C n) (fun j => mask (j / 2)) y
  | linsum n Co θ => fun ch mask y =>
    if ! validCtx (F n / 2) Co (R n) ch mask r then .fail .invalidParameter
    else if ! (List.range (F n / 2)).all (fun f => decide (ch f < Co)) then .fail .runtimeError
    else (pickNan (C n) (fun f => mixLogits (C n) (fun c => θ f (ch f) r c)
        ((cachedLL n ev).map fun T c => pairLL T f r c c)) (F n / 2)).bind fun k =>
      sample ev r n (fun j => k (j / 2)) (fun j => mask (j / 2)) y
  | collapse n => fun ch mask y =>
    if ! validCtx 1 (C n) (R n) ch mask r then .fail .invalidParameter
    else sample ev r n (fun _ => ch 0) (fun _ => mask 0) y

end Net

/-! ## The model: network, mixing layer over repetitions, root over classes -/

/-- `net`: everything below the RepetitionMixingLayer; `mix`: its logits `θ ch r` (absent in an Einet with one repetition);
`cls`: the logits of the root `Sum` over the channels (present iff there is more than one). -/
structure Model where
  net : Net
  mix : Option (ℕ → ℕ → LogV)
  cls : Option (ℕ → LogV)

namespace Model

/-- Log-likelihood per class from the network's output: repetition_mixing_layer.py:168-198 (feature 0). -/
noncomputable def classOf (m : Model) (T : NT) (ch : ℕ) : Option LogV :=
  match m.mix with
  | none => T 0 ch 0
  | some θ => Net.nanLse m.net.R (fun r => T 0 ch r) (logSoftmax m.net.R (θ ch))

/-- `log_likelihood(data)` of one row, rat_spn.py:199-218: the root's single entry. -/
noncomputable def logLik (m : Model) (x : Row) : Except Exc (Option LogV) := do
  let T ← m.net.logLik x
  match m.cls with
  | none => return m.classOf T 0
  | some w => return Net.nanLse m.net.C (m.classOf T) (logSoftmax m.net.C w)

/-- `log_posterior(data)` of one row, rat_spn.py:220-249 and einet.py:336-362: the prior is `root_node.log_weights`, the
likelihoods are those of the root's input; NaN in one class makes the `logsumexp`, hence every class, NaN. -/
noncomputable def logPosterior (m : Model) (x : Row) : Except Exc (ℕ → Option LogV) :=
  match m.cls with
  | none => .error .unsupported
  | some w => do
    let T ← m.net.logLik x
    return fun k => (Net.allSome m.net.C (m.classOf T)).bind fun u => Classify.logPosterior m.net.C u (logSoftmax m.net.C w) k

/-- `predict_proba(data)`, rat_spn.py:251-260, einet.py:364-375. -/
noncomputable def predictProba (m : Model) (x : Row) : Except Exc (ℕ → Option ℝ) := do
  let p ← m.logPosterior x
  return fun k => (p k).map expL

/-- Logits from which the repetition is drawn, repetition_mixing_layer.py:121-146: summed over *all* channels; with cached
log-likelihoods each channel's posterior, normalised over the repetitions.  `none` if NaN. -/
noncomputable def repLogits (m : Model) (θ : ℕ → ℕ → LogV) (ev : Option Row) : Option (ℕ → LogV) :=
  match m.net.cachedLL ev with
  | none => some fun r => ∑ ch ∈ Finset.range m.net.C, θ ch r
  | some T =>
    if (List.range m.net.C).all fun ch => (Net.allSome m.net.R fun r => T 0 ch r).isSome then
      some fun r => ∑ ch ∈ Finset.range m.net.C,
        logSoftmax m.net.R (fun r => θ ch r + (T 0 ch r).getD ⊥) r
    else none

/-- Sampling below the root for one requested channel: RepetitionMixingLayer._sample, repetition_mixing_layer.py:97-166. -/
noncomputable def sampleClass (m : Model) (ev : Option Row) (y : Row) (ch : ℕ) : Prog Row :=
  match m.mix with
  | none => m.net.sample ev 0 (fun _ => ch) (fun _ => true) y
  | some θ => match m.repLogits θ ev with
    | none => .fail .valueError
    | some l => .choose m.net.R l fun r => m.net.sample ev r (fun _ => ch) (fun _ => true) y

/-- `sample(data=y)`, rat_spn.py:262-335; `ev`: the row whose log-likelihoods are cached, if any.  With several root nodes
the class is drawn from the raw root logits, also when likelihoods are cached. -/
noncomputable def sample (m : Model) (ev : Option Row) (y : Row) : Prog Row :=
  match m.cls with
  | none => m.sampleClass ev y 0
  | some w => .choose m.net.C w fun ch => m.sampleClass ev y ch

/-- `sample_with_evidence(e)`, module.py:297-329. -/
noncomputable def sampleWithEvidence (m : Model) (e : Row) : Prog Row :=
  match m.logLik e with
  | .error ex => .fail ex
  | .ok _ => m.sample (some e) e

end Model

/-! ## RatSPN -/

/-- `Split.get_out_shapes((a, b))` for dim=1, split.py:186-208: it divides the *second* entry, the channels; and for a
remainder the last shape starts with `b`. -/
def outShapes (k a b : ℕ) : List (ℕ × ℕ) :=
  if b % k = 0 then List.replicate k (a, b / k) else List.replicate (k - 1) (a, b / k) ++ [(b, b % k)]

/-- `ElementwiseProduct.check_shapes`, elementwise_product.py:113-140. -/
def elemShapesOk (s : List (ℕ × ℕ)) : Bool :=
  s.all (fun p => p == s.headD (0, 0)) ||
  (((s.map Prod.fst).filter (· ≠ 1)).dedup.length == 1) ||
  (((s.map Prod.snd).filter (· ≠ 1)).dedup.length == 1) ||
  (decide (((s.map Prod.fst).filter (· ≠ 1)).length ≤ 1) && decide (((s.map Prod.snd).filter (· ≠ 1)).length ≤ 1))

/-- `OuterProduct.check_shapes`, outer_product.py:90-145. -/
def outerShapesOk (s : List (ℕ × ℕ)) : Bool :=
  ((s.map Prod.fst).dedup.length == 1) || ((s.map Prod.snd).dedup.length == 1) ||
  ((s.map Prod.fst).count 1 == s.length - 1) || ((s.map Prod.snd).count 1 == s.length - 1)

/-- `ElementwiseProduct(split(n))` / `OuterProduct(split(n))`: the constructor's shape check. -/
def addProd (n : Net) (mode : Mode) (k : ℕ) (outer : Bool) : Except Exc Net :=
  let ok := if outer then outerShapesOk (outShapes k (n.F / k) (n.C ^ k))
    else elemShapesOk (outShapes k (if n.F = 1 then 1 else n.F / k) n.C)
  if ok then .ok (.prod n mode k outer) else .error .shapeError

/-- The loop of `create_spn`, rat_spn.py:147-176, with `d` layers to go; `W l` are the logits of the sum layer when `l`
layers are above it. -/
def layers (mode : Mode) (k : ℕ) (outer : Bool) (nRoot nRegion : ℕ) (W : ℕ → ℕ → ℕ → ℕ → ℕ → LogV) :
    ℕ → Net → Except Exc Net
  | 0, n => .ok n
  | d + 1, n => do
    let p ← addProd n mode k outer
    layers mode k outer nRoot nRegion W d (.sum p (if d = 0 then nRoot else nRegion) (W d))

/-- The input of `Factorize(inputs=leaves)`, factorize.py:45-52: a single module is used as it is, several are
concatenated along the features. -/
def joinInputs : List Circ → Except Exc Circ
  | [c] => .ok c
  | l => mkCat 1 l

/-- The groups of one repetition (empty if `_factorize` raises). -/
def groupsOf (n depth : ℕ) (sizes perm : List ℕ) : List (List ℕ) :=
  match Fact.factorize n depth sizes perm with
  | .ok g => g
  | .error _ => []

/-- `Factorize(inputs=leaves, ...)`, factorize.py:45-76, 107-141: a list of several leaves is concatenated.  `sizes` is the
shuffled list of group sizes, `perms r` the permutation of repetition `r`. -/
def addFact (leaves : List Circ) (depth R : ℕ) (sizes : List ℕ) (perms : ℕ → List ℕ) : Except Exc Net := do
  let c ← joinInputs leaves
  let n := (scope c).query.length
  let _ ← Fact.factorize n depth sizes (perms 0)
  return .fact c depth R fun r => groupsOf n depth sizes (perms r)

/-- Arguments of `RatSPN`. -/
structure Args where
  nRoot : ℕ
  nRegion : ℕ
  R : ℕ
  depth : ℕ
  outer : Bool
  split : Option (Mode × ℕ)
  numSplits : ℕ

/-- The split mode used, rat_spn.py:99. -/
def Args.mode (a : Args) : Mode := match a.split with
  | some p => p.1
  | none => .consecutive

/-- Its number of parts. -/
def Args.parts (a : Args) : ℕ := match a.split with
  | some p => p.2
  | none => a.numSplits

/-- `RatSPN.__init__`, rat_spn.py:57-185.  `SplitMode` itself rejects fewer than two parts (split.py:50).  With depth 0 no sum
layer exists and `RepetitionMixingLayer(inputs=None)` raises ValueError.  `W`, `wmix`, `wroot`: the logits drawn. -/
def build (leaves : List Circ) (a : Args) (sizes : List ℕ) (perms : ℕ → List ℕ) (W : ℕ → ℕ → ℕ → ℕ → ℕ → LogV)
    (wmix : ℕ → ℕ → LogV) (wroot : ℕ → LogV) : Except Exc Model :=
  match leaves with
  | [] => .error .indexError
  | l0 :: _ => do
    if a.parts < 2 then throw .invalidParameter
    let _ ← Scope.joinAll (leaves.map scope)
    if a.nRoot < 1 then throw .invalidParameter
    if a.nRegion < 1 then throw .invalidParameter
    if l0.C < 1 then throw .invalidParameter
    if a.numSplits < 2 then throw .invalidParameter
    let f ← addFact leaves a.depth a.R sizes perms
    let n ← layers a.mode a.parts a.outer a.nRoot a.nRegion W a.depth f
    if a.depth = 0 then throw .valueError
    return ⟨n, some wmix, if 1 < a.nRoot then some wroot else none⟩

end Verif.Rat

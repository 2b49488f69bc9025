import Verif.Circuit
import Verif.Leaves
import Verif.LeafFit
import Verif.CLTree
import Verif.Sampling

/-!
# Model of spflow/zoo/cms (continuous mixtures)

The quadrature points (`rqmc.py`), the training objective (`_factorized_component_ll`,
`_mixture_log_likelihood_from_component_ll`, `cltree_component_ll`), the compilation into SPFlow modules
(`_compile_factorized`, `_compile_cltree`), the wrapper `JointLogLikelihood` and the loops that select the returned
parameters.  The decoder network is a parameter: its output at the integration points is arbitrary.
-/

namespace Verif.Cms

open Verif Verif.Circ Verif.LeafFit

/-! ## Quadrature points -/

/-- `rqmc_sobol_normal`, rqmc.py:35-95, without the points themselves: checks and weights.  `eps` is the clamp. -/
noncomputable def rqmcWeights (n d : ℤ) (eps : ℝ) : Except Exc (List ℝ) :=
  open Classical in
  if n < 1 then .error .invalidParameter
  else if d < 1 then .error .invalidParameter
  else if eps ≤ 0 ∨ 1 / 10 ≤ eps then .error .invalidParameter
  else .ok (List.replicate n.toNat (1 / (n : ℝ)))

/-! ## The training objective, factorized structure -/

/-- The leaf family and its options: `leaf`, `num_cats`, `normal_eps`. -/
inductive Fam where
  | bernoulli
  | categorical (K : ℕ)
  | normal (eps : ℝ)

/-- `torch.nn.functional.softplus`. -/
noncomputable def softplus (x : ℝ) : ℝ := Real.log (1 + Real.exp x)

/-- `torch.isfinite`. -/
def isFinite : Fl → Bool
  | .fin _ => true
  | _ => false

/-- `torch.allclose(x, x.round())`, entry by entry, with the default tolerances. -/
def nearInt (x : ℝ) : Prop := |x - round x| ≤ (1e-8 : ℝ) + (1e-5 : ℝ) * |(round x : ℝ)|

/-- The checks on an observed value, continuous_mixtures.py:145-148 (bernoulli) and 163-166 (categorical). -/
def okValue : Fam → ℝ → Prop
  | .bernoulli, x => nearInt x ∧ 0 ≤ x ∧ x ≤ 1
  | .categorical K, x => nearInt x ∧ 0 ≤ x ∧ x < K
  | .normal _, _ => True

/-- The log-density of one observed value of feature `j`, `out` being the decoder output (a flat vector) at the
integration point: 149-155 (bernoulli), 167-182 (categorical, the index is truncated), 186-200 (normal, the first `F`
outputs are locations). -/
noncomputable def perFeat (F : ℕ) (out : ℕ → ℝ) (j : ℕ) : Fam → ℝ → ℝ
  | .bernoulli, x => x * (- softplus (- out j)) + (1 - x) * (- softplus (out j))
  | .categorical K, x =>
    out (j * K + ⌊x⌋₊) - Real.log (∑ k ∈ Finset.range K, Real.exp (out (j * K + k)))
  | .normal eps, x =>
    (-(1 / 2)) * (((x - out j) / (softplus (out (F + j)) + eps)) * ((x - out j) / (softplus (out (F + j)) + eps)) +
      2 * Real.log (softplus (out (F + j)) + eps) + Real.log (2 * Real.pi))

/-- One entry: non-finite entries count as missing, 139 and 154/181/199. -/
noncomputable def perCell (F : ℕ) (out : ℕ → ℝ) (j : ℕ) (fam : Fam) : Fl → ℝ
  | .fin x => perFeat F out j fam x
  | _ => 0

/-- `num_cats` must be at least 2, 158-159. -/
def okFam : Fam → Prop
  | .categorical K => 2 ≤ K
  | _ => True

/-- A batch is accepted if every finite entry is. -/
def okBatch (fam : Fam) (F : ℕ) (rows : List (ℕ → Fl)) : Prop :=
  ∀ row ∈ rows, ∀ j < F, ∀ x, row j = .fin x → okValue fam x

/-- `_factorized_component_ll`, continuous_mixtures.py:119-204: the tensor `(I, B)` as a list over components of lists over
rows. -/
noncomputable def factorizedLL (fam : Fam) (F : ℕ) (outs : List (ℕ → ℝ)) (rows : List (ℕ → Fl)) :
    Except Exc (List (List ℝ)) :=
  open Classical in
  if ¬ okFam fam then .error .invalidParameter
  else if ¬ okBatch fam F rows then .error .invalidParameter
  else .ok (outs.map fun out => rows.map fun row => ∑ j ∈ Finset.range F, perCell F out j fam (row j))

/-- `_mixture_log_likelihood_from_component_ll` for one row, continuous_mixtures.py:207-223: weights are clamped at
`1e-30`. -/
noncomputable def mixtureLL (ws : List ℝ) (lls : List ℝ) : Except Exc LogV :=
  if ws.length ≠ lls.length then .error .invalidParameter
  else .ok (lse ws.length fun i => logL (max (ws.getD i 0) (1e-30 : ℝ)) + ((lls.getD i 0 : ℝ) : LogV))

/-! ## Compilation, factorized structure -/

/-- The logistic function. -/
noncomputable def sigmoid (x : ℝ) : ℝ := 1 / (1 + Real.exp (-x))

/-- The density of the compiled leaf of feature `j`, 437-468: `Bernoulli(logits=...)`, `Categorical(logits=...)`,
`Normal(loc, scale)`. -/
noncomputable def leafDens (F : ℕ) (out : ℕ → ℝ) (j : ℕ) : Fam → ℝ → LogV
  | .bernoulli => Leaves.bernoulliLL (sigmoid (out j))
  | .categorical K => Leaves.categoricalLL K fun k => ((out (j * K + k) : ℝ) : LogV)
  | .normal eps => Leaves.normalLL (out j) (softplus (out (F + j)) + eps)

/-- One component, 432-473: a product of univariate leaves. -/
noncomputable def component (fam : Fam) (F : ℕ) (out : ℕ → ℝ) : Except Exc Circ := do
  let leaves ← (List.range F).mapM fun j : ℕ => mkLeaf [(j : ℤ)] 1 1 fun _ _ _ => leafDens F out j fam
  mkProd leaves

/-- `_broadcast_component_weights`, 88-97, for one feature. -/
noncomputable def broadcastWeights (ws : List ℝ) : Except Exc Weights :=
  open Classical in
  if ¬ (∀ w ∈ ws, 0 < w) then .error .invalidParameter
  else if ¬ (|ws.sum - 1| ≤ (1e-6 : ℝ)) then .error .invalidParameter
  else .ok ⟨1, ws.length, 1, 1, fun _ i _ _ => ws.getD i 0⟩

/-- `_compile_factorized`, 416-483. -/
noncomputable def compile (fam : Fam) (F : ℕ) (outs : List (ℕ → ℝ)) (ws : List ℝ) : Except Exc Circ := do
  let comps ← outs.mapM (component fam F)
  if comps.isEmpty then throw .indexError
  let w ← broadcastWeights ws
  mkSum comps w

/-! ## Chow-Liu tree structure -/

/-- `decode_log_cpt`, 656-668, at one integration point: `out` is the raw decoder output. -/
noncomputable def decodeCpt {F : ℕ} (K : ℕ) (root : Fin F) (out : ℕ → ℝ) : Fin F → ℕ → ℕ → LogV := fun i v y =>
  if i = root then logSoftmax K (fun k => ((out k : ℝ) : LogV)) v
  else logSoftmax K (fun k => ((out (K + (i * (K * K) + k * K + y)) : ℝ) : LogV)) v

/-- `cltree_component_ll` for one component and one row, 670-691: the root term, then one term per feature with a parent.
`x` holds the truncated entries. -/
def cltTrain {F : ℕ} (pa : Fin F → Option (Fin F)) (root : Fin F) (cpt : Fin F → ℕ → ℕ → LogV) (x : Fin F → ℕ) : LogV :=
  cpt root (x root) 0 + ∑ i, match pa i with
    | none => 0
    | some p => cpt i (x i) (x p)

/-- `_mixture_log_likelihood_from_component_ll` with components that may be impossible. -/
noncomputable def mixtureLL' (ws : List ℝ) (lls : ℕ → LogV) : LogV :=
  lse ws.length fun i => logL (max (ws.getD i 0) (1e-30 : ℝ)) + lls i

/-- The log-likelihood `JointLogLikelihood(Sum(components)).log_likelihood` of one row, joint.py:46-49 and
continuous_mixtures.py:862-902: a CLTree puts its joint score into feature 0 and zeros elsewhere (cltree.py:333-396), the
Sum mixes every feature, the wrapper adds the features.  The weights of the Sum are the softmax of the stored logs. -/
noncomputable def jointMix (F : ℕ) (ws : List ℝ) (lls : ℕ → LogV) : LogV :=
  ∑ f ∈ Finset.range F, lse ws.length fun i =>
    logSoftmax ws.length (fun i => logL (ws.getD i 0)) i + (if f = 0 then lls i else 0)

/-- `.log_likelihood(data)` of the compiled CLTree mixture on a batch: the components are evaluated on the same batch. -/
noncomputable def cltCompiled (ps : List ℤ) (K : ℕ) (ws : List ℝ) (cpts : List (Fin ps.length → ℕ → ℕ → LogV))
    (rows : List (Fin ps.length → Option ℝ)) : Except Exc (List LogV) := do
  let lls ← cpts.mapM fun cpt => CLTree.logLikelihood ps K cpt rows
  return (List.range rows.length).map fun b => jointMix ps.length ws fun i => (lls.getD i []).getD b ⊥

/-! ### Sampling -/

/-- The Sum draws an input channel for every feature separately (sum.py:300-390 with the feature axis). -/
noncomputable def drawComponents {F : ℕ} (I : ℕ) (logw : ℕ → LogV) : List (Fin F) → (Fin F → ℕ) → Prog (Fin F → ℕ)
  | [], g => .ret g
  | f :: l, g => .choose I logw fun i => drawComponents I logw l (Function.update g f i)

/-- `Cat(dim=2)` calls the trees in order; tree `i` owns the features with `g f = i`.  It samples all missing entries given
the present ones (those filled by earlier trees included) and writes the entries it owns, cltree.py:489-613. -/
noncomputable def runTrees {F : ℕ} (step : ℕ → (Fin F → Option ℕ) → Prog (Fin F → ℕ)) (g : Fin F → ℕ) :
    List ℕ → (Fin F → Option ℕ) → Prog (Fin F → Option ℕ)
  | [], o => .ret o
  | i :: l, o =>
    if ∃ f, g f = i ∧ o f = none then
      (step i o).bind fun a =>
        runTrees step g l fun f => if g f = i ∧ o f = none then some (a f) else o f
    else runTrees step g l o

/-- `JointLogLikelihood.sample`, joint.py:51-83. -/
noncomputable def cltSample (ps : List ℤ) (K : ℕ) (ws : List ℝ) (cpts : ℕ → Fin ps.length → ℕ → ℕ → LogV)
    (pre post : List (Fin ps.length)) (root : Fin ps.length) (o : Fin ps.length → Option ℕ) :
    Prog (Fin ps.length → Option ℕ) :=
  (drawComponents ws.length (fun i => logL (ws.getD i 0)) (List.finRange ps.length) fun _ => 0).bind fun g =>
    runTrees (fun i o => CLTree.sampleRow (CLTree.par ps) (cpts i) K pre post root o) g (List.range ws.length) o

/-! ## Selection of the returned parameters -/

/-- State of the loops at 318-374, 507-555, 704-740 and 801-855: parameters, best score so far with its parameters, bad
epochs. -/
structure Sel (S : Type) where
  cur : S
  best : Option (Fl × S)
  bad : ℕ

/-- Python's `a > b` on floats. -/
noncomputable def fgt : Fl → Fl → Bool := open Classical in fun
  | .fin a, .fin b => decide (b < a)
  | .pinf, .fin _ => true
  | .pinf, .ninf => true
  | .fin _, .ninf => true
  | _, _ => false

/-- Keep or count, 363-370: returns the new state and whether the loop breaks. -/
noncomputable def judge {S : Type} (patience : ℕ) (score : Fl) (s : Sel S) : Sel S × Bool :=
  match s.best with
  | none => (⟨s.cur, some (score, s.cur), 0⟩, false)
  | some (b, p) =>
    if fgt score b then (⟨s.cur, some (score, s.cur), 0⟩, false)
    else (⟨s.cur, some (b, p), s.bad + 1⟩, decide (0 < patience) && decide (patience ≤ s.bad + 1))

/-- The epochs: `upd` is one pass over the minibatches, `eval` the score; `check` says whether epochs are evaluated
(`val_data is not None or patience > 0` in the decoder loops, always in the latent optimisation). -/
noncomputable def epochs {S : Type} (upd : ℕ → S → S) (eval : S → Fl) (check : Bool) (patience : ℕ) :
    ℕ → ℕ → Sel S → Sel S
  | 0, _, s => s
  | n + 1, e, s =>
    let s1 : Sel S := ⟨upd e s.cur, s.best, s.bad⟩
    if check then
      match judge patience (eval s1.cur) s1 with
      | (s2, true) => s2
      | (s2, false) => epochs upd eval check patience n (e + 1) s2
    else epochs upd eval check patience n (e + 1) s1

/-- The returned parameters: the best state if there is one, else the current one (372-374, 557). -/
noncomputable def select {S : Type} (upd : ℕ → S → S) (eval : S → Fl) (check : Bool) (patience n : ℕ) (s0 : S) : S :=
  let s := epochs upd eval check patience n 0 ⟨s0, none, 0⟩
  match s.best with
  | some (_, p) => p
  | none => s.cur

end Verif.Cms

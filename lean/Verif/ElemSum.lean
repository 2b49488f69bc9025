import Verif.Em
import Verif.Marginalize
import Verif.Sampling

/-!
# Model of `ElementwiseSum` (C66)

spflow/modules/sums/elementwise_sum.py: a sum over a *list of modules*; output channel `(ci, co)` mixes channel `ci` of
every input.  Inputs are circuits of leaves, `Cat`, `Product` and `Sum`.  Non-differentiable mode, one row at a time
(batch only in the EM step), as in `Circuit.lean` and `Sampling.lean`.
-/

namespace Verif.ESum
open Verif Verif.Circ Verif.Prog

/-- A weight tensor of shape `(features, in channels, sums, inputs, repetitions)`. -/
structure W5 where
  Fw : ℕ
  Ci : ℕ
  Co : ℕ
  n : ℕ
  R : ℕ
  val : ℕ → ℕ → ℕ → ℕ → ℕ → ℝ

/-- The `weights` argument: a 5-D tensor, or one with another number of axes. -/
inductive WArg where
  | t5 (w : W5)
  | other

/-- The module: inputs, number of sums (`_num_sums`), repetitions, logits `[f, ci, co, i, r]`
(elementwise_sum.py:125-184). -/
structure ES where
  cs : List Circ
  Co : ℕ
  R : ℕ
  θ : ℕ → ℕ → ℕ → ℕ → ℕ → LogV

/-- `max(module.out_shape.channels for module in inputs)`, elementwise_sum.py:131. -/
def maxC (cs : List Circ) : ℕ := (cs.map C).foldr max 0

/-- `inputs[0].out_shape.features`, elementwise_sum.py:135. -/
def feats (cs : List Circ) : ℕ := (cs.head?.map F).getD 0

/-- Number of columns (repetitions) of `module.feature_to_scope`, or the exception numpy raises: leaf.py:309-319,
cat.py:71-77 (`np.concatenate` along features needs equal columns), product.py:50-56 (one column per declared repetition;
`[:, r]` raises IndexError), sum.py:185-187. -/
def ftsCols : Circ → Except Exc ℕ
  | leaf _ _ R _ => .ok R
  | cat1 n cs =>
    if h : 0 < n then do
      let k ← ftsCols (cs ⟨0, h⟩)
      if (List.ofFn fun i : Fin n => ftsCols (cs i)).all
        (fun e => match e with | .ok j => j == k | .error _ => false) then return k else throw .valueError
    else .error .valueError
  | cat2 n cs => if h : 0 < n then ftsCols (cs ⟨0, h⟩) else .error .indexError
  | prod c => do
    let k ← ftsCols c
    if R c = 0 then throw .valueError
    if k < R c then throw .indexError
    return R c
  | sum c _ _ _ => ftsCols c

/-- `module.feature_to_scope[..., rep]`: IndexError beyond the last column; the entries do not depend on `rep` for these
modules (entries compared as sets, Scope.__eq__). -/
noncomputable def ftsCol (c : Circ) (rep : ℕ) : Except Exc (List (Finset Var)) := do
  let k ← ftsCols c
  if k ≤ rep then throw .indexError
  return (den c).map Feat.scope

/-- Inner loop, elementwise_sum.py:118-122. -/
noncomputable def sameCol (a : List (Finset Var)) (rep : ℕ) : List Circ → Except Exc Unit
  | [] => .ok ()
  | c :: rest => do
    let b ← ftsCol c rep
    if a ≠ b then throw .scopeError
    sameCol a rep rest

/-- Loop over the repetitions, elementwise_sum.py:116-122. -/
noncomputable def sameCols (cs : List Circ) : List ℕ → Except Exc Unit
  | [] => .ok ()
  | rep :: reps => do
    match cs with
    | [] => throw .indexError
    | c :: rest =>
      let a ← ftsCol c rep
      sameCol a rep rest
    sameCols cs reps

/-- The `weights` setter, elementwise_sum.py:195-215, and `proj_convex_to_real`. -/
noncomputable def setW (cs : List Circ) (Co R : ℕ) (w : W5) : Except Exc (ℕ → ℕ → ℕ → ℕ → ℕ → LogV) :=
  open Classical in
  if ¬ (w.Fw = feats cs ∧ w.Ci = maxC cs ∧ w.Co = Co ∧ w.n = cs.length ∧ w.R = R) then .error .shapeError
  else if ¬ (∀ f < w.Fw, ∀ ci < w.Ci, ∀ co < w.Co, ∀ i < w.n, ∀ r < w.R, 0 < w.val f ci co i r) then
    .error .invalidWeights
  else if ¬ (∀ f < w.Fw, ∀ ci < w.Ci, ∀ co < w.Co, ∀ r < w.R,
      CloseToOne (∑ i ∈ Finset.range w.n, w.val f ci co i r)) then .error .invalidWeights
  else .ok fun f ci co i r => logL (w.val f ci co i r)

/-- Checks of the inputs, elementwise_sum.py:91-122. -/
noncomputable def checkInputs (cs : List Circ) (R : ℕ) : Except Exc Unit := do
  if ! cs.all (fun m => F m == feats cs) then throw .shapeError
  if ! cs.all (fun m => C m == 1 || C m == maxC cs) then throw .shapeError
  if ! Scope.allEqual (cs.map scope) then throw .scopeError
  sameCols cs (List.range R)

/-- Random initial weights, elementwise_sum.py:177-181: `rnd` are the values of `torch.rand` (in `[0, 1)`). -/
noncomputable def initW (cs : List Circ) (Co R : ℕ) (rnd : ℕ → ℕ → ℕ → ℕ → ℕ → ℝ) : W5 :=
  ⟨feats cs, maxC cs, Co, cs.length, R, fun f ci co i r =>
    (rnd f ci co i r + 1 / 10 ^ 8) / ∑ j ∈ Finset.range cs.length, (rnd f ci co j r + 1 / 10 ^ 8)⟩

/-- The configuration derived from the arguments, elementwise_sum.py:63-89: `(out_channels, repetitions)`. -/
def config (cs : List Circ) (outCh : Option ℤ) (w : Option WArg) (reps : Option ℕ) : Except Exc (ℤ × ℕ) := do
  if cs.isEmpty then throw .valueError
  match w with
  | some a =>
    if outCh.isSome then throw .invalidParameter
    if reps.isSome then throw .invalidParameter
    match a with
    | .other => throw .shapeError
    | .t5 w => if (w.Co : ℤ) < 1 then throw .valueError else return ((w.Co : ℤ), w.R)
  | none =>
    match outCh with
    | none => throw .valueError
    | some k => if k < 1 then throw .valueError else return (k, reps.getD 1)

/-- `ElementwiseSum.__init__`, elementwise_sum.py:44-187. -/
noncomputable def build (cs : List Circ) (outCh : Option ℤ) (w : Option WArg) (reps : Option ℕ)
    (rnd : ℕ → ℕ → ℕ → ℕ → ℕ → ℝ) : Except Exc ES := do
  let (k, R) ← config cs outCh w reps
  checkInputs cs R
  let w5 := match w with
    | some (.t5 w) => w
    | _ => initW cs k.toNat R rnd
  let θ ← setW cs k.toNat R w5
  return ⟨cs, k.toNat, R, θ⟩

namespace ES

/-- `out_shape.features`. -/
def F (e : ES) : ℕ := feats e.cs

/-- `in_shape.channels`. -/
def Cin (e : ES) : ℕ := maxC e.cs

/-- `out_shape.channels`, elementwise_sum.py:132,136. -/
def C (e : ES) : ℕ := e.Co * maxC e.cs

/-- `self.scope`: the scope of the first input, elementwise_sum.py:131. -/
def scope (e : ES) : Scope :=
  match e.cs with
  | [] => ⟨[], []⟩
  | c :: _ => Circ.scope c

/-- The getter, elementwise_sum.py:192-194: softmax over the inputs. -/
noncomputable def weight (e : ES) (f ci co i r : ℕ) : ℝ := softmax e.cs.length (fun j => e.θ f ci co j r) i

/-- `log_weights`, elementwise_sum.py:187-189. -/
noncomputable def logWeight (e : ES) (f ci co i r : ℕ) : LogV := logSoftmax e.cs.length (fun j => e.θ f ci co j r) i

/-- Entry `[f, ci, i, r]` of the stacked input log-likelihoods; one-channel inputs are repeated
(elementwise_sum.py:483-500, and 409-415 in `_sample`). -/
noncomputable def inAt (e : ES) (f : ℕ) (x : Row) (r i ci : ℕ) : LogV :=
  match e.cs[i]? with
  | some c => featAt (den c) f x r (if Circ.C c = 1 ∧ 1 < maxC e.cs then 0 else ci)
  | none => ⊥

/-- Entry `[f, (ci co), r]` of `log_likelihood`, elementwise_sum.py:500-517. -/
noncomputable def val (e : ES) (f : ℕ) (x : Row) (r ch : ℕ) : LogV :=
  lse e.cs.length fun i =>
    e.inAt f x r i (ch / e.Co) + e.logWeight f (ch / e.Co) (ch % e.Co) i (bc e.R r)

/-- Repetitions of the returned tensor: `torch.stack` needs equal shapes, `ll + log_weights` broadcasts. -/
def tensorR (e : ES) : Option ℕ :=
  match Circ.tensorR (cat2 e.cs.length e.cs.get) with
  | none => none
  | some T => if T = e.R then some e.R else if T = 1 then some e.R else if e.R = 1 then some T else none

/-- `log_likelihood(row)`. -/
noncomputable def logLik (e : ES) (x : Row) : Except Exc (ℕ → ℕ → ℕ → LogV) :=
  match e.tensorR with
  | none => .error .runtimeError
  | some _ => .ok fun f ch r => e.val f x r ch

/-- Logits over the inputs for feature `f`, elementwise_sum.py:318-452: the logits of repetition `r`, sum channel
`ch % Co` and input channel `ch / Co` (`unraveled_channel_indices`), plus the cached input log-likelihoods, log-softmaxed. -/
noncomputable def logits (ev : Option Row) (r : ℕ) (e : ES) (ch : ℕ → ℕ) (f : ℕ) : ℕ → LogV :=
  match ev with
  | none => fun i => e.θ f (ch f / e.Co) (ch f % e.Co) i r
  | some x => logSoftmax e.cs.length fun i =>
      e.θ f (ch f / e.Co) (ch f % e.Co) i r + e.inAt f x r i (ch f / e.Co)

/-- `_sample`, elementwise_sum.py:286-479. -/
noncomputable def sample (ev : Option Row) (r : ℕ) (e : ES) (ch : ℕ → ℕ) (mask : ℕ → Bool) (y : Row) : Prog Row :=
  if ! validCtx e.F e.C e.R ch mask r then .fail .invalidParameter
  else if ! (List.range e.F).all (fun f => decide (ch f < e.C)) then .fail .indexError
  else (pickAll e.cs.length (logits ev r e ch) e.F).bind fun sel =>
    seqAll (e.cs.mapIdx fun i c =>
      Circ.sample ev r c (fun f => ch f / e.Co) (fun f => mask f && sel f == i)) y

/-- `module.sample(data=y)`. -/
noncomputable def sampleData (e : ES) (y : Row) : Prog Row := e.sample none 0 (fun _ => 0) (fun _ => true) y

/-- `module.sample_with_evidence(x)`. -/
noncomputable def sampleWithEvidence (e : ES) (x : Row) : Prog Row := e.sample (some x) 0 (fun _ => 0) (fun _ => true) x

/-! ## EM -/

/-- Gradient of the loss with respect to the outputs of input `i`: through `rearrange`, `logsumexp` and the broadcast
over the sums. -/
noncomputable def inputGrad (X : ℕ → Row) (e : ES) (g : Em.Grad) (i : ℕ) : Em.Grad := fun n f ci r =>
  ∑ co ∈ Finset.range e.Co, g n f (ci * e.Co + co) r *
    expL (e.inAt f (X n) r i ci + e.logWeight f ci co i r +
      ((-Em.real (e.val f (X n) r (ci * e.Co + co)) : ℝ) : LogV))

/-- New logits of unit `(f, ci, co, r)`, elementwise_sum.py:530-561: log-softmax over the inputs of the expected
counts. -/
noncomputable def newLogits (X : ℕ → Row) (N : ℕ) (e : ES) (g : Em.Grad) (f ci co i r : ℕ) : LogV :=
  Em.newLogits e.cs.length N (fun j => e.logWeight f ci co j r) (fun n => g n f (ci * e.Co + co) r)
    (fun n j => e.inAt f (X n) r j ci) (fun n => e.val f (X n) r (ci * e.Co + co)) i

/-- `_expectation_maximization_step`, elementwise_sum.py:519-565.  The cached input tensors are stacked without the
repetition of one-channel inputs: `torch.stack` raises RuntimeError for different channel numbers. -/
noncomputable def emStep (X : ℕ → Row) (N : ℕ) (upd : Em.LeafUpd) (e : ES) (g : Em.Grad) : Except Exc ES :=
  if ! e.cs.all (fun c => Circ.C c == maxC e.cs) then .error .runtimeError
  else .ok
    { cs := e.cs.mapIdx fun i c => Em.step X N upd c (e.inputGrad X g i)
      Co := e.Co, R := e.R
      θ := e.newLogits X N g }

/-! ## marginalize -/

/-- Positions of the scope's query that are kept (`mask`), elementwise_sum.py:272-275. -/
def keepPos (M : List Var) (q : List Var) : List ℕ :=
  (List.range q.length).filter fun p => ! M.contains (q.getD p 0)

/-- `[inp.marginalize(...) for inp in self.inputs]`, elementwise_sum.py:266. -/
noncomputable def margInputs (M : List Var) (prune : Bool) : List Circ → Except Exc (List (Option Circ))
  | [] => .ok []
  | c :: l => do
    let o ← marg M prune c
    let rest ← margInputs M prune l
    return o :: rest

/-- `ElementwiseSum.marginalize`, elementwise_sum.py:236-284.  `module_weights[mask]` is a boolean index on the *feature* axis
with a mask over the *variables*: IndexError if the lengths differ.  A list that contains `None` beside modules is passed
to the constructor, which raises (AttributeError; modelled as typeError). -/
noncomputable def marginalize (M : List Var) (prune : Bool) (e : ES) : Except Exc (Option ES) :=
  let sc := e.scope
  let w : W5 := ⟨e.F, e.Cin, e.Co, e.cs.length, e.R, e.weight⟩
  if covers M sc then .ok none
  else if touches M sc then do
    let l ← margInputs M prune e.cs
    if l.all Option.isNone then return none
    if sc.query.length ≠ e.F then throw .indexError
    if ! l.all Option.isSome then throw .typeError
    let keep := keepPos M sc.query
    return some (← build l.reduceOption none
      (some (.t5 { w with Fw := keep.length, val := fun k => w.val (keep.getD k 0) })) none fun _ _ _ _ _ => 0)
  else do
    return some (← build e.cs none (some (.t5 w)) none fun _ _ _ _ _ => 0)

end ES
end Verif.ESum

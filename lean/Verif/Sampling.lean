import Verif.Circuit
import Mathlib.Topology.Algebra.InfiniteSum.ENNReal

/-!
# Model of sampling

spflow/modules/module.py:145-329 (entry points), leaf.py:612-800, cat.py:108-178, product.py:84-121,
sum.py:282-385, utils/sampling_context.py:493-735 (routing), 1147-1185 (`sample_from_logits`).

A sampler for one row is a *program* `Prog` over two random primitives: `choose n l` is
`torch.distributions.Categorical(logits=l).sample()` with `n` categories and `draw d` is one draw from a leaf
distribution with (log-)density `d`.  Raising is `fail`.  The programs are then read in three ways: which outcomes
are possible (`Outcome`, `Fails`), with which probability (`E`, `prob`, discrete leaves), and with the MPE flag set
(`mpeRun`).

Simplifications.
* Non-differentiable mode (integer channel indices).
* One row; the context of one row is a channel index and a mask bit per feature and one repetition index.
  Width bookkeeping (`broadcast_feature_width`: width 1 is repeated to the module's width) is resolved statically:
  Product is the only module whose input width differs from its own, and it broadcasts its single entry.
* Data columns are global variable ids (`_resolve_scope_columns`, see C46 for the other case).
* A leaf draws full (feature, channel, repetition) tensors and then selects; unselected draws are independent and
  unused, so only the selected ones are modelled.
-/

namespace Verif

/-- Random programs. -/
inductive Prog (α : Type) where
  | ret (a : α)
  | fail (e : Exc)
  | choose (n : ℕ) (l : ℕ → LogV) (k : ℕ → Prog α)
  | draw (d : ℝ → LogV) (k : ℝ → Prog α)

namespace Prog

/-- Sequencing. -/
def bind {α β : Type} : Prog α → (α → Prog β) → Prog β
  | ret a, g => g a
  | fail e, _ => fail e
  | choose n l k, g => choose n l fun i => (k i).bind g
  | draw d k, g => draw d fun t => (k t).bind g

/-- Logits that are all `-inf` become NaN in (log_)softmax; torch's Categorical rejects them (ValueError). -/
def Dead (n : ℕ) (l : ℕ → LogV) : Prop := ∀ i < n, l i = ⊥

/-- `a` is a possible result, whatever values the random generator returns. -/
inductive Outcome {α : Type} : Prog α → α → Prop
  | ret {a} : Outcome (ret a) a
  | choose {n l k i a} : ¬ Dead n l → i < n → Outcome (k i) a → Outcome (choose n l k) a
  | draw {d k t a} : Outcome (k t) a → Outcome (draw d k) a

/-- Some run raises. -/
inductive Fails {α : Type} : Prog α → Prop
  | fail {e} : Fails (fail e)
  | dead {n l k} : Dead n l → Fails (choose n l k)
  | choose {n l k i} : i < n → Fails (k i) → Fails (choose n l k)
  | draw {d k t} : Fails (k t) → Fails (draw d k)

/-- Expected value of `h` at the result: category `i` has probability `softmax l i`, leaf value `t` has probability
`exp (d t)` (discrete leaves). Raising contributes 0 (also for dead logits, whose `softmax` is 0 in the model). -/
noncomputable def E {α : Type} : Prog α → (α → ENNReal) → ENNReal
  | ret a, h => h a
  | fail _, _ => 0
  | choose n l k, h => ∑ i ∈ Finset.range n, ENNReal.ofReal (softmax n l i) * (k i).E h
  | draw d k, h => ∑' t, ENNReal.ofReal (expL (d t)) * (k t).E h

/-- Probability that the program returns `a`. -/
noncomputable def prob {α : Type} (p : Prog α) (a : α) : ENNReal :=
  open Classical in p.E fun b => if b = a then 1 else 0

end Prog

namespace Circ

open Prog

/-! ## Routing -/

/-- `SamplingContext.slice_feature_ranges` with the consecutive ranges built at cat.py:142-148:
child contexts as (channel index, mask). -/
def sliceLoop (ch : ℕ → ℕ) (mask : ℕ → Bool) : ℕ → List ℕ → List ((ℕ → ℕ) × (ℕ → Bool))
  | _, [] => []
  | off, k :: ks => (fun f => ch (off + f), fun f => mask (off + f)) :: sliceLoop ch mask (off + k) ks

/-- Loop of `route_channel_offsets`, sampling_context.py:696-711. -/
def routeLoop (ch : ℕ → ℕ) (mask : ℕ → Bool) : ℕ → List ℕ → List ((ℕ → ℕ) × (ℕ → Bool))
  | _, [] => []
  | off, k :: ks =>
    (fun f => if off ≤ ch f ∧ ch f < off + k then ch f - off else 0,
     fun f => decide (off ≤ ch f ∧ ch f < off + k) && mask f) :: routeLoop ch mask (off + k) ks

/-- `SamplingContext.route_channel_offsets`, sampling_context.py:654-711, for a context of width `W`
(channel ids are natural numbers; negative ids, which also raise, do not occur in the model). -/
def routeOffsets (W : ℕ) (counts : List ℕ) (ch : ℕ → ℕ) (mask : ℕ → Bool) :
    Except Exc (List ((ℕ → ℕ) × (ℕ → Bool))) :=
  if counts.any (· < 1) then .error .invalidParameter
  else if (List.range W).any (fun f => mask f && decide (counts.sum ≤ ch f)) then .error .invalidParameter
  else .ok (routeLoop ch mask 0 counts)

/-- The checks of `validate_sampling_context` that can fail here, sampling_context.py:775-846:
channels ≥ 1, active channels in range, repetition in range. -/
def validCtx (F C R : ℕ) (ch : ℕ → ℕ) (mask : ℕ → Bool) (r : ℕ) : Bool :=
  decide (1 ≤ C) && (List.range F).all (fun f => !mask f || decide (ch f < C)) && decide (r < R)

/-! ## `_sample` -/

/-- Run samplers one after the other on the same (mutable) data row. -/
def seqAll (l : List (Row → Prog Row)) (y : Row) : Prog Row :=
  match l with
  | [] => .ret y
  | s :: l => (s y).bind (seqAll l)

/-- Cell `(row, v)` of a leaf, leaf.py:642-650, 770-800: written iff NaN and masked. -/
def sampleCell (d : ℝ → LogV) (m : Bool) (v : Var) (y : Row) : Prog Row :=
  if m && (y v).isNone then .draw d fun t => .ret (Function.update y v (some t)) else .ret y

/-- New channel index of every feature, one Categorical per feature (sum.py:366-372); features are drawn
whether or not they are active. -/
noncomputable def pickAll (n : ℕ) (l : ℕ → ℕ → LogV) : ℕ → Prog (ℕ → ℕ)
  | 0 => .ret fun _ => 0
  | f + 1 => (pickAll n l f).bind fun g => .choose n (l f) fun i => .ret (Function.update g f i)

/-- Categorical logits of Sum for feature `f`, sum.py:313-364: the logits of the requested output channel, plus -
when `log_likelihood` has been cached (`sample_with_evidence`) for the row `e` - the cached input log-likelihoods,
log-softmaxed. -/
noncomputable def sumLogits (ev : Option Row) (r : ℕ) (c : Circ) (θ : ℕ → ℕ → ℕ → ℕ → LogV) (ch : ℕ → ℕ)
    (f : ℕ) : ℕ → LogV :=
  match ev with
  | none => fun ci => θ f ci (ch f) r
  | some e => logSoftmax (C c) fun ci => θ f ci (ch f) r + featAt (den c) f e r ci

/-- `module._sample(data, sampling_ctx, cache)` for one row.  `ev`: the row whose log-likelihoods are in the cache, if
any; `r`: repetition index; `ch`, `mask`: channel index and mask per feature; `y`: the data row. -/
noncomputable def sample (ev : Option Row) (r : ℕ) : Circ → (ℕ → ℕ) → (ℕ → Bool) → Row → Prog Row
  | leaf q C R d => fun ch mask y =>
    if ! validCtx q.length C R ch mask r then .fail .invalidParameter
    else if q.zipIdx.all (fun p => ! (mask p.2 && (y p.1).isNone)) then .ret y
    else if ! (List.range q.length).all (fun f => decide (ch f < C)) then .fail .runtimeError
    else seqAll (q.mapIdx fun i v => sampleCell (d i (ch i) r) (mask i) v) y
  | cat1 n cs => fun ch mask y =>
    if ! validCtx (F (cat1 n cs)) (C (cat1 n cs)) (R (cat1 n cs)) ch mask r then .fail .invalidParameter
    else
      let ctx := sliceLoop ch mask 0 (List.ofFn fun i : Fin n => F (cs i))
      seqAll (List.ofFn fun i : Fin n =>
        sample ev r (cs i) (ctx.getD i (fun _ => 0, fun _ => false)).1 (ctx.getD i (fun _ => 0, fun _ => false)).2) y
  | cat2 n cs => fun ch mask y =>
    if ! validCtx (F (cat2 n cs)) (C (cat2 n cs)) (R (cat2 n cs)) ch mask r then .fail .invalidParameter
    else match routeOffsets (F (cat2 n cs)) (List.ofFn fun i : Fin n => C (cs i)) ch mask with
      | .error e => .fail e
      | .ok ctx =>
        seqAll (List.ofFn fun i : Fin n =>
          sample ev r (cs i) (ctx.getD i (fun _ => 0, fun _ => false)).1
            (ctx.getD i (fun _ => 0, fun _ => false)).2) y
  | prod c => fun ch mask y =>
    if ! validCtx 1 (C c) (R c) ch mask r then .fail .invalidParameter
    else sample ev r c (fun _ => ch 0) (fun _ => mask 0) y
  | sum c Co R θ => fun ch mask y =>
    if ! validCtx (F c) Co R ch mask r then .fail .invalidParameter
    else if ! (List.range (F c)).all (fun f => decide (ch f < Co)) then .fail .runtimeError
    else (pickAll (C c) (sumLogits ev r c θ ch) (F c)).bind fun ch' => sample ev r c ch' mask y

/-- `module.sample(data=y)`: fresh context with channel 0, repetition 0, mask True (module.py:227-243,
sampling_context.py:252-267), no cached likelihoods. -/
noncomputable def sampleData (c : Circ) (y : Row) : Prog Row := sample none 0 c (fun _ => 0) (fun _ => true) y

/-- `module.sample_with_evidence(e)`, module.py:297-329: `log_likelihood(e)` fills the cache, then `sample(data=e)`. -/
noncomputable def sampleWithEvidence (c : Circ) (e : Row) : Prog Row :=
  sample (some e) 0 c (fun _ => 0) (fun _ => true) e

end Circ

/-! ## MPE -/

/-- Run with `is_mpe=True`: `logits.argmax` (first maximal index; sampling_context.py:1172) instead of a Categorical
draw - NaN logits do not raise here -, `dist.mode` (leaf.py:683-684) instead of a leaf draw. -/
noncomputable def Prog.mpeRun {α : Type} (mode : (ℝ → LogV) → ℝ) : Prog α → Except Exc α
  | ret a => .ok a
  | fail e => .error e
  | choose n l k => (k (((List.range n).find? fun i => (List.range n).all fun j => open Classical in
      decide (l j ≤ l i)).getD 0)).mpeRun mode
  | draw d k => (k (mode d)).mpeRun mode

end Verif

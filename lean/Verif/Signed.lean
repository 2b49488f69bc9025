import Verif.LogSpace
import Mathlib.Algebra.BigOperators.Ring.Finset
import Mathlib.Data.Sign.Basic
/-
Model of signed log-space evaluation (C34): spflow/utils/signed_semiring.py,
modules/sums/signed_sum.py, zoo/sos/signed_categorical.py and `_signed_eval` in modules/sos/socs.py.

A signed value is `(log|x|, sign)`. Reals are exact, `-inf` is `⊥`. One batch row and one repetition.
-/
namespace Verif.Signed

/-- `(logabs, sign)`; the sign tensor is int8. -/
abbrev SV := LogV × Int

/-- `torch.sign` (signed_semiring.py:17-19). -/
noncomputable def signR (x : ℝ) : Int := if 0 < x then 1 else if x < 0 then -1 else 0

/-- `torch.log(torch.abs(x))` with `log 0 = -inf`. -/
noncomputable def logAbs (x : ℝ) : LogV := logL |x|

/-- `signed_logsumexp` with `eps = 0` over `n` terms (signed_semiring.py:34-88): shift by the maximum,
multiply by the signs, sum, take log|.| and sign, shift back; if every term is -inf the result is
`(-inf, sign 0)`. (`n = 0` raises in the code; the model is only used with `n ≥ 1`, or gives `(-inf, 0)`.) -/
noncomputable def signedLse (n : ℕ) (t : ℕ → SV) : SV :=
  match (Finset.range n).sup fun i => (t i).1 with
  | ⊥ => (⊥, signR (∑ i ∈ Finset.range n, 0 * ((t i).2 : ℝ)))
  | (m : ℝ) =>
    let s := ∑ i ∈ Finset.range n, expL ((t i).1 + ((-m : ℝ) : LogV)) * ((t i).2 : ℝ)
    ((m : LogV) + logAbs s, signR s)

/-- `torch.log(torch.abs(w).clamp_min(1e-30))` (signed_sum.py:151, signed_categorical.py:149). -/
noncomputable def clampLogAbs (w : ℝ) : LogV := ((Real.log (max |w| (10 ^ (-30 : ℤ))) : ℝ) : LogV)

/-- One output channel of `SignedSum.signed_logabs_and_sign` (signed_sum.py:112-167). -/
noncomputable def signedSum (n : ℕ) (w : ℕ → ℝ) (x : ℕ → SV) : SV :=
  signedLse n fun i => ((x i).1 + clampLogAbs (w i), signR (w i) * (x i).2)

/-- `SignedCategorical` at state weight `v` (signed_categorical.py:147-150). -/
noncomputable def signedLeaf (v : ℝ) : SV := (clampLogAbs v, signR v)

/-- `Product` in `_signed_eval` (socs.py:71-78): sum of the log-absolutes, product of the signs over the
features. -/
noncomputable def signedProd (n : ℕ) (x : ℕ → SV) : SV :=
  (∑ f ∈ Finset.range n, (x f).1, ∏ f ∈ Finset.range n, (x f).2)

/-- Circuits that `_signed_eval` handles, with the values of their leaves at the row at hand. `pos` is any
module evaluated by `log_likelihood` with sign +1 (socs.py:50-56, 80-85). -/
inductive SC where
  | pos (F C : ℕ) (ll : ℕ → ℕ → LogV)
  | leaf (F C : ℕ) (v : ℕ → ℕ → ℝ)
  | catF (a b : SC)
  | catC (a b : SC)
  | prod (a : SC)
  | ssum (oc : ℕ) (w : ℕ → ℕ → ℕ → ℝ) (a : SC)

/-- Number of features (`out_shape.features`); Product reduces the feature axis to 1 (product.py). -/
def SC.feats : SC → ℕ
  | .pos F _ _ => F
  | .leaf F _ _ => F
  | .catF a b => a.feats + b.feats
  | .catC a _ => a.feats
  | .prod _ => 1
  | .ssum _ _ a => a.feats

/-- Number of channels (`out_shape.channels`). -/
def SC.chans : SC → ℕ
  | .pos _ C _ => C
  | .leaf _ C _ => C
  | .catF a _ => a.chans
  | .catC a b => a.chans + b.chans
  | .prod a => a.chans
  | .ssum oc _ _ => oc

/-- `_signed_eval` (socs.py:35-86): the tensors (logabs, sign) as functions of feature and channel. -/
noncomputable def SC.eval : SC → ℕ → ℕ → SV
  | .pos _ _ ll => fun f c => (ll f c, 1)
  | .leaf _ _ v => fun f c => signedLeaf (v f c)
  | .catF a b => fun f c => if f < a.feats then a.eval f c else b.eval (f - a.feats) c
  | .catC a b => fun f c => if c < a.chans then a.eval f c else b.eval f (c - a.chans)
  | .prod a => fun _ c => signedProd a.feats fun f => a.eval f c
  | .ssum _ w a => fun f c => signedSum a.chans (fun i => w f i c) fun i => a.eval f i

end Verif.Signed

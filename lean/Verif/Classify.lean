import Verif.Sampling
import Mathlib.Data.List.Sort
import Mathlib.Data.List.Dedup

/-!
# Model of the multi-class models

spflow/utils/inference.py (`log_posterior`), `log_posterior` / `predict_proba` / `sample` of
spflow/zoo/rat/rat_spn.py, spflow/zoo/einet/einet.py and spflow/zoo/naive_bayes.py, `predict` of
spflow/interfaces/classifier.py, and `SPFlowClassifier` of spflow/interfaces/sklearn.py.

A multi-class model is a module `c` with one feature, one channel per class and one repetition
(`root_node.inputs`), and the logits of the root `Sum(inputs=c, out_channels=1, num_repetitions=1)`.

Simplification: in RatSPN and Einet `c` is a RepetitionMixingLayer; here `c` is any circuit of the kinds of
Verif/Circuit.lean (with one repetition the mixing layer is the identity; for more see Verif/RepMixing.lean).
-/

namespace Verif.Classify

open Verif.Circ

/-- `log_posterior`, utils/inference.py:5-31, for one row and `n` classes: `ll + prior - logsumexp(ll + prior)`.
If every joint is `-inf` the difference is NaN (`none`) for every class. -/
noncomputable def logPosterior (n : ℕ) (ll prior : ℕ → LogV) (k : ℕ) : Option LogV :=
  match lse n fun k => ll k + prior k with
  | none => none
  | some l => some (ll k + prior k + ((-l : ℝ) : LogV))

/-- A model with class-conditional part `c` (`root_node.inputs`, resp. `conditional_root`) and the logits of the
root Sum. -/
structure Model where
  c : Circ
  θ : ℕ → ℕ → ℕ → ℕ → LogV

/-- `n_root_nodes`, resp. `num_classes`: the number of channels of `c`. -/
def Model.n (m : Model) : ℕ := C m.c

/-- `root_node`, rat_spn.py:181-186, naive_bayes.py:65-76: a Sum over the classes, or `c` itself for one class. -/
def Model.root (m : Model) : Circ := if 1 < m.n then sum m.c 1 1 m.θ else m.c

/-- `log_posterior(data)` for one row, rat_spn.py:213-246, einet.py:336-362, naive_bayes.py:155-169: the prior is
`root_node.log_weights`, the likelihoods are those of the root's input.  (The `rearrange` patterns require one feature
and one repetition; the theorems assume them.) -/
noncomputable def Model.logPosterior (m : Model) (x : Row) : Except Exc (ℕ → Option LogV) :=
  if m.n ≤ 1 then .error .unsupported
  else .ok fun k => Classify.logPosterior m.n (fun k => featAt (den m.c) 0 x 0 k)
    (logSoftmax m.n fun i => m.θ 0 i 0 0) k

/-- `predict_proba`, rat_spn.py:248-259, einet.py:364-375, naive_bayes.py:171-172: `exp` of the log-posterior. -/
noncomputable def Model.predictProba (m : Model) (x : Row) : Except Exc (ℕ → Option ℝ) :=
  match m.logPosterior x with
  | .error e => .error e
  | .ok p => .ok fun k => (p k).map expL

open Classical in
/-- `torch.argmax` / `np.argmax` of one row of `n` entries: the first NaN if there is one, otherwise the first maximal
entry. -/
noncomputable def argmaxRow (n : ℕ) (p : ℕ → Option ℝ) : ℕ :=
  match (List.range n).find? fun k => (p k).isNone with
  | some k => k
  | none => ((List.range n).find? fun i => (List.range n).all fun j => decide ((p j).getD 0 ≤ (p i).getD 0)).getD 0

/-- `Classifier.predict`, interfaces/classifier.py:28-37. -/
noncomputable def Model.predict (m : Model) (x : Row) : Except Exc ℕ :=
  match m.predictProba x with
  | .error e => .error e
  | .ok p => .ok (argmaxRow m.n p)

/-- `np.unique(y)`: the distinct labels in increasing order. -/
def unique {L : Type} [LinearOrder L] (y : List L) : List L := y.dedup.insertionSort (· ≤ ·)

/-- `SPFlowClassifier.fit(X, y)` followed by `predict` for one row with index `k = np.argmax(probs)`,
interfaces/sklearn.py:333-351: `classes_[k]`; numpy raises IndexError when `k` is out of range. -/
def sklearnLabel {L : Type} [LinearOrder L] (y : List L) (k : ℕ) : Except Exc L :=
  match (unique y)[k]? with
  | some l => .ok l
  | none => .error .indexError

/-- `SPFlowClassifier(model).fit(X, y).predict(row)`. -/
noncomputable def sklearnPredict {L : Type} [LinearOrder L] (y : List L) (m : Model) (x : Row) : Except Exc L :=
  match m.predict x with
  | .error e => .error e
  | .ok k => sklearnLabel y k

/-- `RatSPN.sample(data=y)`, rat_spn.py:261-333, and `Einet.sample`, einet.py:380-470: with several classes the class is
drawn from the root's logits (nothing else), then the class-conditional part is sampled with that channel; with one class
the mixing layer is sampled directly.  `ev` is the row whose log-likelihoods are in the cache
(`sample_with_evidence`, module.py:297-329, fills the cache and calls `sample`; Einet fills it itself). -/
noncomputable def Model.sample (m : Model) (ev : Option Row) (y : Row) : Prog Row :=
  if 1 < m.n then .choose m.n (fun k => m.θ 0 k 0 0) fun k => Circ.sample ev 0 m.c (fun _ => k) (fun _ => true) y
  else Circ.sample ev 0 m.c (fun _ => 0) (fun _ => true) y

/-- `RatSPN.sample_with_evidence(e)`. -/
noncomputable def Model.sampleWithEvidence (m : Model) (e : Row) : Prog Row := m.sample (some e) e

end Verif.Classify

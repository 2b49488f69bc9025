import Verif.Classify
import Verif.SamplingProps
import Verif.CircuitProps

/-!
# Multi-class models: posterior, prediction, sampling (C41, C45)
-/

namespace Verif.Classify

open Verif Verif.Circ Verif.Prog

/-- The prior of class `k`: entry `k` of `root_node.weights`. -/
noncomputable def Model.prior (m : Model) (k : ℕ) : ℝ := weight m.c m.θ 0 k 0 0

/-- p(x | class k): exponential of the class-conditional log-likelihood. -/
noncomputable def Model.cond (m : Model) (x : Row) (k : ℕ) : ℝ := expL (featAt (den m.c) 0 x 0 k)

theorem Model.prior_nonneg (m : Model) (k : ℕ) : 0 ≤ m.prior k := by
  unfold Model.prior weight; exact softmax_nonneg _ _ _

theorem Model.cond_nonneg (m : Model) (x : Row) (k : ℕ) : 0 ≤ m.cond x k := by
  unfold Model.cond; exact expL_nonneg _

/-- The likelihood the root reports is the prior-weighted sum of the class-conditional ones. -/
theorem root_likelihood {m : Model} (hn : 1 < m.n) (hF : F m.c = 1) (x : Row) :
    likelihood m.root x = ∑ k ∈ Finset.range m.n, m.prior k * m.cond x k := by
  unfold likelihood Model.root
  rw [if_pos hn]
  have : F (sum m.c 1 1 m.θ) = 1 := hF
  rw [this, Finset.prod_range_one, expL_featAt_sum (by rw [hF]; exact Nat.one_pos)]
  rfl

theorem lse_joint {m : Model} (x : Row) :
    expL (lse m.n fun k => featAt (den m.c) 0 x 0 k + logSoftmax m.n (fun i => m.θ 0 i 0 0) k) =
      ∑ k ∈ Finset.range m.n, m.prior k * m.cond x k := by
  rw [expL_lse]
  refine Finset.sum_congr rfl fun k _ => ?_
  rw [expL_add, expL_logSoftmax_eq_softmax, mul_comm]
  rfl

/-- C41: for a model with at least two classes and a row that is possible at all, `predict_proba` returns exactly Bayes'
rule: prior times class-conditional likelihood divided by the likelihood the model reports for the row.  The entries are
non-negative and sum to one. -/
theorem C41_posterior {m : Model} (hn : 1 < m.n) (hF : F m.c = 1) (x : Row) (hx : likelihood m.root x ≠ 0) :
    ∃ p : ℕ → ℝ, m.predictProba x = .ok (fun k => some (p k)) ∧
      (∀ k, p k = m.prior k * m.cond x k / likelihood m.root x) ∧ (∀ k, 0 ≤ p k) ∧
      ∑ k ∈ Finset.range m.n, p k = 1 := by
  rw [root_likelihood hn hF] at hx ⊢
  have hl := lse_joint (m := m) x
  refine ⟨fun k => m.prior k * m.cond x k / ∑ k ∈ Finset.range m.n, m.prior k * m.cond x k, ?_, fun _ => rfl, ?_, ?_⟩
  · unfold Model.predictProba Model.logPosterior
    rw [if_neg (by omega)]
    simp only [Except.ok.injEq]
    funext k
    unfold logPosterior
    rcases h : lse m.n (fun k => featAt (den m.c) 0 x 0 k + logSoftmax m.n (fun i => m.θ 0 i 0 0) k) with _ | l
    · have h' : lse m.n (fun k => featAt (den m.c) 0 x 0 k + logSoftmax m.n (fun i => m.θ 0 i 0 0) k) = ⊥ := h
      rw [h'] at hl
      exact absurd hl.symm hx
    · have h' : lse m.n (fun k => featAt (den m.c) 0 x 0 k + logSoftmax m.n (fun i => m.θ 0 i 0 0) k) = (l : LogV) := h
      rw [h', expL_coe] at hl
      simp only [Option.map_some, Option.some.injEq]
      rw [expL_add, expL_add, expL_logSoftmax_eq_softmax, expL_coe, Real.exp_neg, ← hl, div_eq_mul_inv]
      show expL (featAt (den m.c) 0 x 0 k) * softmax (C m.c) (fun i => m.θ 0 i 0 0) k * _ =
        softmax (C m.c) (fun i => m.θ 0 i 0 0) k * expL (featAt (den m.c) 0 x 0 k) * _
      rw [mul_comm (expL (featAt (den m.c) 0 x 0 k))]
  · intro k
    exact div_nonneg (mul_nonneg (m.prior_nonneg k) (m.cond_nonneg x k))
      (Finset.sum_nonneg fun k _ => mul_nonneg (m.prior_nonneg k) (m.cond_nonneg x k))
  · rw [← Finset.sum_div]
    exact div_self hx

/-- On a row that is impossible under every class the posterior is NaN for every class, and `predict` returns
class 0. -/
theorem C41_impossible_row {m : Model} (hn : 1 < m.n) (hF : F m.c = 1) (x : Row) (hx : likelihood m.root x = 0) :
    m.predictProba x = .ok (fun _ => none) ∧ m.predict x = .ok 0 := by
  rw [root_likelihood hn hF, ← lse_joint] at hx
  have h' : lse m.n (fun k => featAt (den m.c) 0 x 0 k + logSoftmax m.n (fun i => m.θ 0 i 0 0) k) = ⊥ := by
    by_contra h
    exact ((expL_pos_iff _).2 h).ne' hx
  have hp : m.predictProba x = .ok (fun _ => none) := by
    unfold Model.predictProba Model.logPosterior
    rw [if_neg (by omega)]
    simp only [Except.ok.injEq]
    funext k
    unfold logPosterior
    rw [h']
    rfl
  refine ⟨hp, ?_⟩
  unfold Model.predict
  rw [hp]
  obtain ⟨j, hj⟩ : ∃ j, m.n = j + 1 := ⟨m.n - 1, by omega⟩
  simp [argmaxRow, hj, List.range_succ_eq_map]

/-- A model with a single class raises UnsupportedOperationError. -/
theorem C41_single_class_raises {m : Model} (x : Row) :
    (m.predictProba x = .error .unsupported ∧ m.predict x = .error .unsupported) ↔ m.n ≤ 1 := by
  unfold Model.predict Model.predictProba Model.logPosterior
  by_cases h : m.n ≤ 1 <;> simp [h]

/-- The first maximal entry. -/
theorem argmaxRow_spec {n : ℕ} (hn : 0 < n) (p : ℕ → ℝ) :
    argmaxRow n (fun k => some (p k)) < n ∧ (∀ j < n, p j ≤ p (argmaxRow n fun k => some (p k))) ∧
      ∀ j < argmaxRow n (fun k => some (p k)), p j < p (argmaxRow n fun k => some (p k)) := by
  have h0 : (List.range n).find? (fun k => ((fun k => some (p k)) k : Option ℝ).isNone) = none := by
    rw [List.find?_eq_none]; simp
  unfold argmaxRow
  rw [h0]
  simp only [Option.getD_some]
  obtain ⟨i, hi, hmax⟩ := Finset.exists_max_image (Finset.range n) p ⟨0, Finset.mem_range.2 hn⟩
  rcases hf : (List.range n).find? (fun i => (List.range n).all fun j => open Classical in decide (p j ≤ p i)) with _ | k
  · rw [List.find?_eq_none] at hf
    exact absurd (by simpa using fun j hj => hmax j (Finset.mem_range.2 hj)) (hf i (List.mem_range.2 (Finset.mem_range.1 hi)))
  · simp only [Option.getD_some]
    have hk := List.find?_some hf
    have hkm := List.mem_of_find?_eq_some hf
    simp only [List.all_eq_true, List.mem_range, decide_eq_true_eq] at hk hkm
    refine ⟨hkm, hk, fun j hj => ?_⟩
    rw [List.find?_eq_some_iff_getElem] at hf
    obtain ⟨-, i', hi', hget, hbefore⟩ := hf
    simp only [List.getElem_range] at hget
    subst hget
    have := hbefore j hj
    simp only [List.getElem_range, Bool.not_eq_true', ← Bool.not_eq_true, List.all_eq_true, List.mem_range, decide_eq_true_eq] at this
    push Not at this
    obtain ⟨j', hj', hlt⟩ := this
    exact lt_of_lt_of_le hlt (hk j' hj')

/-- C41: `predict` returns the class with the largest joint probability prior x likelihood - the first one if there are
several. -/
theorem C41_predict {m : Model} (hn : 1 < m.n) (hF : F m.c = 1) (x : Row) (hx : likelihood m.root x ≠ 0) :
    ∃ k, m.predict x = .ok k ∧ k < m.n ∧ (∀ j < m.n, m.prior j * m.cond x j ≤ m.prior k * m.cond x k) ∧
      ∀ j < k, m.prior j * m.cond x j < m.prior k * m.cond x k := by
  obtain ⟨p, hp, hv, -, -⟩ := C41_posterior hn hF x hx
  have hpos : 0 < likelihood m.root x := lt_of_le_of_ne (Finset.prod_nonneg fun f _ => expL_nonneg _) (Ne.symm hx)
  obtain ⟨h1, h2, h3⟩ := argmaxRow_spec (n := m.n) (by omega) p
  refine ⟨argmaxRow m.n fun k => some (p k), ?_, h1, fun j hj => ?_, fun j hj => ?_⟩
  · unfold Model.predict; rw [hp]
  · have := h2 j hj
    rw [hv, hv] at this
    exact (div_le_div_iff_of_pos_right hpos).1 this
  · have := h3 j hj
    rw [hv, hv] at this
    exact (div_lt_div_iff_of_pos_right hpos).1 this

/-! ## Labels -/

section labels
variable {L : Type} [LinearOrder L]

theorem unique_mem (y : List L) (l : L) : l ∈ unique y ↔ l ∈ y := by
  unfold unique
  rw [List.mem_insertionSort, List.mem_dedup]

theorem unique_sorted (y : List L) : (unique y).Pairwise (· < ·) := by
  have h1 : (unique y).Pairwise (· ≤ ·) := List.pairwise_insertionSort _ _
  have h2 : (unique y).Nodup := (List.perm_insertionSort _ _).nodup_iff.2 (List.nodup_dedup y)
  exact h1.imp₂ (fun a b hle hne => lt_of_le_of_ne hle hne) h2

/-- `classes_` is the strictly increasing list of the labels that occur in `y`, and nothing else is. -/
theorem unique_eq {y S : List L} (hS : S.Pairwise (· < ·)) (h : ∀ l, l ∈ S ↔ l ∈ y) : unique y = S := by
  have hnd : S.Nodup := hS.imp fun h => ne_of_lt h
  have hnd' : (unique y).Nodup := (unique_sorted y).imp fun h => ne_of_lt h
  refine List.Perm.eq_of_pairwise (fun a b _ _ h1 h2 => absurd h1 (not_lt_of_gt h2)) (unique_sorted y) hS ?_
  rw [List.perm_ext_iff_of_nodup hnd' hnd]
  intro l
  rw [unique_mem, h]

/-- C41, label part.  Suppose class `k` of the model stands for the `k`-th label of the increasing list `S` (that is how
class indices are assigned to sorted labels), and `SPFlowClassifier.fit` was called with labels from `S`.  Then the
wrapper translates every class index to the right label if and only if every label of `S` occurs in `y`.
So the property holds as stated only for label vectors that contain every class. -/
theorem C41_label_iff {S y : List L} (hS : S.Pairwise (· < ·)) (hy : ∀ l ∈ y, l ∈ S) :
    (∀ k (hk : k < S.length), sklearnLabel y k = .ok S[k]) ↔ ∀ l ∈ S, l ∈ y := by
  constructor
  · intro h l hl
    obtain ⟨k, hk, rfl⟩ := List.getElem_of_mem hl
    have := h k hk
    unfold sklearnLabel at this
    rw [← unique_mem]
    rcases hu : (unique y)[k]? with _ | l'
    · rw [hu] at this; simp at this
    · rw [hu] at this
      simp only [Except.ok.injEq] at this
      rw [← this]
      exact List.mem_of_getElem? hu
  · intro h k hk
    have : unique y = S := unique_eq hS fun l => ⟨h l, hy l⟩
    unfold sklearnLabel
    rw [this, List.getElem?_eq_getElem hk]

/-- C41 with the wrapper: if `y` contains every class, the predicted label is the label of a most probable class. -/
theorem C41_sklearn_partial {S y : List L} (hS : S.Pairwise (· < ·)) (hy : ∀ l, l ∈ y ↔ l ∈ S) {m : Model} (hn : 1 < m.n)
    (hSn : S.length = m.n) (hF : F m.c = 1) (x : Row) (hx : likelihood m.root x ≠ 0) :
    ∃ k, ∃ hk : k < S.length, sklearnPredict y m x = .ok S[k] ∧
      ∀ j < m.n, m.prior j * m.cond x j ≤ m.prior k * m.cond x k := by
  obtain ⟨k, hk, hkn, hmax, -⟩ := C41_predict hn hF x hx
  refine ⟨k, by omega, ?_, hmax⟩
  unfold sklearnPredict
  rw [hk]
  exact (C41_label_iff hS fun l hl => (hy l).1 hl).2 (fun l hl => (hy l).2 hl) k (by omega)

end labels

/-- Without the first class in `y` the wrapper returns a wrong label; without the last it raises IndexError. -/
theorem C41_labels_missing :
    sklearnLabel [20, 30] 1 = .ok (30 : ℤ) ∧ ([10, 20, 30] : List ℤ)[1] = 20 ∧
      sklearnLabel ([10, 20] : List ℤ) 2 = .error .indexError := by
  refine ⟨by decide +kernel, rfl, by decide +kernel⟩

/-! ## C45 -/

section sampling

/-- The completions of an evidence row on the scope of the model. -/
def Completes (m : Model) (e x : Row) : Prop := Circ.Completes m.c e x

theorem sample_class {m : Model} (hF : F m.c = 1) (h : Accepted m.c) (hal : Aligned m.c) (hp : PosCh m.c) (hr : RepS 0 m.c)
    {e : Row} (hlive : Live e 0 m.c) {k : ℕ} (hk : k < m.n) (hpos : m.cond e k ≠ 0) {x : Row} (hx : Completes m e x) :
    (Circ.sample (some e) 0 m.c (fun _ => k) (fun _ => true) e).prob x =
      ENNReal.ofReal (m.cond x k / m.cond e k) := by
  have := sample_law h hal hp hr hlive (fun _ => k) (fun _ => true) (fun f _ => hk)
    (fun f hf _ => by
      have : f = 0 := by omega
      subst this; exact hpos) e x (fun _ _ => rfl)
    (fun v hv => hx.1 v ((mem_act_all h v).1 hv))
    (fun v hv => by
      by_cases hvs : v ∈ (scope m.c).query
      · rcases hev : e v with _ | t
        · exact absurd ⟨(mem_act_all h v).2 hvs, hev⟩ hv
        · exact hx.2.1 v t hev
      · exact hx.2.2 v hvs)
  rw [this]
  unfold ratios ratio Model.cond
  rw [hF, Finset.prod_range_one]
  simp

theorem E_choose {α : Type} (n : ℕ) (l : ℕ → LogV) (k : ℕ → Prog α) (a : α) :
    (Prog.choose n l k).prob a = ∑ i ∈ Finset.range n, ENNReal.ofReal (softmax n l i) * (k i).prob a := rfl

/-- What `RatSPN.sample_with_evidence` (and Einet's) really draws from: the completion `x` of the evidence `e` is returned
with probability `∑ₖ prior(k) · p(x | k) / p(e | k)`: within each class the values are conditioned on the evidence, but
the class itself is drawn from the prior. -/
theorem C45_law {m : Model} (hn : 1 < m.n) (hF : F m.c = 1) (h : Accepted m.c) (hal : Aligned m.c) (hp : PosCh m.c)
    (hr : RepS 0 m.c) {e : Row} (hlive : Live e 0 m.c) (hpos : ∀ k < m.n, m.cond e k ≠ 0) {x : Row}
    (hx : Completes m e x) :
    (m.sampleWithEvidence e).prob x =
      ENNReal.ofReal (∑ k ∈ Finset.range m.n, m.prior k * (m.cond x k / m.cond e k)) := by
  unfold Model.sampleWithEvidence Model.sample
  have hnn : ∀ k ∈ Finset.range m.n, 0 ≤ m.prior k * (m.cond x k / m.cond e k) := fun k _ =>
    mul_nonneg (m.prior_nonneg k) (div_nonneg (m.cond_nonneg x k) (m.cond_nonneg e k))
  rw [if_pos hn, E_choose, ENNReal.ofReal_sum_of_nonneg hnn]
  refine Finset.sum_congr rfl fun k hk => ?_
  have hk := Finset.mem_range.1 hk
  rw [sample_class hF h hal hp hr hlive hk (hpos k hk) hx, ← ENNReal.ofReal_mul (softmax_nonneg _ _ _)]
  rfl

/-- C45, proved part: the draw is from the conditional distribution p(x)/p(e) of the model when the evidence has the same
likelihood under every class - in particular when nothing is observed.  Missing: evidence that tells the classes apart,
where the property is false (`C45_class_not_conditioned`). -/
theorem C45_conditional_partial {m : Model} (hn : 1 < m.n) (hF : F m.c = 1) (h : Accepted m.root) (hal : Aligned m.c)
    (hp : PosCh m.c) (hr : RepS 0 m.c) {e : Row} (hlive : Live e 0 m.c) {q : ℝ} (hq : q ≠ 0)
    (heq : ∀ k < m.n, m.cond e k = q) {x : Row} (hx : Completes m e x) :
    (m.sampleWithEvidence e).prob x = ENNReal.ofReal (likelihood m.root x / likelihood m.root e) := by
  have hacc : Accepted (sum m.c 1 1 m.θ) := by
    have := h; unfold Model.root at this; rwa [if_pos hn] at this
  have hsum : ∑ k ∈ Finset.range m.n, m.prior k = 1 :=
    sum_softmax (hacc.2.2 0 (by rw [hF]; exact Nat.one_pos) 0 Nat.one_pos 0 Nat.one_pos)
  rw [C45_law hn hF hacc.1 hal hp hr hlive (fun k hk => by rw [heq k hk]; exact hq) hx, root_likelihood hn hF,
    root_likelihood hn hF]
  congr 1
  have h1 : ∑ k ∈ Finset.range m.n, m.prior k * m.cond e k = q := by
    rw [Finset.sum_congr rfl fun k hk => by rw [heq k (Finset.mem_range.1 hk)], ← Finset.sum_mul, hsum, one_mul]
  rw [h1, Finset.sum_div]
  refine Finset.sum_congr rfl fun k hk => ?_
  rw [heq k (Finset.mem_range.1 hk), mul_div_assoc]

/-- C45 without evidence: the sampled row follows the model's distribution. -/
theorem C45_no_evidence {m : Model} (hn : 1 < m.n) (hF : F m.c = 1) (h : Accepted m.root) (hal : Aligned m.c)
    (hp : PosCh m.c) (hr : RepS 0 m.c) {x : Row} (hx : Completes m (fun _ => none) x) :
    (m.sampleWithEvidence fun _ => none).prob x = ENNReal.ofReal (likelihood m.root x) := by
  have hacc : Accepted (sum m.c 1 1 m.θ) := by
    have := h; unfold Model.root at this; rwa [if_pos hn] at this
  have h1 : ∀ k < m.n, m.cond (fun _ => none) k = 1 := fun k hk =>
    expL_featAt_missing hacc.1 hal hr.repIn (by rw [hF]; exact Nat.one_pos) hk fun _ _ => rfl
  rw [C45_conditional_partial hn hF h hal hp hr (live_missing hacc.1 hal hr fun _ => rfl) one_ne_zero h1 hx]
  have hsum : ∑ k ∈ Finset.range m.n, m.prior k = 1 :=
    sum_softmax (hacc.2.2 0 (by rw [hF]; exact Nat.one_pos) 0 Nat.one_pos 0 Nat.one_pos)
  have : likelihood m.root (fun _ => none) = 1 := by
    rw [root_likelihood hn hF, Finset.sum_congr rfl fun k hk => by rw [h1 k (Finset.mem_range.1 hk), mul_one], hsum]
  rw [this, div_one]

/-- C45 with a single class: the call is the ordinary conditional sampler and draws from p(x)/p(e). -/
theorem C45_single_class_partial {m : Model} (hn : m.n ≤ 1) (h : Accepted m.c) (hal : Aligned m.c) (hp : PosCh m.c)
    (hr : RepS 0 m.c) {e : Row} (hlive : Live e 0 m.c) (hpos : likelihood m.root e ≠ 0) {x : Row}
    (hx : Completes m e x) :
    (m.sampleWithEvidence e).prob x = ENNReal.ofReal (likelihood m.root x / likelihood m.root e) := by
  have hroot : m.root = m.c := by unfold Model.root; rw [if_neg (by omega)]
  rw [hroot] at hpos ⊢
  unfold Model.sampleWithEvidence Model.sample
  rw [if_neg (by omega)]
  exact C14_conditional_partial h hal hp hr e hlive hpos x hx

end sampling

/-! ### A concrete model -/

/-- Two classes with equal prior; given class 0 both variables are 1 with probability 1/4, given class 1 with 3/4. -/
noncomputable def exModel : Model where
  c := prod (leaf [0, 1] 2 1 fun _ k _ => Leaves.bernoulliLL (if k = 0 then 1/4 else 3/4))
  θ := fun _ _ _ _ => 0

theorem exModel_ok : 1 < exModel.n ∧ F exModel.c = 1 ∧ Accepted exModel.root ∧ Aligned exModel.c ∧ PosCh exModel.c ∧
    RepS 0 exModel.c ∧ ∀ e, Live e 0 exModel.c := by
  refine ⟨by decide, rfl, ?_, trivial, ?_, ?_, fun e => trivial⟩
  · unfold Model.root
    rw [if_pos (show 1 < exModel.n by decide)]
    refine ⟨?_, le_rfl, fun f _ co _ r _ => ⟨0, by decide, ?_⟩⟩
    · show mkLeaf _ _ _ _ = _
      rfl
    · exact WithBot.coe_ne_bot (a := (0 : ℝ))
  · exact (by decide : 1 ≤ 2)
  · exact Nat.one_pos

theorem exModel_cond (x : Row) (k : ℕ) : exModel.cond x k =
    expL (cellVal (Leaves.bernoulliLL (if k = 0 then 1/4 else 3/4)) (x 0)) *
      expL (cellVal (Leaves.bernoulliLL (if k = 0 then 1/4 else 3/4)) (x 1)) := by
  unfold Model.cond exModel
  rw [expL_featAt_prod]
  show ∏ f ∈ Finset.range 2, _ = _
  rw [Finset.prod_range_succ, Finset.prod_range_one, featAt_leaf (v := 0) rfl, featAt_leaf (v := 1) rfl]
  cases x 0 <;> cases x 1 <;> rfl

theorem exModel_prior {k : ℕ} : exModel.prior k = 1 / 2 := by
  unfold Model.prior weight
  rw [softmax_eq]
  show expL 0 / ∑ j ∈ Finset.range 2, expL 0 = _
  norm_num

/-- variable 0 observed as 1 -/
def exEv : Row := fun v => if v = 0 then some 1 else none

/-- both variables 1 -/
def exOut : Row := fun v => if v = 0 then some 1 else if v = 1 then some 1 else none

theorem exModel_values : exModel.cond exEv 0 = 1/4 ∧ exModel.cond exEv 1 = 3/4 ∧
    exModel.cond exOut 0 = 1/16 ∧ exModel.cond exOut 1 = 9/16 := by
  have e4 : expL (logL (1/4)) = 1/4 := expL_logL (by norm_num)
  have e34 : expL (logL (3/4)) = 3/4 := expL_logL (by norm_num)
  refine ⟨?_, ?_, ?_, ?_⟩ <;> rw [exModel_cond] <;>
    norm_num [exEv, exOut, cellVal, Leaves.bernoulliLL, e4, e34]

theorem exModel_like : likelihood exModel.root exEv = 1/2 ∧ likelihood exModel.root exOut = 5/16 := by
  obtain ⟨h1, h2, h3, h4⟩ := exModel_values
  constructor <;> rw [root_likelihood exModel_ok.1 exModel_ok.2.1] <;>
  · show ∑ k ∈ Finset.range 2, _ = _
    rw [Finset.sum_range_succ, Finset.sum_range_one, exModel_prior, exModel_prior]
    norm_num [h1, h2, h3, h4]

theorem exOut_completes : Completes exModel exEv exOut := by
  have hs : (scope exModel.c).query = [0, 1] := by rfl
  refine ⟨?_, ?_, ?_⟩
  · intro v hv
    rw [hs] at hv
    rcases (by simpa using hv : v = 0 ∨ v = 1) with rfl | rfl <;> simp [exOut]
  · intro v t hv
    by_cases h : v = 0
    · simpa [h, exEv, exOut] using hv
    · simp [h, exEv] at hv
  · intro v hv
    rw [hs] at hv
    have : v ≠ 0 ∧ v ≠ 1 := by simpa using hv
    simp [this.1, this.2, exEv, exOut]

/-- C45 is false: in `exModel` P(x1 = 1 | x0 = 1) = 5/8, but `sample_with_evidence` returns x1 = 1 with probability 1/2,
because it does not update the class on the evidence. -/
theorem C45_class_not_conditioned :
    likelihood exModel.root exOut / likelihood exModel.root exEv = 5/8 ∧
      (exModel.sampleWithEvidence exEv).prob exOut = ENNReal.ofReal (1/2) := by
  obtain ⟨h1, h2, h3, h4⟩ := exModel_values
  obtain ⟨o1, o2, o3, o4, o5, o6, o7⟩ := exModel_ok
  have hacc : Accepted exModel.c := by
    have := o3; unfold Model.root at this; rw [if_pos o1] at this; exact this.1
  refine ⟨by rw [exModel_like.1, exModel_like.2]; norm_num, ?_⟩
  rw [C45_law o1 o2 hacc o4 o5 o6 (o7 _) ?_ exOut_completes]
  · congr 1
    show ∑ k ∈ Finset.range 2, _ = _
    rw [Finset.sum_range_succ, Finset.sum_range_one, exModel_prior, exModel_prior, h1, h2, h3, h4]
    norm_num
  · intro k hk
    have : k < 2 := hk
    rcases (by omega : k = 0 ∨ k = 1) with rfl | rfl
    · rw [h1]; norm_num
    · rw [h2]; norm_num

/-- The hypotheses of `C41_posterior`, `C41_predict` are met: given x0 = 1 the posterior of class 1 is 3/4, and class 1 is
predicted. -/
example : (∃ p, exModel.predictProba exEv = .ok p ∧ p 1 = some (3/4)) ∧ exModel.predict exEv = .ok 1 := by
  obtain ⟨h1, h2, h3, h4⟩ := exModel_values
  obtain ⟨o1, o2, -⟩ := exModel_ok
  have hx : likelihood exModel.root exEv ≠ 0 := by rw [exModel_like.1]; norm_num
  constructor
  · obtain ⟨p, hp, hv, -⟩ := C41_posterior o1 o2 exEv hx
    exact ⟨_, hp, by rw [hv, exModel_prior, h2, exModel_like.1]; norm_num⟩
  · obtain ⟨k, hk, hkn, hmax, -⟩ := C41_predict o1 o2 exEv hx
    have : k < 2 := hkn
    rcases (by omega : k = 0 ∨ k = 1) with rfl | rfl
    · have := hmax 1 o1
      rw [exModel_prior, exModel_prior, h1, h2] at this
      norm_num at this
    · exact hk

end Verif.Classify

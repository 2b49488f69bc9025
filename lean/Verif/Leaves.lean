import Verif.CircuitInt
import Mathlib.MeasureTheory.Measure.Dirac
import Mathlib.Probability.Distributions.Gaussian.Real

/-!
# Model of leaf log-densities (`dist.log_prob`)

spflow/modules/leaves/*.py hand their parameters to `torch.distributions`; the formulas below are the
documented `log_prob` of these classes.  With `validate_args=True` torch raises outside the support; the
model returns `⊥` (`-inf`) there.
-/

open MeasureTheory

namespace Verif
namespace Leaves

/-- Bernoulli(p), bernoulli.py:101-103 with torch.distributions.Bernoulli.log_prob. -/
noncomputable def bernoulliLL (p : ℝ) (t : ℝ) : LogV :=
  if t = 1 then logL p else if t = 0 then logL (1 - p) else ⊥

/-- Categorical with `K` classes, categorical.py:121-123: `logits` are log-softmax normalised by torch. -/
noncomputable def categoricalLL (K : ℕ) (logits : ℕ → LogV) (t : ℝ) : LogV :=
  open Classical in if h : ∃ k : ℕ, k < K ∧ t = k then logSoftmax K logits h.choose else ⊥

/-- Normal(loc, scale), normal.py with torch.distributions.Normal.log_prob:
`-(x-loc)^2/(2 scale^2) - log scale - log sqrt(2 pi)`. -/
noncomputable def normalLL (loc scale : ℝ) (t : ℝ) : LogV :=
  ((-(t - loc) ^ 2 / (2 * scale ^ 2) - Real.log scale - Real.log (Real.sqrt (2 * Real.pi)) : ℝ) : LogV)

/-- Uniform(low, high), uniform.py with torch.distributions.Uniform.log_prob:
`log(low <= x and high > x) - log(high - low)`. -/
noncomputable def uniformLL (low high : ℝ) (t : ℝ) : LogV :=
  if low ≤ t ∧ t < high then ((- Real.log (high - low) : ℝ) : LogV) else ⊥

/-- Reference measure of a `{0,..,K-1}`-valued variable: counting measure on these points. -/
noncomputable def countBelow (K : ℕ) : Measure ℝ := ∑ k ∈ Finset.range K, Measure.dirac (k : ℝ)

instance (K : ℕ) : IsFiniteMeasure (countBelow K) := by
  unfold countBelow; infer_instance

theorem lintegral_countBelow (K : ℕ) (g : ℝ → ENNReal) :
    ∫⁻ t, g t ∂countBelow K = ∑ k ∈ Finset.range K, g k := by
  unfold countBelow
  rw [lintegral_finsetSum_measure]
  simp

theorem bernoulli_measurable (p : ℝ) : Measurable fun t => expL (bernoulliLL p t) := by
  have : (fun t => expL (bernoulliLL p t)) = fun t =>
      if t = 1 then expL (logL p) else if t = 0 then expL (logL (1 - p)) else 0 := by
    funext t; unfold bernoulliLL; split_ifs <;> simp
  rw [this]
  exact Measurable.ite (measurableSet_singleton 1) measurable_const
    (Measurable.ite (measurableSet_singleton 0) measurable_const measurable_const)

theorem bernoulli_normalised {p : ℝ} (h0 : 0 ≤ p) (h1 : p ≤ 1) :
    ∫⁻ t, ENNReal.ofReal (expL (bernoulliLL p t)) ∂countBelow 2 = 1 := by
  rw [lintegral_countBelow, Finset.sum_range_succ, Finset.sum_range_one]
  simp [bernoulliLL, expL_logL h0, expL_logL (sub_nonneg.2 h1)]
  rw [← ENNReal.ofReal_add (sub_nonneg.2 h1) h0]; simp

theorem categoricalLL_nat {K : ℕ} (logits : ℕ → LogV) {k : ℕ} (hk : k < K) :
    categoricalLL K logits k = logSoftmax K logits k := by
  unfold categoricalLL
  have h : ∃ j : ℕ, j < K ∧ (k : ℝ) = j := ⟨k, hk, rfl⟩
  rw [dif_pos h]
  have := h.choose_spec.2
  rw [Nat.cast_inj] at this
  rw [← this]

theorem categorical_measurable (K : ℕ) (logits : ℕ → LogV) :
    Measurable fun t => expL (categoricalLL K logits t) := by
  have : (fun t => expL (categoricalLL K logits t)) = fun t =>
      ∑ k ∈ Finset.range K, if t = (k : ℝ) then expL (logSoftmax K logits k) else 0 := by
    funext t
    by_cases h : ∃ k : ℕ, k < K ∧ t = k
    · obtain ⟨k, hk, rfl⟩ := h
      rw [categoricalLL_nat logits hk, Finset.sum_eq_single k]
      · simp
      · intro b _ hb; simp [Ne.symm hb]
      · intro hk'; simp at hk'; omega
    · rw [categoricalLL, dif_neg h, expL_bot]
      symm
      apply Finset.sum_eq_zero
      intro k hk
      rw [if_neg]
      rintro rfl
      exact h ⟨k, Finset.mem_range.1 hk, rfl⟩
  rw [this]
  exact Finset.measurable_sum _ fun k _ =>
    Measurable.ite (measurableSet_singleton _) measurable_const measurable_const

theorem categorical_normalised {K : ℕ} {logits : ℕ → LogV} (h : ∃ k < K, logits k ≠ ⊥) :
    ∫⁻ t, ENNReal.ofReal (expL (categoricalLL K logits t)) ∂countBelow K = 1 := by
  rw [lintegral_countBelow]
  rw [Finset.sum_congr rfl fun k hk => by rw [categoricalLL_nat logits (Finset.mem_range.1 hk)]]
  rw [← ENNReal.ofReal_sum_of_nonneg fun k _ => expL_nonneg _]
  simp only [expL_logSoftmax_eq_softmax]
  rw [sum_softmax h]; simp

theorem expL_normalLL (loc : ℝ) {scale : ℝ} (hs : 0 < scale) (t : ℝ) :
    expL (normalLL loc scale t) = ProbabilityTheory.gaussianPDFReal loc (Real.toNNReal (scale ^ 2)) t := by
  unfold normalLL ProbabilityTheory.gaussianPDFReal
  have hs2 : (0 : ℝ) ≤ scale ^ 2 := sq_nonneg _
  rw [expL_coe, Real.coe_toNNReal _ hs2, sub_sub, ← Real.log_mul hs.ne' (by positivity), Real.exp_sub,
    Real.exp_log (by positivity)]
  have : Real.sqrt (2 * Real.pi * scale ^ 2) = scale * Real.sqrt (2 * Real.pi) := by
    rw [Real.sqrt_mul (by positivity), Real.sqrt_sq hs.le, mul_comm]
  rw [this, div_eq_inv_mul]

theorem normal_measurable (loc : ℝ) {scale : ℝ} (hs : 0 < scale) :
    Measurable fun t => expL (normalLL loc scale t) := by
  simp only [expL_normalLL loc hs]
  exact ProbabilityTheory.measurable_gaussianPDFReal _ _

theorem normal_normalised (loc : ℝ) {scale : ℝ} (hs : 0 < scale) :
    ∫⁻ t, ENNReal.ofReal (expL (normalLL loc scale t)) = 1 := by
  simp only [expL_normalLL loc hs]
  apply ProbabilityTheory.lintegral_gaussianPDFReal_eq_one
  simp; positivity

theorem uniform_measurable (low high : ℝ) : Measurable fun t => expL (uniformLL low high t) := by
  have : (fun t => expL (uniformLL low high t)) =
      Set.indicator (Set.Ico low high) fun _ => Real.exp (- Real.log (high - low)) := by
    funext t; unfold uniformLL Set.indicator
    by_cases h : low ≤ t ∧ t < high
    · simp [h]
    · have h' : t ∉ Set.Ico low high := h
      simp [h, h']
  rw [this]
  exact measurable_const.indicator measurableSet_Ico

theorem uniform_normalised {low high : ℝ} (h : low < high) :
    ∫⁻ t, ENNReal.ofReal (expL (uniformLL low high t)) = 1 := by
  have : (fun t => ENNReal.ofReal (expL (uniformLL low high t))) =
      Set.indicator (Set.Ico low high) fun _ => ENNReal.ofReal (high - low)⁻¹ := by
    funext t; unfold uniformLL Set.indicator
    by_cases ht : low ≤ t ∧ t < high
    · have h' : t ∈ Set.Ico low high := ht
      simp only [ht, h', and_self, if_true, expL_coe]
      rw [Real.exp_neg, Real.exp_log (sub_pos.2 h)]
    · have h' : t ∉ Set.Ico low high := ht
      simp [ht, h']
  rw [this, lintegral_indicator measurableSet_Ico, lintegral_const, Measure.restrict_apply_univ, Real.volume_Ico,
    ← ENNReal.ofReal_mul (by positivity [sub_pos.2 h] : (0:ℝ) ≤ (high - low)⁻¹), inv_mul_cancel₀ (sub_pos.2 h).ne']
  simp

end Leaves
end Verif

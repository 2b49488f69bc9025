import Verif.Apc
import Mathlib.InformationTheory.KullbackLeibler.Basic
import Mathlib.Probability.Distributions.Gaussian.Real

/-!
# C74: the reported KL divergences are the Kullback-Leibler divergences
-/

namespace Verif.Apc

open Finset MeasureTheory ProbabilityTheory
open scoped NNReal

/-! ### Specification -/

/-- The divergence of two distributions on `0, …, n - 1` given by their probabilities. -/
noncomputable def klSum (n : ℕ) (p q : ℕ → ℝ) : ℝ := ∑ k ∈ range n, p k * Real.log (p k / q k)

/-- The probabilities of a Bernoulli variable. -/
noncomputable def bern (p : ℝ) : ℕ → ℝ := fun k => if k = 0 then 1 - p else p

/-! ### Gaussians -/

theorem log_pdf (m : ℝ) {v : ℝ≥0} (hv : v ≠ 0) (x : ℝ) :
    Real.log (gaussianPDFReal m v x) = -(1/2) * Real.log (2 * Real.pi) - 1/2 * Real.log v - (x - m)^2 / (2 * v) := by
  have h0 : (0:ℝ) < v := by positivity
  rw [gaussianPDFReal_def]
  beta_reduce
  rw [Real.log_mul (by positivity) (Real.exp_pos _).ne', Real.log_exp, Real.log_inv, Real.log_sqrt (by positivity),
    Real.log_mul (by positivity) (by positivity)]
  ring

theorem llr_gaussian (m : ℝ) {v : ℝ≥0} (hv : v ≠ 0) :
    llr (gaussianReal m v) (gaussianReal 0 1) =ᵐ[gaussianReal m v]
      fun x => 1/2 * (x^2 - Real.log v - (x - m)^2 / v) := by
  have hac : gaussianReal m v ≪ volume := gaussianReal_absolutelyContinuous m hv
  have hac1 : gaussianReal 0 1 ≪ volume := gaussianReal_absolutelyContinuous 0 one_ne_zero
  have h1 : gaussianReal m v ≪ gaussianReal 0 1 := hac.trans (gaussianReal_absolutelyContinuous' 0 one_ne_zero)
  have hr := h1.ae_le (Measure.rnDeriv_eq_div (μ := gaussianReal m v) (ν := gaussianReal 0 1) (ξ := volume) hac hac1)
  filter_upwards [hr, hac.ae_le (rnDeriv_gaussianReal m v), hac.ae_le (rnDeriv_gaussianReal 0 1)] with x h2 h3 h4
  rw [llr, h2]
  show Real.log ((gaussianReal m v).rnDeriv volume x / (gaussianReal 0 1).rnDeriv volume x).toReal = _
  rw [h3, h4, ENNReal.toReal_div, toReal_gaussianPDF, toReal_gaussianPDF,
    Real.log_div (gaussianPDFReal_pos _ _ _ hv).ne' (gaussianPDFReal_pos _ _ _ one_ne_zero).ne', log_pdf m hv,
    log_pdf 0 one_ne_zero]
  simp only [NNReal.coe_one, Real.log_one]
  ring

theorem int_sq (m : ℝ) (v : ℝ≥0) : Integrable (fun x : ℝ => x ^ 2) (gaussianReal m v) ∧
    ∫ x, x ^ 2 ∂gaussianReal m v = m ^ 2 + v := by
  have hL : MemLp id 2 (gaussianReal m v) := memLp_id_gaussianReal 2
  have hi : Integrable (fun x : ℝ => x ^ 2) (gaussianReal m v) := hL.integrable_sq
  refine ⟨hi, ?_⟩
  have := variance_eq_sub hL
  rw [variance_id_gaussianReal] at this
  have h2 : ∫ x, id x ∂gaussianReal m v = m := integral_id_gaussianReal
  rw [h2] at this
  have h3 : ∫ x, (id ^ 2 : ℝ → ℝ) x ∂gaussianReal m v = ∫ x, x ^ 2 ∂gaussianReal m v := rfl
  rw [h3] at this
  linarith

theorem int_centered (m : ℝ) (v : ℝ≥0) : Integrable (fun x : ℝ => (x - m) ^ 2) (gaussianReal m v) ∧
    ∫ x, (x - m) ^ 2 ∂gaussianReal m v = v := by
  have hL : MemLp (fun x : ℝ => x - m) 2 (gaussianReal m v) := (memLp_id_gaussianReal 2).sub (memLp_const m)
  refine ⟨hL.integrable_sq, ?_⟩
  have := variance_fun_id_gaussianReal (μ := m) (v := v)
  rw [variance_eq_integral (X := fun x : ℝ => x) measurable_id'.aemeasurable, integral_id_gaussianReal] at this
  exact this

/-- The KL divergence of a Gaussian from the standard Gaussian. -/
theorem kl_gaussian (m : ℝ) {v : ℝ≥0} (hv : v ≠ 0) :
    (InformationTheory.klDiv (gaussianReal m v) (gaussianReal 0 1)).toReal = 1/2 * (m^2 + v - 1 - Real.log v) := by
  have h1 : gaussianReal m v ≪ gaussianReal 0 1 :=
    (gaussianReal_absolutelyContinuous m hv).trans (gaussianReal_absolutelyContinuous' 0 one_ne_zero)
  have h0 : (v : ℝ) ≠ 0 := by exact_mod_cast hv
  obtain ⟨i1, e1⟩ := int_sq m v
  obtain ⟨i2, e2⟩ := int_centered m v
  rw [InformationTheory.toReal_klDiv_of_measure_eq h1 (by simp), integral_congr_ae (llr_gaussian m hv), integral_const_mul]
  have i3 : Integrable (fun x : ℝ => x^2 - Real.log v) (gaussianReal m v) := i1.sub (integrable_const _)
  rw [integral_sub i3 (i2.div_const _), integral_sub i1 (integrable_const _), e1, integral_div, e2, integral_const]
  simp only [probReal_univ, smul_eq_mul, one_mul, div_self h0]
  ring

/-! ### Bernoulli and binomial -/

theorem bernKl_eq {p : ℝ} (h0 : 0 < p) (h1 : p < 1) : bernKl p (1 - p) = klSum 2 (bern p) (bern (1 / 2)) := by
  unfold bernKl klSum bern
  rw [sum_range_succ, sum_range_one, if_pos rfl, if_neg one_ne_zero, if_pos rfl, if_neg one_ne_zero,
    show (1 : ℝ) - 1 / 2 = 1 / 2 by norm_num, Real.log_div (by linarith : (1 : ℝ) - p ≠ 0) (by norm_num),
    Real.log_div h0.ne' (by norm_num)]
  ring

theorem binPmf_mean (n : ℕ) (p : ℝ) : ∑ k ∈ range (n + 1), Simple.binPmf n p k * k = n * p := by
  cases n with
  | zero => simp
  | succ n =>
    rw [sum_range_succ', Nat.cast_zero, mul_zero, add_zero]
    have h : ∀ k ∈ range (n + 1), Simple.binPmf (n + 1) p (k + 1) * ((k + 1 : ℕ) : ℝ) = (n + 1 : ℕ) * p * Simple.binPmf n p k := by
      intro k _
      have hc : ((n + 1).choose (k + 1) : ℝ) * ((k + 1 : ℕ) : ℝ) = (n + 1 : ℕ) * (n.choose k : ℝ) := by
        have := Nat.add_one_mul_choose_eq n k
        exact_mod_cast this.symm
      unfold Simple.binPmf
      rw [Nat.add_sub_add_right]
      calc _ = (((n + 1).choose (k + 1) : ℝ) * ((k + 1 : ℕ) : ℝ)) * p ^ (k + 1) * (1 - p) ^ (n - k) := by ring
        _ = _ := by rw [hc]; ring
    rw [sum_congr rfl h, ← mul_sum, Simple.binPmf_sum, mul_one]

/-- `n` times the divergence of one trial is the divergence of the numbers of successes. -/
theorem binomial_kl {n : ℕ} {p : ℝ} (h0 : 0 < p) (h1 : p < 1) :
    n * bernKl p (1 - p) = klSum (n + 1) (Simple.binPmf n p) (Simple.binPmf n (1 / 2)) := by
  have hq : 0 < 1 - p := by linarith
  have h : ∀ k ∈ range (n + 1), Simple.binPmf n p k * Real.log (Simple.binPmf n p k / Simple.binPmf n (1 / 2) k) =
      Simple.binPmf n p k * k * (Real.log p - Real.log (1 - p)) + Simple.binPmf n p k * (n * (Real.log (1 - p) - Real.log (1 / 2))) := by
    intro k hk
    have hk' : k ≤ n := by rw [mem_range] at hk; omega
    have hch : (0 : ℝ) < n.choose k := by exact_mod_cast Nat.choose_pos hk'
    have hr : Simple.binPmf n p k / Simple.binPmf n (1 / 2) k = p ^ k * (1 - p) ^ (n - k) / (1 / 2) ^ n := by
      unfold Simple.binPmf
      rw [show (1 : ℝ) - 1 / 2 = 1 / 2 by norm_num, mul_assoc, mul_assoc, mul_div_mul_left _ _ hch.ne', ← pow_add,
        Nat.add_sub_cancel' hk']
    rw [hr, Real.log_div (by positivity) (by positivity), Real.log_mul (by positivity) (by positivity), Real.log_pow,
      Real.log_pow, Real.log_pow, Nat.cast_sub hk']
    ring
  unfold klSum
  rw [sum_congr rfl h, sum_add_distrib, ← sum_mul, ← sum_mul, binPmf_mean, Simple.binPmf_sum]
  unfold bernKl
  ring

theorem binPmf_step {n k : ℕ} (hk : k < n) (p : ℝ) :
    Simple.binPmf n p (k + 1) * ((k + 1) * (1 - p)) = Simple.binPmf n p k * ((n - k) * p) := by
  unfold Simple.binPmf
  have hc : (n.choose (k + 1) : ℝ) * (k + 1) = n.choose k * (n - k) := by
    have := Nat.choose_succ_right_eq n k
    rw [← Nat.cast_sub hk.le]
    exact_mod_cast this
  obtain ⟨d, rfl⟩ : ∃ d, n = k + 1 + d := ⟨n - (k + 1), by omega⟩
  rw [show k + 1 + d - (k + 1) = d by omega, show k + 1 + d - k = d + 1 by omega]
  calc _ = (((k + 1 + d).choose (k + 1) : ℝ) * (k + 1)) * (p ^ (k + 1) * (1 - p) ^ (d + 1)) := by ring
    _ = _ := by rw [hc]; ring

/-- The number of successes at `floor((n + 1) p)` is a most likely one. -/
theorem binPmf_mode {n : ℕ} {p : ℝ} (h0 : 0 < p) (h1 : p < 1) {m : ℕ} (hm : (m : ℝ) ≤ (n + 1) * p) (hm' : (n + 1) * p < m + 1)
    (hmn : m ≤ n) {k : ℕ} (hk : k ≤ n) : Simple.binPmf n p k ≤ Simple.binPmf n p m := by
  have hq : 0 < 1 - p := by linarith
  have hnn : ∀ j, 0 ≤ Simple.binPmf n p j := fun j => Simple.binPmf_nonneg h0.le h1.le j
  have up : ∀ j < n, ((j : ℝ) + 1 ≤ (n + 1) * p) → Simple.binPmf n p j ≤ Simple.binPmf n p (j + 1) := by
    intro j hj h
    have hs := binPmf_step hj p
    have hle : ((j : ℝ) + 1) * (1 - p) ≤ (n - j) * p := by nlinarith
    have hpos : 0 < ((j : ℝ) + 1) * (1 - p) := by positivity
    by_contra hc
    push Not at hc
    have : Simple.binPmf n p (j + 1) * (((j : ℝ) + 1) * (1 - p)) < Simple.binPmf n p j * ((n - j) * p) := by
      calc _ < Simple.binPmf n p j * (((j : ℝ) + 1) * (1 - p)) := by nlinarith
        _ ≤ _ := mul_le_mul_of_nonneg_left hle (hnn j)
    linarith
  have down : ∀ j < n, ((n + 1) * p ≤ (j : ℝ) + 1) → Simple.binPmf n p (j + 1) ≤ Simple.binPmf n p j := by
    intro j hj h
    have hs := binPmf_step hj p
    have hle : (n - j) * p ≤ ((j : ℝ) + 1) * (1 - p) := by nlinarith
    have hpos : 0 < ((j : ℝ) + 1) * (1 - p) := by positivity
    by_contra hc
    push Not at hc
    have : Simple.binPmf n p j * ((n - j) * p) < Simple.binPmf n p (j + 1) * (((j : ℝ) + 1) * (1 - p)) := by
      calc _ ≤ Simple.binPmf n p j * (((j : ℝ) + 1) * (1 - p)) := mul_le_mul_of_nonneg_left hle (hnn j)
        _ < _ := by nlinarith
    linarith
  rcases Nat.le_total k m with hkm | hmk
  · obtain ⟨d, rfl⟩ := Nat.exists_eq_add_of_le hkm
    clear hkm
    suffices ∀ e ≤ d, Simple.binPmf n p k ≤ Simple.binPmf n p (k + e) from this d le_rfl
    intro e
    induction e with
    | zero => exact fun _ => le_rfl
    | succ e ih =>
      intro he
      refine (ih (by omega)).trans (up (k + e) (by omega) ?_)
      have : ((k + e : ℕ) : ℝ) + 1 ≤ (k + d : ℕ) := by exact_mod_cast (by omega : k + e + 1 ≤ k + d)
      linarith
  · obtain ⟨d, rfl⟩ := Nat.exists_eq_add_of_le hmk
    clear hmk
    induction d with
    | zero => exact le_rfl
    | succ d ih =>
      refine (down (m + d) (by omega) ?_).trans (ih (by omega))
      push_cast
      have : (0 : ℝ) ≤ d := Nat.cast_nonneg d
      linarith

end Verif.Apc

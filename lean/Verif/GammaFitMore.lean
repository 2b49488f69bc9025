import Verif.GammaFit
import Mathlib.MeasureTheory.Integral.Gamma
import Mathlib.MeasureTheory.Integral.IntegralEqImproper
import Mathlib.NumberTheory.Harmonic.GammaDeriv
import Mathlib.Analysis.Complex.ExponentialBounds

/-!
# C89: the moments of the Gamma distribution, and why the estimate is not the maximum of the likelihood
-/

namespace Verif
namespace LeafFit

open MeasureTheory Set Filter Topology

/-! ## Moments -/

theorem integrableOn_pow_exp {a b : ℝ} (ha : 0 < a) (hb : 0 < b) :
    IntegrableOn (fun x : ℝ => x ^ (a - 1) * Real.exp (-(b * x))) (Ioi 0) := by
  have := Real.GammaIntegral_convergent ha
  have h2 := (integrableOn_Ioi_comp_mul_left_iff (fun x : ℝ => Real.exp (-x) * x ^ (a - 1)) 0 hb).2 (by simpa using this)
  have h3 : IntegrableOn (fun x : ℝ => b ^ (-(a - 1)) * (Real.exp (-(b * x)) * (b * x) ^ (a - 1))) (Ioi 0) :=
    h2.const_mul (b ^ (-(a - 1)))
  refine h3.congr_fun (fun x hx => ?_) measurableSet_Ioi
  dsimp only
  have hx : (0 : ℝ) < x := hx
  rw [Real.mul_rpow hb.le hx.le, Real.rpow_neg hb.le]
  have : b ^ (a - 1) ≠ 0 := (Real.rpow_pos_of_pos hb _).ne'
  field_simp

theorem abs_log_le' {x t : ℝ} (hx : 0 < x) (ht : 0 < t) : |Real.log x| ≤ x ^ (-t) / t + x := by
  rcases le_total x 1 with h | h
  · have h1 := Real.log_le_rpow_div (inv_nonneg.2 hx.le) ht
    rw [Real.log_inv, Real.inv_rpow hx.le, ← Real.rpow_neg hx.le] at h1
    rw [abs_of_nonpos (Real.log_nonpos hx.le h)]
    linarith
  · rw [abs_of_nonneg (Real.log_nonneg h)]
    have h1 : Real.log x ≤ x := (Real.log_le_sub_one_of_pos hx).trans (by linarith)
    have h2 : 0 < x ^ (-t) / t := div_pos (Real.rpow_pos_of_pos hx _) ht
    linarith

theorem integrableOn_log {a b : ℝ} (ha : 0 < a) (hb : 0 < b) :
    IntegrableOn (fun x : ℝ => x ^ (a - 1) * Real.exp (-(b * x)) * Real.log x) (Ioi 0) := by
  have h1 := (integrableOn_pow_exp (a := a / 2) (half_pos ha) hb).const_mul (2 / a)
  have h2 := integrableOn_pow_exp (a := a + 1) (by linarith) hb
  refine (h1.add h2).mono' ?_ ?_
  · apply Measurable.aestronglyMeasurable
    fun_prop
  · refine (ae_restrict_iff' measurableSet_Ioi).2 (Eventually.of_forall fun x hx => ?_)
    have hx : (0 : ℝ) < x := hx
    have h3 := abs_log_le' hx (half_pos ha)
    have h4 : 0 ≤ x ^ (a - 1) * Real.exp (-(b * x)) := mul_nonneg (Real.rpow_nonneg hx.le _) (Real.exp_pos _).le
    rw [Real.norm_eq_abs, abs_mul, abs_of_nonneg h4]
    refine (mul_le_mul_of_nonneg_left h3 h4).trans (le_of_eq ?_)
    have e1 : x ^ (a - 1) * x ^ (-(a / 2)) = x ^ (a / 2 - 1) := by
      rw [← Real.rpow_add hx]; congr 1; ring
    have e2 : x ^ (a - 1) * x = x ^ (a + 1 - 1) := by
      rw [← Real.rpow_add_one hx.ne']; congr 1; ring
    simp only [Pi.add_apply]
    rw [← e1, ← e2]
    field_simp

theorem tendsto_pow_exp {s b : ℝ} (hb : 0 < b) :
    Tendsto (fun x : ℝ => x ^ s * Real.exp (-(b * x))) atTop (𝓝 0) := by
  have := tendsto_rpow_mul_exp_neg_mul_atTop_nhds_zero s b hb
  simpa using this

/-- `b ∫ xᵃ e^{-bx} = a ∫ x^{a-1} e^{-bx}`. -/
theorem int_x {a b : ℝ} (ha : 0 < a) (hb : 0 < b) :
    b * ∫ x in Ioi (0 : ℝ), x ^ (a - 1) * Real.exp (-(b * x)) * x = a * ∫ x in Ioi (0 : ℝ), x ^ (a - 1) * Real.exp (-(b * x)) := by
  have e : ∀ x ∈ Ioi (0 : ℝ), x ^ (a - 1) * Real.exp (-(b * x)) * x = x ^ (a + 1 - 1) * Real.exp (-(b * x)) := by
    intro x hx
    have hx : (0 : ℝ) < x := hx
    have : x ^ (a + 1 - 1) = x ^ (a - 1) * x := by
      rw [← Real.rpow_add_one hx.ne']; congr 1; ring
    rw [this]; ring
  rw [setIntegral_congr_fun measurableSet_Ioi e, Real.integral_rpow_mul_exp_neg_mul_Ioi (by linarith) hb,
    Real.integral_rpow_mul_exp_neg_mul_Ioi ha hb, Real.Gamma_add_one ha.ne', Real.rpow_add_one (one_div_pos.2 hb).ne']
  field_simp

/-- `b ∫ xᵃ ln x e^{-bx} = a ∫ x^{a-1} ln x e^{-bx} + ∫ x^{a-1} e^{-bx}`. -/
theorem int_xlog {a b : ℝ} (ha : 0 < a) (hb : 0 < b) :
    b * ∫ x in Ioi (0 : ℝ), x ^ (a - 1) * Real.exp (-(b * x)) * (x * Real.log x) =
      a * (∫ x in Ioi (0 : ℝ), x ^ (a - 1) * Real.exp (-(b * x)) * Real.log x) +
        ∫ x in Ioi (0 : ℝ), x ^ (a - 1) * Real.exp (-(b * x)) := by
  have i1 := integrableOn_pow_exp ha hb
  have i2 := integrableOn_log ha hb
  have i3 : IntegrableOn (fun x : ℝ => x ^ (a - 1) * Real.exp (-(b * x)) * (x * Real.log x)) (Ioi 0) := by
    refine (integrableOn_log (a := a + 1) (by linarith) hb).congr_fun (fun x hx => ?_) measurableSet_Ioi
    have hx : (0 : ℝ) < x := hx
    have : x ^ (a + 1 - 1) = x ^ (a - 1) * x := by
      rw [← Real.rpow_add_one hx.ne']; congr 1; ring
    dsimp only
    rw [this]; ring
  have hd : ∀ x ∈ Ioi (0 : ℝ), HasDerivAt (fun x : ℝ => x ^ a * Real.exp (-(b * x)) * Real.log x)
      (a * (x ^ (a - 1) * Real.exp (-(b * x)) * Real.log x) + x ^ (a - 1) * Real.exp (-(b * x)) -
        b * (x ^ (a - 1) * Real.exp (-(b * x)) * (x * Real.log x))) x := by
    intro x hx
    have hx : (0 : ℝ) < x := hx
    have d1 := Real.hasDerivAt_rpow_const (x := x) (p := a) (.inl hx.ne')
    have d2 : HasDerivAt (fun x : ℝ => Real.exp (-(b * x))) (Real.exp (-(b * x)) * (-(b * 1))) x :=
      (((hasDerivAt_id x).const_mul b).neg).exp
    have d3 := (d1.mul d2).mul (Real.hasDerivAt_log hx.ne')
    refine d3.congr_deriv ?_
    have : x ^ a = x ^ (a - 1) * x := by
      rw [← Real.rpow_add_one hx.ne']; congr 1; ring
    simp only [Pi.mul_apply]
    rw [this]
    field_simp
    ring
  have l0 : Tendsto (fun x : ℝ => x ^ a * Real.exp (-(b * x)) * Real.log x) (𝓝[>] 0) (𝓝 0) := by
    have h1 := tendsto_log_mul_rpow_nhdsGT_zero ha
    have h2 : Tendsto (fun x : ℝ => Real.exp (-(b * x))) (𝓝[>] 0) (𝓝 1) := by
      have : Tendsto (fun x : ℝ => Real.exp (-(b * x))) (𝓝 0) (𝓝 (Real.exp (-(b * 0)))) :=
        (by fun_prop : Continuous fun x : ℝ => Real.exp (-(b * x))).tendsto 0
      simp only [mul_zero, neg_zero, Real.exp_zero] at this
      exact this.mono_left nhdsWithin_le_nhds
    have h3 := h1.mul h2
    simp only [zero_mul] at h3
    exact h3.congr fun x => by ring
  have l1 : Tendsto (fun x : ℝ => x ^ a * Real.exp (-(b * x)) * Real.log x) atTop (𝓝 0) := by
    refine squeeze_zero_norm' ?_ (tendsto_pow_exp (s := a + 1) hb)
    filter_upwards [eventually_ge_atTop (1 : ℝ)] with x hx
    have hx0 : 0 < x := by linarith
    have h4 : 0 ≤ x ^ a * Real.exp (-(b * x)) := mul_nonneg (Real.rpow_nonneg hx0.le _) (Real.exp_pos _).le
    rw [Real.norm_eq_abs, abs_mul, abs_of_nonneg h4, abs_of_nonneg (Real.log_nonneg hx), Real.rpow_add_one hx0.ne']
    have h5 : Real.log x ≤ x := (Real.log_le_sub_one_of_pos hx0).trans (by linarith)
    calc _ ≤ x ^ a * Real.exp (-(b * x)) * x := mul_le_mul_of_nonneg_left h5 h4
      _ = _ := by ring
  have key := integral_Ioi_of_hasDerivAt_of_tendsto (a := (0 : ℝ)) (m := 0)
    (f := fun x : ℝ => x ^ a * Real.exp (-(b * x)) * Real.log x) ?_ hd
    (((i2.const_mul a).add i1).sub (i3.const_mul b)) l1
  · simp only [Real.log_zero, mul_zero, sub_zero] at key
    have ia : Integrable (fun x : ℝ => a * (x ^ (a - 1) * Real.exp (-(b * x)) * Real.log x) +
        x ^ (a - 1) * Real.exp (-(b * x))) (volume.restrict (Ioi 0)) := (i2.const_mul a).add i1
    rw [integral_sub ia (i3.const_mul b), integral_add (i2.const_mul a) i1, integral_const_mul,
      integral_const_mul] at key
    linarith
  · refine (continuousWithinAt_Ioi_iff_Ici).1 ?_
    show Tendsto _ _ _
    simpa using l0

/-- Expectation under the Gamma density. -/
noncomputable def gExp (a b : ℝ) (g : ℝ → ℝ) : ℝ := ∫ x in Ioi (0 : ℝ), ProbabilityTheory.gammaPDFReal a b x * g x

theorem gExp_eq (a b : ℝ) (g : ℝ → ℝ) : gExp a b g =
    b ^ a / Real.Gamma a * ∫ x in Ioi (0 : ℝ), x ^ (a - 1) * Real.exp (-(b * x)) * g x := by
  unfold gExp
  rw [← integral_const_mul]
  refine setIntegral_congr_fun measurableSet_Ioi fun x hx => ?_
  have hx : (0 : ℝ) < x := hx
  unfold ProbabilityTheory.gammaPDFReal
  simp only [if_pos hx.le]
  ring

theorem gExp_one {a b : ℝ} (ha : 0 < a) (hb : 0 < b) : gExp a b (fun _ => 1) = 1 := by
  rw [gExp_eq]
  simp only [mul_one]
  rw [Real.integral_rpow_mul_exp_neg_mul_Ioi ha hb]
  have h1 := Real.Gamma_pos_of_pos ha
  have h2 := Real.rpow_pos_of_pos hb a
  rw [one_div, Real.inv_rpow hb.le]
  field_simp

/-- Mean of the Gamma distribution, and covariance of `x` and `ln x` under it. -/
theorem gamma_moments {a b : ℝ} (ha : 0 < a) (hb : 0 < b) : gExp a b id = a / b ∧
    gExp a b (fun x => x * Real.log x) - gExp a b id * gExp a b Real.log = 1 / b := by
  have h1 := gExp_one ha hb
  rw [gExp_eq] at h1
  simp only [mul_one] at h1
  have h2 := int_x ha hb
  have h3 := int_xlog ha hb
  have m : gExp a b id = a / b := by
    rw [gExp_eq]
    simp only [id]
    have : (∫ x in Ioi (0 : ℝ), x ^ (a - 1) * Real.exp (-(b * x)) * x) =
        a * (∫ x in Ioi (0 : ℝ), x ^ (a - 1) * Real.exp (-(b * x))) / b := by
      rw [← h2]; field_simp
    rw [this, mul_div_assoc', mul_left_comm, h1, mul_one]
  refine ⟨m, ?_⟩
  rw [m, gExp_eq, gExp_eq]
  have : (∫ x in Ioi (0 : ℝ), x ^ (a - 1) * Real.exp (-(b * x)) * (x * Real.log x)) =
      (a * (∫ x in Ioi (0 : ℝ), x ^ (a - 1) * Real.exp (-(b * x)) * Real.log x) +
        ∫ x in Ioi (0 : ℝ), x ^ (a - 1) * Real.exp (-(b * x))) / b := by
    rw [← h3]; field_simp
  rw [this, mul_div_assoc', mul_add, h1]
  ring

/-- **C89.** Without bias correction the fitted Gamma distribution has the weighted mean of the rows as its mean, and the
weighted covariance of `x` and `ln x` of the rows as its covariance of `x` and `ln x`. -/
theorem C89_distribution {ignore : Bool} {F C R : ℕ} {rows : List Row} {f c r : ℕ} (hu : Usable F C R rows f c r)
    (hs : Spread (used F f c r rows)) {p : Fl × Fl} (hp : fit (gammaEst false) ignore F C R rows f c r = .ok p) :
    ∃ a b, p = (.fin a, .fin b) ∧ 0 < a ∧ 0 < b ∧ gExp a b (fun _ => 1) = 1 ∧ gExp a b id = avg id (used F f c r rows) ∧
      gExp a b (fun x => x * Real.log x) - gExp a b id * gExp a b Real.log =
        avg (fun x => x * Real.log x) (used F f c r rows) - avg id (used F f c r rows) * avg Real.log (used F f c r rows) := by
  obtain ⟨a, b, e, ha, hb, h1, h2⟩ := C89_moments hu hs hp
  obtain ⟨m1, m2⟩ := gamma_moments ha hb
  exact ⟨a, b, e, ha, hb, gExp_one ha hb, m1.trans h1, m2.trans h2⟩

/-- **C89.** No other Gamma distribution has these two moments. -/
theorem C89_unique {ignore : Bool} {F C R : ℕ} {rows : List Row} {f c r : ℕ} (hu : Usable F C R rows f c r)
    (hs : Spread (used F f c r rows)) {p : Fl × Fl} (hp : fit (gammaEst false) ignore F C R rows f c r = .ok p)
    {a b : ℝ} (ha : 0 < a) (hb : 0 < b) (h1 : gExp a b id = avg id (used F f c r rows))
    (h2 : gExp a b (fun x => x * Real.log x) - gExp a b id * gExp a b Real.log =
      avg (fun x => x * Real.log x) (used F f c r rows) - avg id (used F f c r rows) * avg Real.log (used F f c r rows)) :
    p = (.fin a, .fin b) := by
  obtain ⟨a', b', rfl, ha', hb', e1, e2⟩ := C89_moments hu hs hp
  obtain ⟨m1, m2⟩ := gamma_moments ha hb
  rw [m2, ← e2] at h2
  have hbb : b = b' := by
    rw [one_div, one_div] at h2
    exact inv_injective h2
  rw [m1, ← e1, hbb] at h1
  have haa : a = a' := by
    field_simp at h1
    exact h1
  rw [haa, hbb]

/-- The weight of one cell after rescaling, for the default weights. -/
theorem cell_weight {F C R : ℕ} {rows : List Row} {f c r : ℕ} (hdef : Default rows) (h : used F f c r rows ≠ []) :
    factor F C R rows * nTot (used F f c r rows) = (used F f c r rows).length / (F * C * R : ℕ) := by
  have hlen : (rows.filter (complete F)).length = (used F f c r rows).length := by simp [used, cell]
  have hone : nTot (used F f c r rows) = (used F f c r rows).length * 1 := nTot_const fun z hz => by
    unfold used cell at hz
    obtain ⟨row, hrow, rfl⟩ := List.mem_map.1 hz
    show row.w f c r = 1
    rw [hdef row (List.mem_filter.1 hrow).1]; rfl
  have hT := totalW_default F C R (rows := rows.filter (complete F)) fun row hrow => hdef row (List.mem_filter.1 hrow).1
  have h0 : ((used F f c r rows).length : ℝ) ≠ 0 := by
    exact_mod_cast fun e => h (List.length_eq_zero_iff.1 e)
  unfold factor
  rw [hT, hlen, hone]
  field_simp

/-- **C89.** With the default weights and at least `3·F·C·R` complete rows the bias correction is not clamped: the parameters
are the corrected estimates for `n = N / (F·C·R)`. -/
theorem C89_corrected_unclamped {ignore : Bool} {F C R : ℕ} {rows : List Row} {f c r : ℕ} (hu : Usable F C R rows f c r)
    (hdef : Default rows) (hs : Spread (used F f c r rows)) (hN : 3 * (F * C * R) ≤ (used F f c r rows).length) {a b : ℝ}
    (h0 : fit (gammaEst false) ignore F C R rows f c r = .ok (.fin a, .fin b)) {p : Fl × Fl}
    (hp : fit (gammaEst true) ignore F C R rows f c r = .ok p) :
    let n : ℝ := (used F f c r rows).length / (F * C * R : ℕ)
    p = (.fin (a - (3 * a - 2 / 3 * (a / (1 + a)) - 4 / 5 * (a / (1 + a) ^ 2)) / n), .fin (b * (n - 1) / n)) := by
  intro n
  obtain ⟨a', b', e, ha, hb, -⟩ := C89_moments hu hs h0
  simp only [Prod.mk.injEq, Fl.fin.injEq] at e
  rw [← e.1] at ha
  rw [← e.2] at hb
  have h1 := C89_corrected hu hs h0 hp
  have hne : used F f c r rows ≠ [] := by
    intro h
    have := hs.nTot_pos
    rw [h] at this
    simp [nTot] at this
  have hFCR : 0 < F * C * R := by
    have := hu.f_lt
    have := hu.c_lt
    have := hu.r_lt
    exact Nat.mul_pos (Nat.mul_pos (by omega) (by omega)) (by omega)
  have hn : (3 : ℝ) ≤ n := by
    have h2 : (0 : ℝ) < (F * C * R : ℕ) := by exact_mod_cast hFCR
    show (3 : ℝ) ≤ _ / _
    rw [le_div_iff₀ h2]
    exact_mod_cast hN
  rw [cell_weight hdef hne] at h1
  rw [h1, edgeLb_pos, edgeLb_pos]
  · exact div_pos (mul_pos hb (by show 0 < n - 1; linarith)) (by linarith)
  · have h3 : 0 < a / (1 + a) := div_pos ha (by linarith)
    have h4 : 0 < a / (1 + a) ^ 2 := div_pos ha (by positivity)
    have hn0 : 0 < n := by linarith
    show 0 < a - (3 * a - 2 / 3 * (a / (1 + a)) - 4 / 5 * (a / (1 + a) ^ 2)) / n
    rw [sub_pos, div_lt_iff₀ hn0]
    nlinarith

/-! ## The estimate does not maximise the likelihood -/

/-- Logarithm of the Gamma density. -/
noncomputable def lgam (t b x : ℝ) : ℝ := t * Real.log b - Real.log (Real.Gamma t) + (t - 1) * Real.log x - b * x

theorem gammaPDF_exp {t b x : ℝ} (ht : 0 < t) (hb : 0 < b) (hx : 0 < x) :
    ProbabilityTheory.gammaPDFReal t b x = Real.exp (lgam t b x) := by
  unfold ProbabilityTheory.gammaPDFReal lgam
  have hG := Real.Gamma_pos_of_pos ht
  rw [if_pos hx.le, Real.exp_sub, Real.exp_add, Real.exp_sub, Real.exp_log hG, Real.exp_neg, Real.rpow_def_of_pos hb,
    Real.rpow_def_of_pos hx, mul_comm t, mul_comm (t - 1)]
  field_simp

theorem wlik_exp (h : ℝ → ℝ) (l : List (ℝ × ℝ)) : wlik l (fun x => Real.exp (h x)) = Real.exp (wsum h l) := by
  induction l with
  | nil => simp [wlik, wsum]
  | cons z l ih => rw [wlik_cons, wsum_cons, ih, Real.exp_add, ← Real.exp_mul, mul_comm z.2]

theorem wsum_lgam (t b : ℝ) (l : List (ℝ × ℝ)) : wsum (lgam t b) l =
    (t * Real.log b - Real.log (Real.Gamma t)) * nTot l + (t - 1) * wsum Real.log l - b * wsum id l := by
  have : lgam t b = fun x => ((t * Real.log b - Real.log (Real.Gamma t)) + (t - 1) * Real.log x) + (-b) * id x := by
    funext x
    unfold lgam
    simp only [id]
    ring
  rw [this, wsum_add, wsum_add, wsum_const, wsum_smul, wsum_smul]
  ring

theorem exists_gt_of_deriv {g : ℝ → ℝ} {d x : ℝ} (h : HasDerivAt g d x) (hd : 0 < d) : ∃ t, x < t ∧ g x < g t := by
  have h1 := (hasDerivAt_iff_tendsto_slope.1 h).eventually (lt_mem_nhds hd)
  have h2 : ∀ᶠ t in 𝓝[>] x, 0 < slope g x t := h1.filter_mono (nhdsWithin_mono x fun y hy => ne_of_gt hy)
  obtain ⟨t, ht, hx⟩ := (h2.and self_mem_nhdsWithin).exists
  have hx : x < t := hx
  refine ⟨t, hx, ?_⟩
  rw [slope_def_field] at ht
  have h3 := mul_pos ht (sub_pos.2 hx)
  rw [div_mul_cancel₀ _ (sub_pos.2 hx).ne'] at h3
  linarith

theorem exists_weight : ∃ p : ℝ, 0 < p ∧ p ≤ 1 / 8 ∧
    4 * p * Real.exp 4 - (1 - p + p * Real.exp 4) * (4 * p) = 1 - p + p * Real.exp 4 := by
  have h5 : (5 : ℝ) ≤ Real.exp 4 := by linarith [Real.add_one_le_exp (4 : ℝ)]
  have hc : ContinuousOn (fun p : ℝ => 4 * p * Real.exp 4 - (1 - p + p * Real.exp 4) * (4 * p) - (1 - p + p * Real.exp 4))
      (Icc 0 (1 / 8)) := by fun_prop
  have := intermediate_value_Icc (by norm_num : (0 : ℝ) ≤ 1 / 8) hc
  obtain ⟨p, ⟨h0, h1⟩, h2⟩ := this (show (0 : ℝ) ∈ _ from ⟨by norm_num, by nlinarith⟩)
  dsimp only at h2
  refine ⟨p, lt_of_le_of_ne h0 fun e => ?_, h1, by linarith⟩
  rw [← e] at h2
  norm_num at h2

/-- **C89.** The estimate is not the maximum of the likelihood: for some two positive rows with positive weights another
concentration is strictly more likely, already with the fitted rate. -/
theorem C89_not_maximiser : ∃ rows : List Row, Usable 1 1 1 rows 0 0 0 ∧ Spread (used 1 0 0 0 rows) ∧
    ∃ a b, fit (gammaEst false) false 1 1 1 rows 0 0 0 = .ok (.fin a, .fin b) ∧ ∃ a', 0 < a' ∧
      wlik (used 1 0 0 0 rows) (ProbabilityTheory.gammaPDFReal a b) <
        wlik (used 1 0 0 0 rows) (ProbabilityTheory.gammaPDFReal a' b) := by
  obtain ⟨p, hp, hp8, he⟩ := exists_weight
  have h5 : (5 : ℝ) ≤ Real.exp 4 := by linarith [Real.add_one_le_exp (4 : ℝ)]
  have hl : used 1 0 0 0 [row1 1 (1 - p), row1 (Real.exp 4) p] = [(1, 1 - p), (Real.exp 4, p)] := by
    simp [used, cell, complete, row1]
  have hn : nTot [((1 : ℝ), 1 - p), (Real.exp 4, p)] = 1 := by simp [nTot]
  have hid : wsum id [((1 : ℝ), 1 - p), (Real.exp 4, p)] = 1 - p + p * Real.exp 4 := by simp [wsum]
  have hlg : wsum Real.log [((1 : ℝ), 1 - p), (Real.exp 4, p)] = 4 * p := by simp [wsum]; ring
  have hxl : wsum (fun x => x * Real.log x) [((1 : ℝ), 1 - p), (Real.exp 4, p)] = 4 * p * Real.exp 4 := by
    simp [wsum]; ring
  have hs : Spread (used 1 0 0 0 [row1 1 (1 - p), row1 (Real.exp 4) p]) := by
    rw [hl]
    refine ⟨?_, ?_, ⟨(1, 1 - p), by simp, (Real.exp 4, p), by simp, by dsimp only; linarith, hp, ?_⟩⟩
    · intro z hz
      simp only [List.mem_cons, List.not_mem_nil, or_false] at hz
      rcases hz with rfl | rfl <;> dsimp only <;> linarith
    · intro z hz
      simp only [List.mem_cons, List.not_mem_nil, or_false] at hz
      rcases hz with rfl | rfl <;> dsimp only <;> linarith
    · dsimp only; intro e; linarith
  have hu : Usable 1 1 1 [row1 1 (1 - p), row1 (Real.exp 4) p] 0 0 0 := by
    refine ⟨?_, by norm_num, by norm_num, by norm_num, by rw [hl, hn]; norm_num⟩
    intro row hrow f c r
    simp only [List.mem_cons, List.not_mem_nil, or_false] at hrow
    rcases hrow with rfl | rfl <;> simp only [row1] <;> linarith
  obtain ⟨q, hq⟩ := (C48_raises_iff (gammaEst false) false 1 1 1 [row1 1 (1 - p), row1 (Real.exp 4) p] 0 0 0).2
    ⟨⟨row1 1 (1 - p), by simp, 0, by norm_num, by simp [row1]⟩, .inr (by
      intro row hrow g _
      simp only [List.mem_cons, List.not_mem_nil, or_false] at hrow
      rcases hrow with rfl | rfl <;> simp [row1])⟩
  obtain ⟨a, b, e, ha, hb, h1, h2⟩ := C89_moments hu hs hq
  rw [e] at hq
  refine ⟨_, hu, hs, a, b, hq, ?_⟩
  rw [hl] at h1 h2 ⊢
  unfold avg at h1 h2
  rw [hn, div_one] at h1 h2
  rw [hid] at h1 h2
  rw [div_one, div_one, hxl, hlg, he] at h2
  have hm : 0 < 1 - p + p * Real.exp 4 := by nlinarith
  have hb' : b = 1 / (1 - p + p * Real.exp 4) := by rw [← h2, one_div_one_div]
  have ha1 : a = 1 := by
    rw [← h2] at h1
    field_simp at h1
    exact h1
  have hm4 : 1 - p + p * Real.exp 4 ≤ 7 / 5 := by nlinarith
  have hlog : Real.log b ≥ -(2 / 5) := by
    rw [hb', one_div, Real.log_inv]
    linarith [Real.log_le_sub_one_of_pos hm]
  have hG : HasDerivAt Real.Gamma (-Real.eulerMascheroniConstant) 1 := by
    have := (Real.differentiableAt_Gamma (s := 1) fun m => by
      intro e
      have : (0 : ℝ) ≤ m := Nat.cast_nonneg m
      linarith).hasDerivAt
    rwa [show deriv Real.Gamma 1 = -Real.eulerMascheroniConstant by
      rw [Real.eulerMascheroniConstant_eq_neg_deriv, neg_neg]] at this
  have hder : HasDerivAt (fun t => wsum (lgam t b) [((1 : ℝ), 1 - p), (Real.exp 4, p)])
      (Real.log b + Real.eulerMascheroniConstant + 4 * p) 1 := by
    have d1 := (((hasDerivAt_id (1 : ℝ)).mul_const (Real.log b)).sub (hG.log (by simp))).add
      (((hasDerivAt_id (1 : ℝ)).sub_const 1).mul_const (4 * p))
    refine ((d1.sub_const (b * (1 - p + p * Real.exp 4))).congr_deriv ?_).congr_of_eventuallyEq ?_
    · simp
    · refine Filter.Eventually.of_forall fun t => ?_
      dsimp only
      rw [wsum_lgam, hn, hid, hlg]
      simp
  obtain ⟨t, ht, hlt⟩ := exists_gt_of_deriv hder (by
    have := Real.one_half_lt_eulerMascheroniConstant
    linarith)
  refine ⟨t, by linarith, ?_⟩
  have hw : ∀ s : ℝ, 0 < s → wlik [((1 : ℝ), 1 - p), (Real.exp 4, p)] (ProbabilityTheory.gammaPDFReal s b) =
      Real.exp (wsum (lgam s b) [((1 : ℝ), 1 - p), (Real.exp 4, p)]) := by
    intro s hs0
    rw [← wlik_exp]
    refine wlik_congr fun z hz => gammaPDF_exp hs0 hb ?_
    rw [hl] at hs
    exact hs.pos z hz
  rw [hw a ha, hw t (by linarith), ha1]
  exact Real.exp_lt_exp.2 hlt

/-! ## A concrete case -/

namespace Wit

/-- Rows 1 and 2 with weight one meet the hypotheses, and the fit succeeds. -/
theorem C89_example : Usable 1 1 1 [row1 1 1, row1 2 1] 0 0 0 ∧ Spread (used 1 0 0 0 [row1 1 1, row1 2 1]) ∧
    ∃ p, fit (gammaEst false) false 1 1 1 [row1 1 1, row1 2 1] 0 0 0 = .ok p := by
  have hl : used 1 0 0 0 [row1 1 1, row1 2 1] = [(1, 1), (2, 1)] := by
    simp [used, cell, complete, row1]
  refine ⟨⟨?_, by norm_num, by norm_num, by norm_num, by rw [hl]; simp [nTot]⟩, ?_, ?_⟩
  · intro row hrow f c r
    simp only [List.mem_cons, List.not_mem_nil, or_false] at hrow
    rcases hrow with rfl | rfl <;> simp [row1]
  · rw [hl]
    exact ⟨by simp, by simp, ⟨(1, 1), by simp, (2, 1), by simp, by norm_num, by norm_num, by norm_num⟩⟩
  · exact (C48_raises_iff _ _ _ _ _ _ _ _ _).2 ⟨⟨row1 1 1, by simp, 0, by norm_num, by simp [row1]⟩, .inr (by
      intro row hrow g _
      simp only [List.mem_cons, List.not_mem_nil, or_false] at hrow
      rcases hrow with rfl | rfl <;> simp [row1])⟩

/-- Two rows and two channels: with the default bias correction the rate of every channel is `1e-8`. -/
theorem C89_two_channels {p : Fl × Fl} {c : ℕ} (hc : c < 2)
    (hp : fit (gammaEst true) false 1 2 1 [⟨fun _ => some 1, defaultW⟩, ⟨fun _ => some 2, defaultW⟩] 0 c 0 = .ok p) :
    p.2 = .fin eps := by
  have hl : used 1 0 c 0 [⟨fun _ => some 1, defaultW⟩, ⟨fun _ => some 2, defaultW⟩] = [(1, 1), (2, 1)] := by
    simp [used, cell, complete, defaultW]
  refine C89_rate_collapses ⟨?_, by norm_num, hc, by norm_num, by rw [hl]; simp [nTot]⟩ ?_ ?_ (by rw [hl]; simp) hp
  · intro row hrow f c r
    simp only [List.mem_cons, List.not_mem_nil, or_false] at hrow
    rcases hrow with rfl | rfl <;> simp [defaultW]
  · intro row hrow
    simp only [List.mem_cons, List.not_mem_nil, or_false] at hrow
    rcases hrow with rfl | rfl <;> rfl
  · rw [hl]
    exact ⟨by simp, by simp, ⟨(1, 1), by simp, (2, 1), by simp, by norm_num, by norm_num, by norm_num⟩⟩

end Wit
end LeafFit
end Verif

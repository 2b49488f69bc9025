import Verif.Interval
import Verif.InnerProps
import Mathlib.MeasureTheory.Integral.IntegralEqImproper
import Mathlib.MeasureTheory.Integral.IntervalIntegral.FundThmCalculus
import Mathlib.Analysis.SpecialFunctions.Gaussian.GaussianIntegral
import Mathlib.Analysis.SpecialFunctions.Log.Deriv
import Mathlib.Analysis.SpecialFunctions.ExpDeriv

/-! Interval probabilities of the leaf families (helper lemmas for C36). -/

open MeasureTheory Filter Set
open scoped Topology

namespace Verif
namespace Interval

/-- The set of values the bounds allow; NaN means unbounded. -/
def boxSet (lo hi : Bnd) : Set ℝ := {t | lo.getD ⊥ ≤ (t : EReal) ∧ (t : EReal) ≤ hi.getD ⊤}

theorem boxSet_meas (lo hi : Bnd) : MeasurableSet (boxSet lo hi) := by
  have : boxSet lo hi = (fun t : ℝ => (t : EReal)) ⁻¹' Set.Icc (lo.getD ⊥) (hi.getD ⊤) := rfl
  rw [this]
  exact measurable_coe_real_ereal measurableSet_Icc

/-! ### Antiderivatives -/

theorem lint_Ioi {G g : ℝ → ℝ} {a L : ℝ} (hc : ContinuousWithinAt G (Ici a) a)
    (hd : ∀ x ∈ Ioi a, HasDerivAt G (g x) x) (hg : ∀ x ∈ Ioi a, 0 ≤ g x) (ht : Tendsto G atTop (𝓝 L)) :
    ∫⁻ t in Ioi a, ENNReal.ofReal (g t) = ENNReal.ofReal (L - G a) := by
  rw [← integral_Ioi_of_hasDerivAt_of_nonneg hc hd hg ht,
    ofReal_integral_eq_lintegral_ofReal (integrableOn_Ioi_deriv_of_nonneg hc hd hg ht)]
  exact (ae_restrict_iff' measurableSet_Ioi).2 (Eventually.of_forall hg)

theorem lint_Ioc {G g : ℝ → ℝ} {a b : ℝ} (hab : a ≤ b) (hc : ContinuousOn G (Icc a b))
    (hd : ∀ x ∈ Ioo a b, HasDerivAt G (g x) x) (hg : ∀ x ∈ Ioo a b, 0 ≤ g x) :
    ∫⁻ t in Ioc a b, ENNReal.ofReal (g t) = ENNReal.ofReal (G b - G a) := by
  have hi : IntegrableOn g (Ioc a b) := intervalIntegral.integrableOn_deriv_of_nonneg hc hd hg
  have e := intervalIntegral.integral_eq_sub_of_hasDerivAt_of_le hab hc hd
    ((intervalIntegrable_iff_integrableOn_Ioc_of_le hab).2 hi)
  rw [← e, intervalIntegral.integral_of_le hab]
  rw [setLIntegral_congr Ioo_ae_eq_Ioc.symm, setIntegral_congr_set Ioo_ae_eq_Ioc.symm,
    ofReal_integral_eq_lintegral_ofReal (hi.mono_set Ioo_subset_Ioc_self)]
  exact (ae_restrict_iff' measurableSet_Ioo).2 (Eventually.of_forall hg)

theorem lint_Iic {G g : ℝ → ℝ} {b l : ℝ} (hd : ∀ x, HasDerivAt G (g x) x) (hg : ∀ x, 0 ≤ g x)
    (ht : Tendsto G atBot (𝓝 l)) : ∫⁻ t in Iic b, ENNReal.ofReal (g t) = ENNReal.ofReal (G b - l) := by
  have h := lint_Ioi (G := fun x => - G (-x)) (g := fun x => g (-x)) (a := -b) (L := -l)
    (((hd _).continuousAt.comp continuousAt_neg).neg.continuousWithinAt)
    (fun x _ => by
      have h1 : HasDerivAt (fun x => - G (-x)) (-(g (-x) * -1)) x := ((hd (-x)).comp x (hasDerivAt_neg x)).neg
      exact h1.congr_deriv (by ring)) (fun x _ => hg _) ((ht.comp tendsto_neg_atTop_atBot).neg)
  have e : ∫⁻ t in Ioi (-b), ENNReal.ofReal (g (-t)) = ∫⁻ t in Iio b, ENNReal.ofReal (g t) := by
    have := (Measure.measurePreserving_neg (volume : Measure ℝ)).setLIntegral_comp_preimage_emb
      (Homeomorph.neg ℝ).measurableEmbedding (fun t => ENNReal.ofReal (g t)) (Iio b)
    rw [← this]
    congr 2
    ext x; simp
  rw [e] at h
  rw [setLIntegral_congr Iio_ae_eq_Iic.symm, h]
  congr 1
  simp
  ring

/-- A cumulative distribution function with derivative `g` gives the probability of any box. -/
theorem lint_box {G g : ℝ → ℝ} {GE : EReal → ℝ} {l L : ℝ} (hd : ∀ x, HasDerivAt G (g x) x) (hg : ∀ x, 0 ≤ g x)
    (hb : Tendsto G atBot (𝓝 l)) (ht : Tendsto G atTop (𝓝 L)) (e0 : GE ⊥ = l) (e1 : GE ⊤ = L)
    (e : ∀ x : ℝ, GE x = G x) (lo hi : Bnd) :
    ∫⁻ t in boxSet lo hi, ENNReal.ofReal (g t) = ENNReal.ofReal (GE (hi.getD ⊤) - GE (lo.getD ⊥)) := by
  have hm : Monotone G := monotone_of_deriv_nonneg (fun x => (hd x).differentiableAt) fun x => by
    rw [(hd x).deriv]; exact hg x
  have hl : ∀ x, l ≤ G x := fun x => hm.le_of_tendsto hb x
  have hL : ∀ x, G x ≤ L := fun x => hm.ge_of_tendsto ht x
  have hlL : l ≤ L := (hl 0).trans (hL 0)
  unfold boxSet
  generalize hi.getD ⊤ = h
  generalize lo.getD ⊥ = a
  induction a with
  | bot =>
    induction h with
    | bot => simp [e0]
    | top =>
      simp only [bot_le, le_top, and_self, Set.ofPred_true, Measure.restrict_univ, e0, e1]
      rw [← lintegral_add_compl _ (measurableSet_Iic (a := (0:ℝ))), lint_Iic hd hg hb, Set.compl_Iic,
        lint_Ioi (hd _).continuousAt.continuousWithinAt (fun x _ => hd x) (fun x _ => hg x) ht,
        ← ENNReal.ofReal_add (by linarith [hl 0]) (by linarith [hL 0])]
      congr 1; ring
    | coe b =>
      simp only [bot_le, true_and, EReal.coe_le_coe_iff, e0, e]
      exact lint_Iic hd hg hb
  | top =>
    have : {t : ℝ | (⊤ : EReal) ≤ t ∧ (t : EReal) ≤ h} = ∅ := by ext t; simp
    rw [this]
    simp only [Measure.restrict_empty, lintegral_zero_measure, e1]
    rw [ENNReal.ofReal_of_nonpos]
    induction h with
    | bot => rw [e0]; linarith
    | top => rw [e1]; linarith
    | coe b => rw [e]; linarith [hL b]
  | coe a =>
    induction h with
    | bot =>
      have : {t : ℝ | (a : EReal) ≤ t ∧ (t : EReal) ≤ ⊥} = ∅ := by ext t; simp
      rw [this, e0, e, ENNReal.ofReal_of_nonpos (by linarith [hl a])]; simp
    | top =>
      simp only [le_top, and_true, EReal.coe_le_coe_iff, e1, e]
      rw [← lint_Ioi (hd a).continuousAt.continuousWithinAt (fun x _ => hd x) (fun x _ => hg x) ht]
      exact setLIntegral_congr Ioi_ae_eq_Ici.symm
    | coe b =>
      simp only [EReal.coe_le_coe_iff, e]
      rcases le_or_gt a b with hab | hab
      · rw [← lint_Ioc hab (fun x _ => (hd x).continuousAt.continuousWithinAt) (fun x _ => hd x) (fun x _ => hg x)]
        exact setLIntegral_congr Ioc_ae_eq_Icc.symm
      · have : {t : ℝ | a ≤ t ∧ t ≤ b} = ∅ := by ext t; simp; intro h; linarith
        rw [this, ENNReal.ofReal_of_nonpos (by linarith [hm hab.le])]; simp

/-- The same for densities supported on `[0, ∞)` and a non-negative lower bound. -/
theorem lint_box_nonneg {G g : ℝ → ℝ} {L : ℝ} (hc : ContinuousWithinAt G (Ici 0) 0)
    (hd : ∀ x, 0 < x → HasDerivAt G (g x) x) (hg : ∀ x, 0 < x → 0 ≤ g x) (ht : Tendsto G atTop (𝓝 L))
    {a : ℝ} (ha : 0 ≤ a) :
    (∫⁻ t in {t : ℝ | a ≤ t}, ENNReal.ofReal (g t) = ENNReal.ofReal (L - G a)) ∧ G a ≤ L ∧
    (∀ b, 0 ≤ b → ∫⁻ t in {t : ℝ | a ≤ t ∧ t ≤ b}, ENNReal.ofReal (g t) = ENNReal.ofReal (G b - G a)) := by
  have hcon : ContinuousOn G (Ici 0) := by
    intro x hx
    rcases (Set.mem_Ici.1 hx).eq_or_lt with rfl | h
    · exact hc
    · exact (hd x h).continuousAt.continuousWithinAt
  have hm : MonotoneOn G (Ici 0) := by
    refine monotoneOn_of_deriv_nonneg (convex_Ici 0) hcon ?_ ?_
    · intro x hx; rw [interior_Ici] at hx; exact (hd x hx).differentiableAt.differentiableWithinAt
    · intro x hx; rw [interior_Ici] at hx; rw [(hd x hx).deriv]; exact hg x hx
  refine ⟨?_, ?_, ?_⟩
  · rw [← lint_Ioi (hcon.mono (Ici_subset_Ici.2 ha) a (by simp)) (fun x hx => hd x (ha.trans_lt hx))
      (fun x hx => hg x (ha.trans_lt hx)) ht]
    exact setLIntegral_congr Ioi_ae_eq_Ici.symm
  · refine ge_of_tendsto ht ?_
    filter_upwards [eventually_ge_atTop a] with x hx
    exact hm ha (ha.trans hx) hx
  · intro b hb
    rcases le_or_gt a b with hab | hab
    · rw [← lint_Ioc hab (hcon.mono fun x hx => ha.trans hx.1) (fun x hx => hd x (ha.trans_lt hx.1))
        (fun x hx => hg x (ha.trans_lt hx.1))]
      exact setLIntegral_congr Ioc_ae_eq_Icc.symm
    · have : {t : ℝ | a ≤ t ∧ t ≤ b} = ∅ := by ext t; simp; intro h; linarith
      rw [this, ENNReal.ofReal_of_nonpos (by linarith [hm hb ha hab.le])]; simp

/-! ### The error function and the Normal distribution -/

theorem erf_deriv (x : ℝ) : HasDerivAt erf (2 / Real.sqrt Real.pi * Real.exp (-x ^ 2)) x := by
  have hc : Continuous fun t : ℝ => Real.exp (-t ^ 2) := by fun_prop
  exact (intervalIntegral.integral_hasDerivAt_right (hc.intervalIntegrable _ _)
    hc.stronglyMeasurable.stronglyMeasurableAtFilter hc.continuousAt).const_mul _

theorem erf_top : Tendsto erf atTop (𝓝 1) := by
  have hi : IntegrableOn (fun t : ℝ => Real.exp (-t ^ 2)) (Ioi 0) := by
    have := (integrable_exp_neg_mul_sq (b := 1) one_pos).integrableOn (s := Ioi (0:ℝ))
    simpa using this
  have h := (intervalIntegral_tendsto_integral_Ioi 0 hi tendsto_id).const_mul (2 / Real.sqrt Real.pi)
  have e : ∫ t in Ioi (0:ℝ), Real.exp (-t ^ 2) = Real.sqrt Real.pi / 2 := by
    have := integral_gaussian_Ioi 1
    simpa using this
  rw [e] at h
  have e2 : 2 / Real.sqrt Real.pi * (Real.sqrt Real.pi / 2) = 1 := by
    have : Real.sqrt Real.pi ≠ 0 := by positivity
    field_simp
  rw [e2] at h
  exact h

theorem erf_neg (x : ℝ) : erf (-x) = - erf x := by
  unfold erf
  have := intervalIntegral.integral_comp_neg (f := fun t : ℝ => Real.exp (-t ^ 2)) (a := 0) (b := x)
  simp only [neg_zero, even_two, Even.neg_pow] at this
  rw [this, intervalIntegral.integral_symm]; ring

theorem erf_bot : Tendsto erf atBot (𝓝 (-1)) := by
  have := (erf_top.comp tendsto_neg_atBot_atTop).neg
  refine this.congr fun x => ?_
  simp [erf_neg]

theorem normal_deriv (m : ℝ) {s : ℝ} (hs : 0 < s) (x : ℝ) :
    HasDerivAt (fun x : ℝ => normalCdf m s x) (expL (Leaves.normalLL m s x)) x := by
  have h1 : HasDerivAt (fun x : ℝ => (x - m) * s⁻¹ / Real.sqrt 2) (1 * s⁻¹ / Real.sqrt 2) x :=
    (((hasDerivAt_id x).sub_const m).mul_const _).div_const _
  have h2 := ((erf_deriv _).comp x h1).const_add 1 |>.const_mul (1 / 2)
  refine HasDerivAt.congr_deriv (f := fun x : ℝ => normalCdf m s x) h2 ?_
  symm
  unfold Leaves.normalLL
  rw [expL_coe, Real.exp_sub, Real.exp_sub, Real.exp_log hs, Real.exp_log (by positivity)]
  have e : -((x - m) * s⁻¹ / Real.sqrt 2) ^ 2 = -(x - m) ^ 2 / (2 * s ^ 2) := by
    rw [div_pow, Real.sq_sqrt (by norm_num), mul_pow]; field_simp
  rw [e, Real.sqrt_mul (by norm_num : (0:ℝ) ≤ 2)]
  have : Real.sqrt Real.pi ≠ 0 := by positivity
  generalize Real.exp (-(x - m) ^ 2 / (2 * s ^ 2)) = E
  field_simp

theorem normal_arg_top (m : ℝ) {s : ℝ} (hs : 0 < s) : Tendsto (fun x : ℝ => (x - m) * s⁻¹ / Real.sqrt 2) atTop atTop :=
  ((tendsto_atTop_add_const_right atTop (-m) tendsto_id).atTop_mul_const (inv_pos.2 hs)).atTop_div_const (by positivity)

theorem normal_arg_bot (m : ℝ) {s : ℝ} (hs : 0 < s) : Tendsto (fun x : ℝ => (x - m) * s⁻¹ / Real.sqrt 2) atBot atBot :=
  ((tendsto_atBot_add_const_right atBot (-m) tendsto_id).atBot_mul_const (inv_pos.2 hs)).atBot_div_const (by positivity)

theorem normal_top (m : ℝ) {s : ℝ} (hs : 0 < s) : Tendsto (fun x : ℝ => normalCdf m s x) atTop (𝓝 1) := by
  have := ((erf_top.comp (normal_arg_top m hs)).const_add 1).const_mul (1 / 2)
  norm_num at this
  refine this.congr fun x => ?_
  show _ = 1 / 2 * (1 + erf ((x - m) * s⁻¹ / Real.sqrt 2))
  norm_num

theorem normal_bot (m : ℝ) {s : ℝ} (hs : 0 < s) : Tendsto (fun x : ℝ => normalCdf m s x) atBot (𝓝 0) := by
  have := ((erf_bot.comp (normal_arg_bot m hs)).const_add 1).const_mul (1 / 2)
  norm_num at this
  refine this.congr fun x => ?_
  show _ = 1 / 2 * (1 + erf ((x - m) * s⁻¹ / Real.sqrt 2))
  norm_num

/-! ### Laplace -/

theorem laplaceCdf_eq (m s : ℝ) (x : ℝ) :
    laplaceCdf m s x = if x ≤ m then 1 / 2 * Real.exp ((x - m) / s) else 1 - 1 / 2 * Real.exp (-(x - m) / s) := by
  show 1 / 2 - 1 / 2 * (SignType.sign (x - m) : ℝ) * (Real.exp (-|x - m| / s) - 1) = _
  rcases lt_trichotomy x m with h | h | h
  · rw [if_pos h.le, sign_neg (sub_neg.2 h), abs_of_neg (sub_neg.2 h), neg_neg]
    simp; ring
  · subst h; simp
  · rw [if_neg (not_le.2 h), sign_pos (sub_pos.2 h), abs_of_pos (sub_pos.2 h)]
    simp; ring

theorem expL_laplaceLL (m : ℝ) {s : ℝ} (hs : 0 < s) (x : ℝ) :
    expL (laplaceLL m s x) = 1 / (2 * s) * Real.exp (-|x - m| / s) := by
  unfold laplaceLL
  rw [expL_coe, sub_eq_add_neg, Real.exp_add, Real.exp_neg, Real.exp_log (by positivity), neg_div]
  simp

theorem laplace_deriv (m : ℝ) {s : ℝ} (hs : 0 < s) (x : ℝ) :
    HasDerivAt (fun x : ℝ => laplaceCdf m s x) (expL (laplaceLL m s x)) x := by
  rw [expL_laplaceLL m hs]
  have hl : HasDerivAt (fun y : ℝ => 1 / 2 * Real.exp ((y - m) / s)) (1 / (2 * s) * Real.exp ((x - m) / s)) x := by
    have := ((((hasDerivAt_id x).sub_const m).div_const s).exp).const_mul (1 / 2)
    exact this.congr_deriv (by simp; field_simp)
  have hr : HasDerivAt (fun y : ℝ => 1 - 1 / 2 * Real.exp (-(y - m) / s)) (1 / (2 * s) * Real.exp (-(x - m) / s)) x := by
    have := (((((hasDerivAt_id x).sub_const m).neg.div_const s).exp).const_mul (1 / 2)).const_sub 1
    exact this.congr_deriv (by simp; field_simp)
  have hf : (fun x : ℝ => laplaceCdf m s x) = fun x => if x ≤ m then 1 / 2 * Real.exp ((x - m) / s)
      else 1 - 1 / 2 * Real.exp (-(x - m) / s) := funext fun x => laplaceCdf_eq m s x
  rw [hf]
  rcases lt_trichotomy x m with h | h | h
  · rw [abs_of_neg (sub_neg.2 h), neg_neg]
    refine hl.congr_of_eventuallyEq ?_
    filter_upwards [eventually_lt_nhds h] with y hy
    rw [if_pos hy.le]
  · subst h
    simp only [sub_self, abs_zero, neg_zero, zero_div, Real.exp_zero] at hl hr ⊢
    have h1 : HasDerivWithinAt (fun y : ℝ => if y ≤ x then 1 / 2 * Real.exp ((y - x) / s)
        else 1 - 1 / 2 * Real.exp (-(y - x) / s)) (1 / (2 * s) * 1) (Iic x) x :=
      hl.hasDerivWithinAt.congr (fun y hy => by rw [if_pos (Set.mem_Iic.1 hy)]) (by simp)
    have h2 : HasDerivWithinAt (fun y : ℝ => if y ≤ x then 1 / 2 * Real.exp ((y - x) / s)
        else 1 - 1 / 2 * Real.exp (-(y - x) / s)) (1 / (2 * s) * 1) (Ici x) x := by
      refine hr.hasDerivWithinAt.congr (fun y hy => ?_) (by simp; norm_num)
      rcases (Set.mem_Ici.1 hy).eq_or_lt with rfl | h
      · simp; norm_num
      · rw [if_neg (not_le.2 h)]
    have := h1.union h2
    rw [Set.Iic_union_Ici] at this
    exact this.hasDerivAt univ_mem
  · rw [abs_of_pos (sub_pos.2 h)]
    refine hr.congr_of_eventuallyEq ?_
    filter_upwards [eventually_gt_nhds h] with y hy
    rw [if_neg (not_le.2 hy)]

theorem laplace_top (m : ℝ) {s : ℝ} (hs : 0 < s) : Tendsto (fun x : ℝ => laplaceCdf m s x) atTop (𝓝 1) := by
  have h1 : Tendsto (fun x : ℝ => -(x - m) / s) atTop atBot :=
    (tendsto_neg_atTop_atBot.comp (tendsto_atTop_add_const_right atTop (-m) tendsto_id)).atBot_div_const hs
  have h2 := ((Real.tendsto_exp_atBot.comp h1).const_mul (1 / 2)).const_sub 1
  simp only [mul_zero, sub_zero] at h2
  refine h2.congr' ?_
  filter_upwards [eventually_gt_atTop m] with x hx
  rw [laplaceCdf_eq m s, if_neg (not_le.2 hx)]; rfl

theorem laplace_bot (m : ℝ) {s : ℝ} (hs : 0 < s) : Tendsto (fun x : ℝ => laplaceCdf m s x) atBot (𝓝 0) := by
  have h1 : Tendsto (fun x : ℝ => (x - m) / s) atBot atBot :=
    (tendsto_atBot_add_const_right atBot (-m) tendsto_id).atBot_div_const hs
  have h2 := (Real.tendsto_exp_atBot.comp h1).const_mul (1 / 2)
  simp only [mul_zero] at h2
  refine h2.congr' ?_
  filter_upwards [eventually_le_atBot m] with x hx
  rw [laplaceCdf_eq m s, if_pos hx]; rfl

/-! ### Exponential and LogNormal -/

theorem expo_facts {r : ℝ} (hr : 0 < r) :
    (∀ x : ℝ, HasDerivAt (fun x : ℝ => 1 - Real.exp (-r * x)) (r * Real.exp (-r * x)) x) ∧
    Tendsto (fun x : ℝ => 1 - Real.exp (-r * x)) atTop (𝓝 1) := by
  constructor
  · intro x
    have := (((hasDerivAt_id x).const_mul (-r)).exp).const_sub 1
    exact this.congr_deriv (by simp; ring)
  · have h1 : Tendsto (fun x : ℝ => -r * x) atTop atBot := tendsto_id.const_mul_atTop_of_neg (by linarith)
    have := (Real.tendsto_exp_atBot.comp h1).const_sub 1
    simpa using this

theorem expL_expoLL {r : ℝ} (hr : 0 < r) {x : ℝ} (hx : 0 ≤ x) : expL (expoLL r x) = r * Real.exp (-r * x) := by
  unfold expoLL
  rw [if_pos hx, expL_coe, Real.exp_sub, Real.exp_log hr, neg_mul, Real.exp_neg]; rfl

/-- The log-normal cdf on the reals, with value 0 at the origin. -/
noncomputable def lnG (m s x : ℝ) : ℝ := if x = 0 then 0 else normalCdf m s ((Real.log x : ℝ) : EReal)

theorem logNormal_facts (m : ℝ) {s : ℝ} (hs : 0 < s) :
    ContinuousWithinAt (lnG m s) (Ici 0) 0 ∧
    (∀ x, 0 < x → HasDerivAt (lnG m s) (expL (logNormalLL m s x)) x) ∧
    Tendsto (lnG m s) atTop (𝓝 1) := by
  refine ⟨?_, ?_, ?_⟩
  · have h : Tendsto (fun x : ℝ => normalCdf m s ((Real.log x : ℝ) : EReal)) (𝓝[>] 0) (𝓝 0) :=
      (normal_bot m hs).comp Real.tendsto_log_nhdsGT_zero
    have h2 : ContinuousWithinAt (lnG m s) (Ioi 0) 0 := by
      unfold ContinuousWithinAt
      have e : lnG m s 0 = 0 := by simp [lnG]
      rw [e]
      refine h.congr' ?_
      filter_upwards [self_mem_nhdsWithin] with x hx
      rw [lnG, if_neg (ne_of_gt hx)]
    have := h2.insert
    rwa [Set.Ioi_insert] at this
  · intro x hx
    have h1 := (normal_deriv m hs (Real.log x)).comp x (Real.hasDerivAt_log hx.ne')
    have h2 : HasDerivAt (lnG m s) (expL (Leaves.normalLL m s (Real.log x)) * x⁻¹) x := by
      refine h1.congr_of_eventuallyEq ?_
      filter_upwards [eventually_gt_nhds hx] with y hy
      rw [lnG, if_neg (ne_of_gt hy)]; rfl
    refine h2.congr_deriv ?_
    unfold logNormalLL
    rw [if_pos hx, expL_add, expL_coe, Real.exp_neg, Real.exp_log hx]
  · refine ((normal_top m hs).comp Real.tendsto_log_atTop).congr' ?_
    filter_upwards [eventually_gt_atTop (0:ℝ)] with x hx
    rw [lnG, if_neg (ne_of_gt hx)]; rfl

/-! ### Gamma -/

theorem expL_gammaLL {a b : ℝ} (ha : 0 < a) (hb : 0 < b) {x : ℝ} (hx : 0 < x) :
    expL (gammaLL a b x) = 1 / Real.Gamma a * (Real.exp (-(b * x)) * (b * x) ^ (a - 1)) * b := by
  have hG := Real.Gamma_pos_of_pos ha
  have hbx := mul_pos hb hx
  unfold gammaLL
  rw [if_pos hx, expL_coe, Real.exp_sub, Real.exp_log hG, Real.exp_sub, Real.exp_add, Real.rpow_def_of_pos hbx,
    Real.log_mul hb.ne' hx.ne', Real.exp_neg]
  have e : Real.exp ((Real.log b + Real.log x) * (a - 1)) * b = Real.exp (a * Real.log b) * Real.exp ((a - 1) * Real.log x) := by
    conv_lhs => rw [show b = Real.exp (Real.log b) from (Real.exp_log hb).symm]
    rw [Real.log_exp, ← Real.exp_add, ← Real.exp_add]
    congr 1
    ring
  rw [show 1 / Real.Gamma a * ((Real.exp (b * x))⁻¹ * Real.exp ((Real.log b + Real.log x) * (a - 1))) * b =
    1 / Real.Gamma a * ((Real.exp (b * x))⁻¹ * (Real.exp ((Real.log b + Real.log x) * (a - 1)) * b)) by ring, e]
  field_simp

theorem gamma_facts {a b : ℝ} (ha : 0 < a) (hb : 0 < b) :
    ContinuousWithinAt (fun x => gammainc a (b * x)) (Ici 0) 0 ∧
    (∀ x, 0 < x → HasDerivAt (fun x => gammainc a (b * x)) (expL (gammaLL a b x)) x) ∧
    Tendsto (fun x => gammainc a (b * x)) atTop (𝓝 1) := by
  have hG := Real.Gamma_pos_of_pos ha
  have hi := Real.GammaIntegral_convergent ha
  have hI : ∀ y : ℝ, 0 ≤ y → IntervalIntegrable (fun t : ℝ => Real.exp (-t) * t ^ (a - 1)) volume 0 y := by
    intro y hy
    rw [intervalIntegrable_iff_integrableOn_Ioc_of_le hy]
    exact hi.mono_set Ioc_subset_Ioi_self
  refine ⟨?_, ?_, ?_⟩
  · have h1 : ContinuousOn (fun y => ∫ t in (0 : ℝ)..y, Real.exp (-t) * t ^ (a - 1)) (Icc 0 1) := by
      have := intervalIntegral.continuousOn_primitive_interval (μ := volume) (a := (0 : ℝ)) (b := 1)
        (f := fun t : ℝ => Real.exp (-t) * t ^ (a - 1)) (by
          rw [uIcc_of_le zero_le_one, integrableOn_Icc_iff_integrableOn_Ioc]
          exact hi.mono_set Ioc_subset_Ioi_self)
      rwa [uIcc_of_le zero_le_one] at this
    have h2 : ContinuousWithinAt (fun y => ∫ t in (0 : ℝ)..y, Real.exp (-t) * t ^ (a - 1)) (Ici 0) (b * 0) := by
      rw [mul_zero]
      exact (h1 0 ⟨le_rfl, zero_le_one⟩).mono_of_mem_nhdsWithin (Icc_mem_nhdsGE zero_lt_one)
    have h3 : ContinuousWithinAt (fun x : ℝ => b * x) (Ici 0) 0 := by fun_prop
    have h4 := h2.comp h3 (fun x hx => mul_nonneg hb.le hx)
    exact h4.const_mul _
  · intro x hx
    have hbx := mul_pos hb hx
    have hc : ContinuousAt (fun t : ℝ => Real.exp (-t) * t ^ (a - 1)) (b * x) :=
      (by fun_prop : ContinuousAt (fun t : ℝ => Real.exp (-t)) (b * x)).mul
        (Real.continuousAt_rpow_const _ _ (.inl hbx.ne'))
    have h1 := intervalIntegral.integral_hasDerivAt_right (hI _ hbx.le)
      ((by fun_prop : Measurable fun t : ℝ => Real.exp (-t) * t ^ (a - 1)).stronglyMeasurable.stronglyMeasurableAtFilter) hc
    have h2 : HasDerivAt (fun x : ℝ => b * x) b x := by simpa using (hasDerivAt_id x).const_mul b
    have h3 := (h1.comp x h2).const_mul (1 / Real.Gamma a)
    rw [expL_gammaLL ha hb hx]
    exact h3.congr_deriv (by ring)
  · have h1 := intervalIntegral_tendsto_integral_Ioi 0 hi (tendsto_id.const_mul_atTop hb)
    have h2 := h1.const_mul (1 / Real.Gamma a)
    rw [← Real.Gamma_eq_integral ha, one_div_mul_cancel hG.ne'] at h2
    exact h2

/-! ### What a leaf cell returns -/

/-- The reference measure and the parameters are those of the family: counting measure on `0, 1, …` for Bernoulli and
Categorical, Lebesgue measure otherwise. -/
def Dist.Adm (μ : Measure ℝ) : Dist → Prop
  | .bern p => 0 ≤ p ∧ p ≤ 1 ∧ ∃ K, 2 ≤ K ∧ μ = Leaves.countBelow K
  | .cat K l => (∃ k < K, l k ≠ ⊥) ∧ ∃ N, K ≤ N ∧ μ = Leaves.countBelow N
  | .unif a b => a < b ∧ μ = volume
  | .normal _ s => 0 < s ∧ μ = volume
  | .laplace _ s => 0 < s ∧ μ = volume
  | .expo r => 0 < r ∧ μ = volume
  | .logNormal _ s => 0 < s ∧ μ = volume
  | .gamma a b => 0 < a ∧ 0 < b ∧ μ = volume
  | .noCdf d => Measurable (fun t => expL (d t)) ∧ ∫⁻ t, ENNReal.ofReal (expL (d t)) ∂μ = 1

/-- The probability of the box under the leaf distribution. -/
noncomputable def Dist.P (μ : Measure ℝ) (d : Dist) (lo hi : Bnd) : ENNReal :=
  ∫⁻ t in boxSet lo hi, ENNReal.ofReal (expL (d.ll t)) ∂μ

theorem ceilE_le (a : EReal) (n : ℤ) : ceilE a ≤ (((n : ℝ)) : EReal) ↔ a ≤ (((n : ℝ)) : EReal) := by
  induction a with
  | bot => show (⊥ : EReal) ≤ _ ↔ _; simp
  | top => exact Iff.rfl
  | coe a =>
    show ((((⌈a⌉ : ℤ) : ℝ) : EReal)) ≤ _ ↔ _
    rw [EReal.coe_le_coe_iff, EReal.coe_le_coe_iff, Int.cast_le, Int.ceil_le]

theorem le_floorE (b : EReal) (n : ℤ) : (((n : ℝ)) : EReal) ≤ floorE b ↔ (((n : ℝ)) : EReal) ≤ b := by
  induction b with
  | bot => exact Iff.rfl
  | top => exact Iff.rfl
  | coe b =>
    show _ ≤ ((((⌊b⌋ : ℤ) : ℝ) : EReal)) ↔ _
    rw [EReal.coe_le_coe_iff, EReal.coe_le_coe_iff, Int.cast_le, Int.le_floor]

theorem lint_count_box (N : ℕ) (g : ℝ → ENNReal) (lo hi : Bnd) :
    ∫⁻ t in boxSet lo hi, g t ∂Leaves.countBelow N =
      ∑ k ∈ Finset.range N, (boxSet lo hi).indicator g (k : ℝ) := by
  rw [← lintegral_indicator (boxSet_meas lo hi), Leaves.lintegral_countBelow]

theorem bern_box {p : ℝ} (h0 : 0 ≤ p) (h1 : p ≤ 1) {N : ℕ} (hN : 2 ≤ N) (lo hi : Bnd) :
    Dist.P (Leaves.countBelow N) (.bern p) lo hi = ENNReal.ofReal (bernProb p lo hi) ∧ 0 ≤ bernProb p lo hi ∧
      bernProb p lo hi ≤ 1 := by
  classical
  have m0 : (0 : ℝ) ∈ boxSet lo hi ↔ lo.elim 0 ceilE ≤ (0 : EReal) ∧
      (0 : EReal) ≤ hi.elim 1 floorE := by
    unfold boxSet
    cases lo <;> cases hi <;> simp
    · rename_i b; have := le_floorE b 0; simp at this; rw [this]
    · rename_i a; have := ceilE_le a 0; simp at this; rw [this]
    · rename_i a b; have := le_floorE b 0; simp at this; rw [this]; have := ceilE_le a 0; simp at this; rw [this]
  have m1 : (1 : ℝ) ∈ boxSet lo hi ↔ lo.elim 0 ceilE ≤ (1 : EReal) ∧
      (1 : EReal) ≤ hi.elim 1 floorE := by
    unfold boxSet
    cases lo <;> cases hi <;> simp
    · rename_i b; have := le_floorE b 1; simp at this; rw [this]
    · rename_i a; have := ceilE_le a 1; simp at this; rw [this]
    · rename_i a b; have := le_floorE b 1; simp at this; rw [this]; have := ceilE_le a 1; simp at this; rw [this]
  have e : bernProb p lo hi = (if (0:ℝ) ∈ boxSet lo hi then 1 - p else 0) + (if (1:ℝ) ∈ boxSet lo hi then p else 0) := by
    unfold bernProb
    simp only [m0, m1]
  refine ⟨?_, ?_, ?_⟩
  · obtain ⟨n, rfl⟩ := Nat.exists_eq_add_of_le hN
    rw [e, Dist.P, lint_count_box, add_comm 2 n, Finset.sum_range_succ', Finset.sum_range_succ']
    rw [Finset.sum_eq_zero, zero_add]
    · rw [ENNReal.ofReal_add (by split_ifs <;> linarith) (by split_ifs <;> linarith), add_comm]
      congr 1
      · simp only [Set.indicator, Nat.cast_zero, Dist.ll, Leaves.bernoulliLL]
        split_ifs with h <;> simp_all [expL_logL]
      · simp only [Set.indicator, zero_add, Nat.cast_one, Dist.ll, Leaves.bernoulliLL]
        split_ifs with h <;> simp_all [expL_logL]
    · intro k _
      have a1 : ((k + 1 + 1 : ℕ) : ℝ) ≠ 1 := by exact_mod_cast (by omega : k + 1 + 1 ≠ 1)
      have a0 : ((k + 1 + 1 : ℕ) : ℝ) ≠ 0 := by exact_mod_cast (by omega : k + 1 + 1 ≠ 0)
      simp only [Set.indicator, Dist.ll, Leaves.bernoulliLL, a1, a0, if_false]
      simp
  · rw [e]; split_ifs <;> linarith
  · rw [e]; split_ifs <;> linarith

theorem cat_box {K : ℕ} {l : ℕ → LogV} (hl : ∃ k < K, l k ≠ ⊥) {N : ℕ} (hN : K ≤ N) (lo hi : Bnd) :
    Dist.P (Leaves.countBelow N) (.cat K l) lo hi = ENNReal.ofReal (catProb K l lo hi) ∧ 0 ≤ catProb K l lo hi ∧
      catProb K l lo hi ≤ 1 := by
  classical
  have mk : ∀ k, k < K → ((k : ℝ) ∈ boxSet lo hi ↔
      lo.elim 0 ceilE ≤ (((k : ℝ)) : EReal) ∧
      (((k : ℝ)) : EReal) ≤ hi.elim ((((K : ℝ) - 1 : ℝ)) : EReal) floorE) := by
    intro k hk
    have c0 : (0 : EReal) ≤ (((k : ℝ)) : EReal) := by exact_mod_cast Nat.cast_nonneg k
    have c1 : (((k : ℝ)) : EReal) ≤ ((((K : ℝ) - 1 : ℝ)) : EReal) := by
      rw [EReal.coe_le_coe_iff, le_sub_iff_add_le]; exact_mod_cast hk
    have f1 := fun a => ceilE_le a k
    have f2 := fun b => le_floorE b k
    simp only [Int.cast_natCast] at f1 f2
    unfold boxSet
    simp only [Set.mem_ofPred_eq]
    refine and_congr ?_ ?_
    · cases lo with
      | none => exact ⟨fun _ => c0, fun _ => bot_le⟩
      | some a => exact (f1 a).symm
    · cases hi with
      | none => exact ⟨fun _ => c1, fun _ => le_top⟩
      | some b => exact (f2 b).symm
  have e : catProb K l lo hi = ∑ k ∈ Finset.range K, if (k : ℝ) ∈ boxSet lo hi then softmax K l k else 0 := by
    unfold catProb
    refine Finset.sum_congr rfl fun k hk => ?_
    simp only [mk k (Finset.mem_range.1 hk), mul_ite, mul_one, mul_zero]
  have hnn : ∀ k : ℕ, 0 ≤ (if (k : ℝ) ∈ boxSet lo hi then softmax K l k else 0) := fun k => by
    split_ifs
    · exact softmax_nonneg _ _ _
    · exact le_rfl
  refine ⟨?_, ?_, ?_⟩
  · rw [e, Dist.P, lint_count_box, ENNReal.ofReal_sum_of_nonneg fun k _ => hnn k]
    rw [← Finset.sum_subset (Finset.range_mono hN)]
    · refine Finset.sum_congr rfl fun k hk => ?_
      simp only [Set.indicator, Dist.ll]
      rw [Leaves.categoricalLL_nat l (Finset.mem_range.1 hk), expL_logSoftmax_eq_softmax]
      split_ifs <;> simp
    · intro k _ hk
      have : ¬ ∃ j : ℕ, j < K ∧ (k : ℝ) = j := by
        rintro ⟨j, hj, h⟩
        rw [Nat.cast_inj] at h
        simp at hk; omega
      simp only [Set.indicator, Dist.ll, Leaves.categoricalLL, dif_neg this]
      simp
  · rw [e]; exact Finset.sum_nonneg fun k _ => hnn k
  · rw [e, ← sum_softmax hl]
    refine Finset.sum_le_sum fun k _ => ?_
    split_ifs
    · exact le_rfl
    · exact softmax_nonneg _ _ _

theorem unif_box {a b : ℝ} (hab : a < b) (lo hi : Bnd) :
    Dist.P volume (.unif a b) lo hi = ENNReal.ofReal (unifProb a b lo hi) ∧ 0 ≤ unifProb a b lo hi ∧
      unifProb a b lo hi ≤ 1 := by
  have hba : 0 < b - a := sub_pos.2 hab
  -- effective bounds as extended reals
  have hE : ∃ x y : EReal, (x = lo.elim (a : EReal) fun x => max x a) ∧
      (y = hi.elim (b : EReal) fun y => min y b) ∧ (a : EReal) ≤ x ∧ y ≤ b ∧
      (boxSet lo hi ∩ Icc a b = {t : ℝ | x ≤ (t : EReal) ∧ (t : EReal) ≤ y}) := by
    refine ⟨_, _, rfl, rfl, ?_, ?_, ?_⟩
    · cases lo <;> simp
    · cases hi <;> simp
    · ext t
      unfold boxSet
      cases lo <;> cases hi <;> simp <;> tauto
  obtain ⟨x, y, hx, hy, hax, hyb, hset⟩ := hE
  have hu : unifProb a b lo hi = (max (y - x) 0).toReal / (b - a) := by
    unfold unifProb; rw [hx, hy]
  have hP : Dist.P volume (.unif a b) lo hi = ENNReal.ofReal (b - a)⁻¹ * volume {t : ℝ | x ≤ (t : EReal) ∧ (t : EReal) ≤ y} := by
    rw [← hset, Dist.P]
    have : (fun t => ENNReal.ofReal (expL ((Dist.unif a b).ll t))) =
        Set.indicator (Set.Ico a b) fun _ => ENNReal.ofReal (b - a)⁻¹ := by
      funext t
      simp only [Dist.ll, Leaves.uniformLL, Set.indicator, Set.mem_Ico]
      split_ifs
      · rw [expL_coe, Real.exp_neg, Real.exp_log hba]
      · simp
    rw [this, lintegral_indicator measurableSet_Ico, lintegral_const, Measure.restrict_restrict measurableSet_Ico,
      Measure.restrict_apply_univ, Set.inter_comm]
    congr 1
    exact measure_congr ((ae_eq_refl _).inter Ico_ae_eq_Icc)
  have key : volume {t : ℝ | x ≤ (t : EReal) ∧ (t : EReal) ≤ y} = ENNReal.ofReal (max (y - x) 0).toReal ∧
      0 ≤ (max (y - x) 0).toReal ∧ (max (y - x) 0).toReal ≤ b - a := by
    induction x with
    | bot => simp at hax
    | top =>
      have : {t : ℝ | (⊤ : EReal) ≤ t ∧ (t : EReal) ≤ y} = ∅ := by ext t; simp
      rw [this]
      have h2 : y - (⊤ : EReal) = ⊥ := by
        induction y with
        | bot => rfl
        | top => simp at hyb
        | coe y => rfl
      simp [h2, hba.le]
    | coe x =>
      induction y with
      | bot =>
        have : {t : ℝ | (x : EReal) ≤ t ∧ (t : EReal) ≤ ⊥} = ∅ := by ext t; simp
        rw [this]
        simp [hba.le]
      | top => simp at hyb
      | coe y =>
        rw [EReal.coe_le_coe_iff] at hax hyb
        have h2 : (max ((y : EReal) - x) 0).toReal = max (y - x) 0 := by
          rw [← EReal.coe_sub, ← EReal.coe_zero, ← EReal.coe_strictMono.monotone.map_max, EReal.toReal_coe]
        rw [h2]
        simp only [EReal.coe_le_coe_iff]
        refine ⟨?_, le_max_right _ _, max_le (by linarith) hba.le⟩
        have : {t : ℝ | x ≤ t ∧ t ≤ y} = Icc x y := rfl
        rw [this, Real.volume_Icc]
        rcases le_total (y - x) 0 with h | h
        · rw [max_eq_right h, ENNReal.ofReal_of_nonpos h]; simp
        · rw [max_eq_left h]
  refine ⟨?_, ?_, ?_⟩
  · rw [hP, key.1, hu, ← ENNReal.ofReal_mul (inv_nonneg.2 hba.le), inv_mul_eq_div]
  · rw [hu]; exact div_nonneg key.2.1 hba.le
  · rw [hu]; exact (div_le_one hba).2 key.2.2

/-! ### Normalisation of the further families -/

theorem boxSet_none : boxSet none none = Set.univ := by ext t; simp [boxSet]

theorem laplace_normalised (m : ℝ) {s : ℝ} (hs : 0 < s) : ∫⁻ t, ENNReal.ofReal (expL (laplaceLL m s t)) = 1 := by
  have hb := lint_box (GE := laplaceCdf m s) (laplace_deriv m hs) (fun x => expL_nonneg _) (laplace_bot m hs)
    (laplace_top m hs) (by show (1 / 2 - 1 / 2 * (-1) * (-1) : ℝ) = 0; norm_num)
    (by show (1 / 2 - 1 / 2 * 1 * (-1) : ℝ) = 1; norm_num) (fun x => rfl) none none
  rw [boxSet_none, Measure.restrict_univ] at hb
  rw [hb]
  show ENNReal.ofReal ((1 / 2 - 1 / 2 * 1 * (-1)) - (1 / 2 - 1 / 2 * (-1) * (-1))) = 1
  norm_num

theorem nonneg_total {g : ℝ → ℝ} (h0 : ∀ x, x < 0 → g x = 0) {y : ENNReal}
    (h : ∫⁻ t in {t : ℝ | 0 ≤ t}, ENNReal.ofReal (g t) = y) : ∫⁻ t, ENNReal.ofReal (g t) = y := by
  have hm : MeasurableSet {t : ℝ | 0 ≤ t} := measurableSet_Ici
  rw [← lintegral_add_compl _ hm, h]
  have : ∫⁻ t in {t : ℝ | 0 ≤ t}ᶜ, ENNReal.ofReal (g t) = 0 := by
    rw [setLIntegral_congr_fun (g := fun _ => 0) hm.compl]
    · simp
    · intro x hx
      have hx : ¬ 0 ≤ x := hx
      simp [h0 x (not_le.1 hx)]
  rw [this, add_zero]

theorem expo_normalised {r : ℝ} (hr : 0 < r) : ∫⁻ t, ENNReal.ofReal (expL (expoLL r t)) = 1 := by
  have hb := lint_box_nonneg (G := fun x => 1 - Real.exp (-r * x)) (g := fun x => expL (expoLL r x))
    ((expo_facts hr).1 0).continuousAt.continuousWithinAt
    (fun x hx => by rw [expL_expoLL hr hx.le]; exact (expo_facts hr).1 x) (fun x _ => expL_nonneg _) (expo_facts hr).2 le_rfl
  refine nonneg_total (fun x hx => by simp [expoLL, not_le.2 hx]) (hb.1.trans ?_)
  simp

theorem logNormal_normalised (m : ℝ) {s : ℝ} (hs : 0 < s) : ∫⁻ t, ENNReal.ofReal (expL (logNormalLL m s t)) = 1 := by
  have hf := logNormal_facts m hs
  have hb := lint_box_nonneg (G := lnG m s) (g := fun x => expL (logNormalLL m s x))
      hf.1 hf.2.1 (fun x _ => expL_nonneg _) hf.2.2 le_rfl
  refine nonneg_total (fun x hx => by simp [logNormalLL, not_lt.2 hx.le]) (hb.1.trans ?_)
  simp [lnG]

theorem gamma_normalised {a b : ℝ} (ha : 0 < a) (h0 : 0 < b) : ∫⁻ t, ENNReal.ofReal (expL (gammaLL a b t)) = 1 := by
  have hf := gamma_facts ha h0
  have hb := lint_box_nonneg (G := fun x => gammainc a (b * x)) (g := fun x => expL (gammaLL a b x))
      hf.1 hf.2.1 (fun x _ => expL_nonneg _) hf.2.2 le_rfl
  refine nonneg_total (fun x hx => by simp [gammaLL, not_lt.2 hx.le, hx.ne]) (hb.1.trans ?_)
  simp [gammainc]

theorem finish {g : ℝ → ℝ} {lo hi : Bnd} {D v : ℝ}
    (h : ∫⁻ t in boxSet lo hi, ENNReal.ofReal (g t) = ENNReal.ofReal D) (h1 : ∫⁻ t, ENNReal.ofReal (g t) = 1)
    (hv : v = clampP D) :
    ∃ P : ℝ, ∫⁻ t in boxSet lo hi, ENNReal.ofReal (g t) = ENNReal.ofReal P ∧ 0 ≤ P ∧ P ≤ 1 ∧ (v = P ∨ v = clampP P) := by
  refine ⟨max D 0, ?_, le_max_right _ _, ?_, .inr ?_⟩
  · rw [h]
    rcases le_total D 0 with hD | hD
    · rw [max_eq_right hD, ENNReal.ofReal_of_nonpos hD]; simp
    · rw [max_eq_left hD]
  · have : ENNReal.ofReal D ≤ 1 := by
      rw [← h, ← h1]; exact setLIntegral_le_lintegral _ _
    refine max_le ?_ zero_le_one
    simpa using this
  · rw [hv]; unfold clampP
    rw [max_assoc, max_eq_right (a := (0:ℝ))]
    positivity

theorem nonneg_finish {G g : ℝ → ℝ} {L : ℝ} {cdf : EReal → Except Exc ℝ}
    (hb : ∀ a, 0 ≤ a → (∫⁻ t in {t : ℝ | a ≤ t}, ENNReal.ofReal (g t) = ENNReal.ofReal (L - G a)) ∧ G a ≤ L ∧
      (∀ b, 0 ≤ b → ∫⁻ t in {t : ℝ | a ≤ t ∧ t ≤ b}, ENNReal.ofReal (g t) = ENNReal.ofReal (G b - G a)))
    (h1 : ∫⁻ t, ENNReal.ofReal (g t) = 1)
    (hcdf : ∀ x y, cdf x = .ok y → (∃ a : ℝ, x = a ∧ 0 ≤ a ∧ y = G a) ∨ (x = ⊤ ∧ y = L))
    {lo hi : Bnd} {v : ℝ} (h : clampP <$> cdfProb cdf lo hi = .ok v) :
    ∃ P : ℝ, ∫⁻ t in boxSet lo hi, ENNReal.ofReal (g t) = ENNReal.ofReal P ∧ 0 ≤ P ∧ P ≤ 1 ∧ (v = P ∨ v = clampP P) := by
  unfold cdfProb at h
  cases e1 : cdf (hi.getD ⊤) with
  | error e => rw [e1] at h; cases h
  | ok y =>
    cases e2 : cdf (lo.getD ⊥) with
    | error e => rw [e1, e2] at h; cases h
    | ok x =>
      rw [e1, e2] at h
      have h : Except.ok (ε := Exc) (clampP (y - x)) = .ok v := h
      cases h
      refine finish (D := y - x) ?_ h1 rfl
      unfold boxSet
      rcases hcdf _ _ e2 with ⟨a, ha, ha0, rfl⟩ | ⟨ha, rfl⟩
      · rw [ha]
        rcases hcdf _ _ e1 with ⟨b, hb', hb0, rfl⟩ | ⟨hb', rfl⟩
        · rw [hb']
          simp only [EReal.coe_le_coe_iff]
          exact (hb a ha0).2.2 b hb0
        · rw [hb']
          simp only [EReal.coe_le_coe_iff, le_top, and_true]
          exact (hb a ha0).1
      · rw [ha]
        have : {t : ℝ | (⊤ : EReal) ≤ t ∧ (t : EReal) ≤ hi.getD ⊤} = ∅ := by ext t; simp
        rw [this, ENNReal.ofReal_of_nonpos]
        · simp
        · rcases hcdf _ _ e1 with ⟨b, _, hb0, rfl⟩ | ⟨_, rfl⟩
          · linarith [(hb b hb0).2.1]
          · linarith

/-- Every leaf cell returns the probability of the box, or this probability clamped to at least `1e-40`. -/
theorem leaf_box {μ : Measure ℝ} {d : Dist} (ha : d.Adm μ) {lo hi : Bnd} {v : ℝ} (h : d.box lo hi = .ok v) :
    ∃ P : ℝ, d.P μ lo hi = ENNReal.ofReal P ∧ 0 ≤ P ∧ P ≤ 1 ∧ (v = P ∨ v = clampP P) := by
  cases d with
  | bern p =>
    obtain ⟨h0, h1, K, hK, rfl⟩ := ha
    simp only [Dist.box, Except.ok.injEq] at h
    have := bern_box h0 h1 hK lo hi
    exact ⟨_, this.1, this.2.1, this.2.2, .inr h.symm⟩
  | cat K l =>
    obtain ⟨h0, N, hK, rfl⟩ := ha
    simp only [Dist.box, Except.ok.injEq] at h
    have := cat_box h0 hK lo hi
    exact ⟨_, this.1, this.2.1, this.2.2, .inr h.symm⟩
  | unif a b =>
    obtain ⟨h0, rfl⟩ := ha
    simp only [Dist.box, Except.ok.injEq] at h
    have := unif_box h0 lo hi
    exact ⟨_, this.1, this.2.1, this.2.2, .inl h.symm⟩
  | normal m s =>
    obtain ⟨hs, rfl⟩ := ha
    have hb := lint_box (GE := normalCdf m s) (normal_deriv m hs) (fun x => expL_nonneg _) (normal_bot m hs) (normal_top m hs)
      (by show (1 / 2 * (1 + -1) : ℝ) = 0; norm_num) (by show (1 / 2 * (1 + 1) : ℝ) = 1; norm_num) (fun x => rfl)
    have hm : Dist.box (.normal m s) lo hi = .ok (clampP (normalCdf m s (hi.getD ⊤) - normalCdf m s (lo.getD ⊥))) := rfl
    rw [hm] at h; cases h
    exact finish (hb lo hi) (Leaves.normal_normalised m hs) rfl
  | laplace m s =>
    obtain ⟨hs, rfl⟩ := ha
    have hb := lint_box (GE := laplaceCdf m s) (laplace_deriv m hs) (fun x => expL_nonneg _) (laplace_bot m hs)
      (laplace_top m hs) (by show (1 / 2 - 1 / 2 * (-1) * (-1) : ℝ) = 0; norm_num)
      (by show (1 / 2 - 1 / 2 * 1 * (-1) : ℝ) = 1; norm_num) (fun x => rfl)
    have hm : Dist.box (.laplace m s) lo hi = .ok (clampP (laplaceCdf m s (hi.getD ⊤) - laplaceCdf m s (lo.getD ⊥))) := rfl
    rw [hm] at h; cases h
    exact finish (hb lo hi) (laplace_normalised m hs) rfl
  | expo r =>
    obtain ⟨hr, rfl⟩ := ha
    have hb := fun (a : ℝ) (ha : 0 ≤ a) => lint_box_nonneg (G := fun x => 1 - Real.exp (-r * x)) (g := fun x => expL (expoLL r x))
      ((expo_facts hr).1 0).continuousAt.continuousWithinAt
      (fun x hx => by rw [expL_expoLL hr hx.le]; exact (expo_facts hr).1 x) (fun x _ => expL_nonneg _) (expo_facts hr).2 ha
    have hm : Dist.box (.expo r) lo hi = clampP <$> cdfProb (expoCdf r) lo hi := rfl
    rw [hm] at h
    refine nonneg_finish (G := fun x => 1 - Real.exp (-r * x)) (L := 1) hb (expo_normalised hr) ?_ h
    intro x y hxy
    induction x with
    | bot => cases hxy
    | top =>
      right; refine ⟨rfl, ?_⟩
      change Except.ok (1 - 0) = Except.ok y at hxy
      cases hxy; norm_num
    | coe x =>
      left
      change (if 0 ≤ x then Except.ok (1 - Real.exp (-r * x)) else Except.error Exc.valueError) = Except.ok y at hxy
      by_cases h0 : 0 ≤ x
      · rw [if_pos h0] at hxy; cases hxy; exact ⟨x, rfl, h0, rfl⟩
      · rw [if_neg h0] at hxy; cases hxy
  | logNormal m s =>
    obtain ⟨hs, rfl⟩ := ha
    have hf := logNormal_facts m hs
    have hb := fun (a : ℝ) (ha : 0 ≤ a) => lint_box_nonneg (G := lnG m s) (g := fun x => expL (logNormalLL m s x))
      hf.1 hf.2.1 (fun x _ => expL_nonneg _) hf.2.2 ha
    have hm : Dist.box (.logNormal m s) lo hi = clampP <$> cdfProb (logNormalCdf m s) lo hi := rfl
    rw [hm] at h
    refine nonneg_finish (G := lnG m s) (L := 1) hb (logNormal_normalised m hs) ?_ h
    intro x y hxy
    induction x with
    | bot => cases hxy
    | top =>
      right; refine ⟨rfl, ?_⟩
      change Except.ok (normalCdf m s ⊤) = Except.ok y at hxy
      cases hxy
      show (1 / 2 * (1 + 1) : ℝ) = 1; norm_num
    | coe x =>
      left
      change (if x < 0 then Except.error Exc.valueError else if x = 0 then Except.ok (normalCdf m s ⊥) else
        Except.ok (normalCdf m s ((Real.log x : ℝ) : EReal))) = Except.ok y at hxy
      by_cases h0 : x < 0
      · rw [if_pos h0] at hxy; cases hxy
      · rw [if_neg h0] at hxy
        refine ⟨x, rfl, not_lt.1 h0, ?_⟩
        unfold lnG
        by_cases h1 : x = 0
        · rw [if_pos h1] at hxy ⊢; cases hxy
          show (1 / 2 * (1 + -1) : ℝ) = 0; norm_num
        · rw [if_neg h1] at hxy ⊢; cases hxy; rfl
  | gamma a b =>
    obtain ⟨ha, h0, rfl⟩ := ha
    have hf := gamma_facts ha h0
    have hb := fun (z : ℝ) (hz : 0 ≤ z) => lint_box_nonneg (G := fun x => gammainc a (b * x))
      (g := fun x => expL (gammaLL a b x)) hf.1 hf.2.1 (fun x _ => expL_nonneg _) hf.2.2 hz
    have hm : Dist.box (.gamma a b) lo hi = clampP <$> cdfProb (gammaCdf a b) lo hi := rfl
    rw [hm] at h
    refine nonneg_finish (G := fun x => gammainc a (b * x)) (L := 1) hb (gamma_normalised ha h0) ?_ h
    intro x y hxy
    induction x with
    | bot => cases hxy
    | top =>
      right; refine ⟨rfl, ?_⟩
      change Except.ok (1 : ℝ) = Except.ok y at hxy
      cases hxy; rfl
    | coe x =>
      left
      change (if 0 ≤ x then Except.ok (gammainc a (b * x)) else Except.error Exc.valueError) = Except.ok y at hxy
      by_cases h0 : 0 ≤ x
      · rw [if_pos h0] at hxy; cases hxy; exact ⟨x, rfl, h0, rfl⟩
      · rw [if_neg h0] at hxy; cases hxy
  | noCdf d => cases h

end Interval
end Verif

import Verif.InnerProps
import Mathlib.MeasureTheory.Integral.Bochner.SumMeasure
import Mathlib.Analysis.SpecialFunctions.ImproperIntegrals
import Mathlib.Analysis.SpecialFunctions.Gaussian.GaussianIntegral
import Mathlib.MeasureTheory.Group.Integral
import Mathlib.Analysis.SpecificLimits.Normed
import Mathlib.Analysis.SpecialFunctions.Integrals.Basic
import Mathlib.MeasureTheory.Function.JacobianOneDim
import Mathlib.Data.Nat.Choose.Cast

/-!
# C35: the closed forms of `leaf_inner_product` are the integrals (sums) they stand for
-/

open MeasureTheory

namespace Verif
namespace Inner

/-- Counting measure on the natural numbers inside the reals: the reference measure of a discrete variable. -/
noncomputable def natCount : Measure ℝ := Measure.map (Nat.cast : ℕ → ℝ) Measure.count

theorem natCast_emb : MeasurableEmbedding (Nat.cast : ℕ → ℝ) where
  injective := Nat.cast_injective
  measurable := measurable_from_top
  measurableSet_image' := fun _ _ => (Set.to_countable _).image _ |>.measurableSet

instance : SigmaFinite natCount := natCast_emb.sigmaFinite_map

theorem natCount_integral {g : ℝ → ℝ} {z : ℝ} (h : HasSum (fun n : ℕ => g n) z) :
    Integrable g natCount ∧ ∫ t, g t ∂natCount = z := by
  have hi : Integrable (fun n : ℕ => g n) Measure.count := integrable_count_iff.2 h.summable.norm
  refine ⟨natCast_emb.integrable_map_iff.2 hi, ?_⟩
  unfold natCount
  rw [natCast_emb.integral_map, integral_countable hi]
  simpa using h.tsum_eq

theorem natCount_finite {g : ℝ → ℝ} (K : ℕ) (h : ∀ n : ℕ, K ≤ n → g n = 0) :
    Integrable g natCount ∧ ∫ t, g t ∂natCount = ∑ n ∈ Finset.range K, g n :=
  natCount_integral (hasSum_sum_of_ne_finset_zero fun n hn => h n (by simpa using hn))

/-- Reference measures: counting for discrete variables, Lebesgue for continuous ones. -/
noncomputable def refMeasure (disc : Var → Bool) (v : Var) : Measure ℝ := if disc v then natCount else volume

instance (disc : Var → Bool) (v : Var) : SigmaFinite (refMeasure disc v) := by
  unfold refMeasure; split <;> infer_instance

/-- A set of Laplace scales any two of which are equal or told apart by `torch.isclose`. -/
def Separated (S : Set ℝ) : Prop := ∀ x ∈ S, ∀ y ∈ S, x = y ∨ ¬isClose x y

/-- Admissible leaf parameters: discrete families on discrete variables, continuous ones on continuous variables,
parameters inside the families' domains and not so small that a `clamp_min(1e-30)` becomes active.  Laplace scales are
taken from `S` (between scales that are close but different the code interpolates). -/
def Admissible (disc : Var → Bool) (S : Set ℝ) (v : Var) : LeafPar → Prop
  | .bern _ => disc v = true
  | .cat _ _ => disc v = true
  | .scat _ _ => disc v = true
  | .geom p => disc v = true ∧ 10 ^ (-30 : ℤ) ≤ p ∧ p ≤ 1
  | .expo rate => disc v = false ∧ 10 ^ (-30 : ℤ) ≤ rate
  | .unif a b => disc v = false ∧ 10 ^ (-30 : ℤ) ≤ b - a
  | .normal _ s => disc v = false ∧ 0 < s
  | .laplace _ s => disc v = false ∧ 10 ^ (-30 : ℤ) ≤ s ∧ s ∈ S
  | .logNormal _ s => disc v = false ∧ 10 ^ (-30 : ℤ) ≤ s
  | .poisson l => disc v = true ∧ 0 ≤ l
  | .gamma a b => disc v = false ∧ 10 ^ (-30 : ℤ) ≤ a ∧ 10 ^ (-30 : ℤ) ≤ b
  | .binom _ p => disc v = true ∧ 10 ^ (-30 : ℤ) ≤ p ∧ 10 ^ (-30 : ℤ) ≤ 1 - p

theorem tiny_pos : (0 : ℝ) < 10 ^ (-30 : ℤ) := by positivity

theorem clampMin_of_le {x : ℝ} (h : 10 ^ (-30 : ℤ) ≤ x) : clampMin x = x := max_eq_left h

theorem dens_cat_nat (K : ℕ) (w : ℕ → ℝ) (n : ℕ) : dens (.cat K w) n = if n < K then w n else 0 := by
  simp only [dens, Nat.floor_natCast]
  by_cases h : n < K
  · rw [if_pos h, if_pos ⟨n, h, rfl⟩]
  · rw [if_neg h, if_neg]
    rintro ⟨k, hk, e⟩
    exact h (by rw [Nat.cast_injective e]; exact hk)

theorem dens_scat (K : ℕ) (w : ℕ → ℝ) : dens (.scat K w) = dens (.cat K w) := rfl

theorem cat_ip (K : ℕ) (w1 w2 : ℕ → ℝ) :
    Integrable (fun t => dens (.cat K w1) t * dens (.cat K w2) t) natCount ∧
      ∫ t, dens (.cat K w1) t * dens (.cat K w2) t ∂natCount = ∑ k ∈ Finset.range K, w1 k * w2 k := by
  have := natCount_finite (g := fun t => dens (.cat K w1) t * dens (.cat K w2) t) K fun n hn => by
    rw [dens_cat_nat, if_neg (by omega), zero_mul]
  refine ⟨this.1, this.2.trans (Finset.sum_congr rfl fun k hk => ?_)⟩
  have hk := Finset.mem_range.1 hk
  rw [dens_cat_nat, dens_cat_nat, if_pos hk, if_pos hk]

theorem bern_ip (p1 p2 : ℝ) :
    Integrable (fun t => dens (.bern p1) t * dens (.bern p2) t) natCount ∧
      ∫ t, dens (.bern p1) t * dens (.bern p2) t ∂natCount = p1 * p2 + (1 - p1) * (1 - p2) := by
  have := natCount_finite (g := fun t => dens (.bern p1) t * dens (.bern p2) t) 2 fun n hn => by
    have h1 : (n : ℝ) ≠ 1 := by exact_mod_cast (by omega : n ≠ 1)
    have h0 : (n : ℝ) ≠ 0 := by exact_mod_cast (by omega : n ≠ 0)
    simp only [dens, h1, h0, if_false, mul_zero]
  refine ⟨this.1, this.2.trans ?_⟩
  simp [Finset.sum_range_succ, dens]
  ring

theorem dens_geom_nat (p : ℝ) (n : ℕ) : dens (.geom p) n = p * (1 - p) ^ n := by
  simp only [dens, Nat.floor_natCast]
  rw [if_pos ⟨n, rfl⟩]

theorem geom_ip {p1 p2 : ℝ} (h1 : 0 < p1) (h1' : p1 ≤ 1) (h2 : 0 < p2) (h2' : p2 ≤ 1) :
    Integrable (fun t => dens (.geom p1) t * dens (.geom p2) t) natCount ∧
      ∫ t, dens (.geom p1) t * dens (.geom p2) t ∂natCount = p1 * p2 / (1 - (1 - p1) * (1 - p2)) := by
  apply natCount_integral
  simp only [dens_geom_nat]
  have hx0 : 0 ≤ (1 - p1) * (1 - p2) := mul_nonneg (by linarith) (by linarith)
  have hx1 : (1 - p1) * (1 - p2) < 1 := by nlinarith
  have := (hasSum_geometric_of_lt_one hx0 hx1).mul_left (p1 * p2)
  rw [← div_eq_mul_inv] at this
  refine this.congr_fun ?_ |> id
  intro n
  rw [mul_pow]; ring

theorem expo_ip {r1 r2 : ℝ} (h1 : 0 < r1) (h2 : 0 < r2) :
    Integrable (fun t => dens (.expo r1) t * dens (.expo r2) t) volume ∧
      ∫ t, dens (.expo r1) t * dens (.expo r2) t = r1 * r2 / (r1 + r2) := by
  have e : (fun t => dens (.expo r1) t * dens (.expo r2) t) =
      (Set.Ici 0).indicator fun t => r1 * r2 * Real.exp (-(r1 + r2) * t) := by
    funext t
    by_cases h : 0 ≤ t
    · rw [Set.indicator_of_mem (Set.mem_Ici.2 h)]
      simp only [dens, if_pos h]
      have : Real.exp (-(r1 + r2) * t) = Real.exp (-(r1 * t)) * Real.exp (-(r2 * t)) := by
        rw [← Real.exp_add]; ring_nf
      rw [this]; ring
    · rw [Set.indicator_of_notMem (by simpa using h)]
      simp only [dens, if_neg h, mul_zero]
  have hneg : -(r1 + r2) < 0 := by linarith
  rw [e]
  constructor
  · rw [integrable_indicator_iff measurableSet_Ici, integrableOn_Ici_iff_integrableOn_Ioi]
    exact (integrableOn_exp_mul_Ioi hneg 0).const_mul _
  · rw [integral_indicator measurableSet_Ici, integral_Ici_eq_integral_Ioi, integral_const_mul,
      integral_exp_mul_Ioi hneg]
    have : r1 + r2 ≠ 0 := by linarith
    rw [mul_zero, Real.exp_zero, neg_div_neg_eq, mul_one_div]

theorem unif_ip {a1 b1 a2 b2 : ℝ} :
    Integrable (fun t => dens (.unif a1 b1) t * dens (.unif a2 b2) t) volume ∧
      ∫ t, dens (.unif a1 b1) t * dens (.unif a2 b2) t =
        max (min b1 b2 - max a1 a2) 0 / ((b1 - a1) * (b2 - a2)) := by
  have e : (fun t => dens (.unif a1 b1) t * dens (.unif a2 b2) t) =
      (Set.Icc (max a1 a2) (min b1 b2)).indicator fun _ => 1 / (b1 - a1) * (1 / (b2 - a2)) := by
    funext t
    by_cases h : t ∈ Set.Icc (max a1 a2) (min b1 b2)
    · rw [Set.indicator_of_mem h]
      simp only [Set.mem_Icc, max_le_iff, le_min_iff] at h
      simp only [dens]
      rw [if_pos ⟨h.1.1, h.2.1⟩, if_pos ⟨h.1.2, h.2.2⟩]
    · rw [Set.indicator_of_notMem h]
      simp only [Set.mem_Icc, max_le_iff, le_min_iff, not_and] at h
      simp only [dens]
      by_cases h1 : a1 ≤ t ∧ t ≤ b1
      · by_cases h2 : a2 ≤ t ∧ t ≤ b2
        · exact absurd h2.2 (h ⟨h1.1, h2.1⟩ h1.2)
        · rw [if_neg h2, mul_zero]
      · rw [if_neg h1, zero_mul]
  rw [e]
  constructor
  · rw [integrable_indicator_iff measurableSet_Icc]
    exact integrableOn_const (by simp) (by finiteness)
  · rw [integral_indicator measurableSet_Icc, setIntegral_const, Real.volume_real_Icc, smul_eq_mul]
    rw [mul_one_div, div_div, mul_div_assoc', mul_one]

theorem normal_ip {m1 s1 m2 s2 : ℝ} (h1 : 0 < s1) (h2 : 0 < s2) :
    Integrable (fun t => dens (.normal m1 s1) t * dens (.normal m2 s2) t) volume ∧
      ∫ t, dens (.normal m1 s1) t * dens (.normal m2 s2) t =
        Real.exp (-(1 / 2) * Real.log (2 * Real.pi * (s1 ^ 2 + s2 ^ 2)) +
          -(m1 - m2) ^ 2 / (2 * (s1 ^ 2 + s2 ^ 2))) := by
  have hpi := Real.pi_pos
  have hs : 0 < s1 ^ 2 + s2 ^ 2 := by positivity
  have e : (fun t => dens (.normal m1 s1) t * dens (.normal m2 s2) t) = fun t =>
      1 / (s1 * s2 * (2 * Real.pi)) * Real.exp (-(m1 - m2) ^ 2 / (2 * (s1 ^ 2 + s2 ^ 2))) *
        Real.exp (-((s1 ^ 2 + s2 ^ 2) / (2 * s1 ^ 2 * s2 ^ 2)) *
          (t - (m1 * s2 ^ 2 + m2 * s1 ^ 2) / (s1 ^ 2 + s2 ^ 2)) ^ 2) := by
    funext t
    simp only [dens]
    rw [mul_assoc (1 / (s1 * s2 * (2 * Real.pi))), ← Real.exp_add, mul_mul_mul_comm, ← Real.exp_add]
    congr 1
    · have : Real.sqrt (2 * Real.pi) * Real.sqrt (2 * Real.pi) = 2 * Real.pi :=
        Real.mul_self_sqrt (by positivity)
      rw [div_mul_div_comm, mul_mul_mul_comm, this]
      ring
    · congr 1
      field_simp
      ring
  have hb : 0 < (s1 ^ 2 + s2 ^ 2) / (2 * s1 ^ 2 * s2 ^ 2) := by positivity
  rw [e]
  constructor
  · apply Integrable.const_mul
    exact (integrable_exp_neg_mul_sq hb).comp_sub_right _
  · rw [integral_const_mul, integral_sub_right_eq_self
      (fun t => Real.exp (-((s1 ^ 2 + s2 ^ 2) / (2 * s1 ^ 2 * s2 ^ 2)) * t ^ 2)), integral_gaussian]
    rw [Real.exp_add, mul_right_comm]
    congr 1
    rw [show -(1 / 2) * Real.log (2 * Real.pi * (s1 ^ 2 + s2 ^ 2)) =
      -(1 / 2 * Real.log (2 * Real.pi * (s1 ^ 2 + s2 ^ 2))) by ring, Real.exp_neg,
      show 1 / 2 * Real.log (2 * Real.pi * (s1 ^ 2 + s2 ^ 2)) = Real.log (Real.sqrt (2 * Real.pi * (s1 ^ 2 + s2 ^ 2))) by
        rw [Real.log_sqrt (by positivity)]; ring, Real.exp_log (by positivity)]
    have e2 : Real.pi / ((s1 ^ 2 + s2 ^ 2) / (2 * s1 ^ 2 * s2 ^ 2)) =
        (s1 * s2 * (2 * Real.pi)) ^ 2 / (2 * Real.pi * (s1 ^ 2 + s2 ^ 2)) := by
      field_simp
    rw [e2, Real.sqrt_div (by positivity), Real.sqrt_sq (by positivity)]
    have : Real.sqrt (2 * Real.pi * (s1 ^ 2 + s2 ^ 2)) ≠ 0 := by positivity
    field_simp

theorem dens_poisson_nat (l : ℝ) (n : ℕ) : dens (.poisson l) n = Real.exp (-l) * l ^ n / (n.factorial : ℝ) := by
  simp only [dens, Nat.floor_natCast]
  rw [if_pos ⟨n, rfl⟩]

theorem poisson_ip {l1 l2 : ℝ} (h1 : 0 ≤ l1) (h2 : 0 ≤ l2) :
    Integrable (fun t => dens (.poisson l1) t * dens (.poisson l2) t) natCount ∧
      ∫ t, dens (.poisson l1) t * dens (.poisson l2) t ∂natCount =
        Real.exp (-(l1 + l2)) * besselI0 (2 * Real.sqrt (l1 * l2)) := by
  apply natCount_integral
  simp only [dens_poisson_nat]
  have hz : (2 * Real.sqrt (l1 * l2)) ^ 2 / 4 = l1 * l2 := by
    rw [mul_pow, Real.sq_sqrt (mul_nonneg h1 h2)]; ring
  have hs : Summable fun k : ℕ => (l1 * l2) ^ k / (k.factorial : ℝ) ^ 2 := by
    refine Summable.of_nonneg_of_le (fun k => by positivity) (fun k => ?_) (Real.summable_pow_div_factorial (l1 * l2))
    apply div_le_div_of_nonneg_left (by positivity) (by positivity)
    have : (1 : ℝ) ≤ k.factorial := by exact_mod_cast Nat.factorial_pos k
    nlinarith
  have := hs.hasSum.mul_left (Real.exp (-(l1 + l2)))
  unfold besselI0
  rw [hz]
  convert! this using 1
  funext n
  rw [neg_add, Real.exp_add, mul_pow]
  field_simp

theorem dens_binom_nat (n : ℕ) (p : ℝ) (k : ℕ) :
    dens (.binom n p) k = if k ≤ n then (n.choose k : ℝ) * p ^ k * (1 - p) ^ (n - k) else 0 := by
  simp only [dens, Nat.floor_natCast]
  by_cases h : k ≤ n
  · rw [if_pos h, if_pos ⟨k, h, rfl⟩]
  · rw [if_neg h, if_neg]
    rintro ⟨j, hj, e⟩
    exact h (by rw [Nat.cast_injective e]; exact hj)

theorem exp_binomLogpmf {k n : ℕ} (h : k ≤ n) {p : ℝ} (h1 : 10 ^ (-30 : ℤ) ≤ p) (h2 : 10 ^ (-30 : ℤ) ≤ 1 - p) :
    Real.exp (binomLogpmf k n p) = (n.choose k : ℝ) * p ^ k * (1 - p) ^ (n - k) := by
  have p0 := tiny_pos.trans_le h1
  have q0 := tiny_pos.trans_le h2
  unfold binomLogpmf lgamma
  rw [clampMin_of_le h1, clampMin_of_le h2, ← Nat.cast_sub h, Real.Gamma_nat_eq_factorial, Real.Gamma_nat_eq_factorial,
    Real.Gamma_nat_eq_factorial, ← Real.log_div (by positivity) (by positivity),
    ← Real.log_div (by positivity) (by positivity), ← Real.log_pow, ← Real.log_pow,
    ← Real.log_mul (by positivity) (by positivity), ← Real.log_mul (by positivity) (by positivity),
    Real.exp_log (by positivity), Nat.cast_choose ℝ h, div_div]

theorem binom_ip {n1 n2 : ℕ} {p1 p2 : ℝ} (h1 : 10 ^ (-30 : ℤ) ≤ p1) (h1' : 10 ^ (-30 : ℤ) ≤ 1 - p1)
    (h2 : 10 ^ (-30 : ℤ) ≤ p2) (h2' : 10 ^ (-30 : ℤ) ≤ 1 - p2) :
    Integrable (fun t => dens (.binom n1 p1) t * dens (.binom n2 p2) t) natCount ∧
      ∫ t, dens (.binom n1 p1) t * dens (.binom n2 p2) t ∂natCount =
        ∑ k ∈ Finset.range (max n1 n2 + 1),
          if k ≤ n1 ∧ k ≤ n2 then Real.exp (binomLogpmf k n1 p1 + binomLogpmf k n2 p2) else 0 := by
  have := natCount_finite (g := fun t => dens (.binom n1 p1) t * dens (.binom n2 p2) t) (max n1 n2 + 1) fun n hn => by
    have : n1 < n := by have := le_max_left n1 n2; omega
    rw [dens_binom_nat, if_neg (by omega), zero_mul]
  refine ⟨this.1, this.2.trans (Finset.sum_congr rfl fun k _ => ?_)⟩
  rw [dens_binom_nat, dens_binom_nat]
  by_cases a : k ≤ n1
  · by_cases b : k ≤ n2
    · rw [if_pos a, if_pos b, if_pos ⟨a, b⟩, Real.exp_add, exp_binomLogpmf a h1 h1', exp_binomLogpmf b h2 h2']
    · rw [if_neg b, mul_zero, if_neg (fun h => b h.2)]
  · rw [if_neg a, zero_mul, if_neg (fun h => a h.1)]

theorem gamma_ip {a1 b1 a2 b2 : ℝ} (h1 : 0 < a1) (h2 : 0 < a2) (k1 : 0 < b1) (k2 : 0 < b2) (hs : 0 < a1 + a2 - 1) :
    Integrable (fun t => dens (.gamma a1 b1) t * dens (.gamma a2 b2) t) volume ∧
      ∫ t, dens (.gamma a1 b1) t * dens (.gamma a2 b2) t =
        Real.exp (a1 * Real.log b1 + a2 * Real.log b2 + lgamma (a1 + a2 - 1) - lgamma a1 - lgamma a2 -
          (a1 + a2 - 1) * Real.log (b1 + b2)) := by
  have g1 := Real.Gamma_pos_of_pos h1
  have g2 := Real.Gamma_pos_of_pos h2
  have g3 := Real.Gamma_pos_of_pos hs
  have hb : 0 < b1 + b2 := by linarith
  have e : (fun t => dens (.gamma a1 b1) t * dens (.gamma a2 b2) t) =
      (Set.Ioi 0).indicator fun t => b1 ^ a1 / Real.Gamma a1 * (b2 ^ a2 / Real.Gamma a2) *
        (t ^ (a1 + a2 - 1 - 1) * Real.exp (-((b1 + b2) * t))) := by
    funext t
    by_cases h : 0 < t
    · rw [Set.indicator_of_mem (Set.mem_Ioi.2 h)]
      simp only [dens, if_pos h]
      have e1 : t ^ (a1 + a2 - 1 - 1) = t ^ (a1 - 1) * t ^ (a2 - 1) := by
        rw [← Real.rpow_add h]; ring_nf
      have e2 : Real.exp (-((b1 + b2) * t)) = Real.exp (-(b1 * t)) * Real.exp (-(b2 * t)) := by
        rw [← Real.exp_add]; ring_nf
      rw [e1, e2]; ring
    · rw [Set.indicator_of_notMem (by simpa using h)]
      simp only [dens, if_neg h, mul_zero]
  rw [e]
  constructor
  · rw [integrable_indicator_iff measurableSet_Ioi]
    apply Integrable.const_mul
    have := integrableOn_rpow_mul_exp_neg_mul_rpow (p := 1) (s := a1 + a2 - 1 - 1) (b := b1 + b2) (by linarith)
      one_pos hb
    simp only [Real.rpow_one] at this
    refine this.congr_fun (fun t _ => ?_) measurableSet_Ioi
    dsimp only
    rw [neg_mul]
  · rw [integral_indicator measurableSet_Ioi, integral_const_mul, Real.integral_rpow_mul_exp_neg_mul_Ioi hs hb]
    unfold lgamma
    rw [Real.exp_sub, Real.exp_sub, Real.exp_sub, Real.exp_add, Real.exp_add, Real.exp_log g1, Real.exp_log g2,
      Real.exp_log g3, mul_comm a1, mul_comm a2, mul_comm (a1 + a2 - 1), ← Real.rpow_def_of_pos k1,
      ← Real.rpow_def_of_pos k2, ← Real.rpow_def_of_pos hb, one_div, Real.inv_rpow hb.le]
    have : (b1 + b2) ^ (a1 + a2 - 1) ≠ 0 := (Real.rpow_pos_of_pos hb _).ne'
    field_simp

theorem logNormal_ip {m1 s1 m2 s2 : ℝ} (h1 : 0 < s1) (h2 : 0 < s2) :
    Integrable (fun t => dens (.logNormal m1 s1) t * dens (.logNormal m2 s2) t) volume ∧
      ∫ t, dens (.logNormal m1 s1) t * dens (.logNormal m2 s2) t =
        Real.exp (-(1 / 2) * Real.log (2 * Real.pi * (s1 ^ 2 + s2 ^ 2)) +
          -(1 / 2) * (1 / s1 ^ 2 * m1 ^ 2 + 1 / s2 ^ 2 * m2 ^ 2) +
          ((1 / s1 ^ 2 * m1 + 1 / s2 ^ 2 * m2) - 1) ^ 2 / (2 * (1 / s1 ^ 2 + 1 / s2 ^ 2))) := by
  have hpi := Real.pi_pos
  have hs : 0 < s1 ^ 2 + s2 ^ 2 := by positivity
  let g : ℝ → ℝ := fun t => 1 / (t * s1 * Real.sqrt (2 * Real.pi)) * Real.exp (-(Real.log t - m1) ^ 2 / (2 * s1 ^ 2)) *
    (1 / (t * s2 * Real.sqrt (2 * Real.pi)) * Real.exp (-(Real.log t - m2) ^ 2 / (2 * s2 ^ 2)))
  have e : (fun t => dens (.logNormal m1 s1) t * dens (.logNormal m2 s2) t) = (Set.Ioi 0).indicator g := by
    funext t
    by_cases h : 0 < t
    · rw [Set.indicator_of_mem (Set.mem_Ioi.2 h)]
      simp only [dens, if_pos h, g]
    · rw [Set.indicator_of_notMem (by simpa using h)]
      simp only [dens, if_neg h, mul_zero]
  have him : Real.exp '' Set.univ = Set.Ioi 0 := by rw [Set.image_univ, Real.range_exp]
  have hder : ∀ x ∈ Set.univ, HasDerivWithinAt Real.exp (Real.exp x) Set.univ x :=
    fun x _ => (Real.hasDerivAt_exp x).hasDerivWithinAt
  have hinj : Set.InjOn Real.exp Set.univ := Real.exp_injective.injOn
  -- complete the square in `u = log t`
  have e2 : (fun u => |Real.exp u| • g (Real.exp u)) = fun u =>
      1 / (s1 * s2 * (2 * Real.pi)) * Real.exp (-(1 / 2) * (1 / s1 ^ 2 * m1 ^ 2 + 1 / s2 ^ 2 * m2 ^ 2) +
          ((1 / s1 ^ 2 * m1 + 1 / s2 ^ 2 * m2) - 1) ^ 2 / (2 * (1 / s1 ^ 2 + 1 / s2 ^ 2))) *
        Real.exp (-((s1 ^ 2 + s2 ^ 2) / (2 * s1 ^ 2 * s2 ^ 2)) *
          (u - ((1 / s1 ^ 2 * m1 + 1 / s2 ^ 2 * m2) - 1) / (1 / s1 ^ 2 + 1 / s2 ^ 2)) ^ 2) := by
    funext u
    have hq : Real.sqrt (2 * Real.pi) * Real.sqrt (2 * Real.pi) = 2 * Real.pi :=
      Real.mul_self_sqrt (by positivity)
    have hE : Real.exp u * (1 / (Real.exp u * s1 * Real.sqrt (2 * Real.pi)) *
        (1 / (Real.exp u * s2 * Real.sqrt (2 * Real.pi)))) = 1 / (s1 * s2 * (2 * Real.pi)) * Real.exp (-u) := by
      have h3 : 0 < Real.sqrt (2 * Real.pi) := by positivity
      have h4 := Real.exp_pos u
      rw [Real.exp_neg]
      clear_value g
      generalize Real.sqrt (2 * Real.pi) = q at *
      rw [← hq]
      field_simp
    simp only [g, smul_eq_mul, abs_of_pos (Real.exp_pos u), Real.log_exp]
    rw [mul_mul_mul_comm, ← mul_assoc, hE, ← Real.exp_add, mul_assoc (1 / (s1 * s2 * (2 * Real.pi))), ← Real.exp_add,
      mul_assoc (1 / (s1 * s2 * (2 * Real.pi))), ← Real.exp_add]
    congr 2
    field_simp
    ring
  have hb : 0 < (s1 ^ 2 + s2 ^ 2) / (2 * s1 ^ 2 * s2 ^ 2) := by positivity
  rw [e]
  constructor
  · rw [integrable_indicator_iff measurableSet_Ioi, ← him,
      integrableOn_image_iff_integrableOn_abs_deriv_smul MeasurableSet.univ hder hinj, e2, integrableOn_univ]
    apply Integrable.const_mul
    exact (integrable_exp_neg_mul_sq hb).comp_sub_right _
  · rw [integral_indicator measurableSet_Ioi, ← him,
      integral_image_eq_integral_abs_deriv_smul MeasurableSet.univ hder hinj, e2, setIntegral_univ, integral_const_mul,
      integral_sub_right_eq_self (fun t => Real.exp (-((s1 ^ 2 + s2 ^ 2) / (2 * s1 ^ 2 * s2 ^ 2)) * t ^ 2)),
      integral_gaussian]
    rw [add_assoc, Real.exp_add (-(1 / 2) * Real.log (2 * Real.pi * (s1 ^ 2 + s2 ^ 2))), mul_right_comm]
    congr 1
    rw [show -(1 / 2) * Real.log (2 * Real.pi * (s1 ^ 2 + s2 ^ 2)) =
      -(1 / 2 * Real.log (2 * Real.pi * (s1 ^ 2 + s2 ^ 2))) by ring, Real.exp_neg,
      show 1 / 2 * Real.log (2 * Real.pi * (s1 ^ 2 + s2 ^ 2)) = Real.log (Real.sqrt (2 * Real.pi * (s1 ^ 2 + s2 ^ 2))) by
        rw [Real.log_sqrt (by positivity)]; ring, Real.exp_log (by positivity)]
    have e2 : Real.pi / ((s1 ^ 2 + s2 ^ 2) / (2 * s1 ^ 2 * s2 ^ 2)) =
        (s1 * s2 * (2 * Real.pi)) ^ 2 / (2 * Real.pi * (s1 ^ 2 + s2 ^ 2)) := by
      field_simp
    rw [e2, Real.sqrt_div (by positivity), Real.sqrt_sq (by positivity)]
    have : Real.sqrt (2 * Real.pi * (s1 ^ 2 + s2 ^ 2)) ≠ 0 := by positivity
    field_simp

theorem integral_exp_interval {c a b : ℝ} (hc : c ≠ 0) (hab : a ≤ b) :
    ∫ t in Set.Ioc a b, Real.exp (c * t) = (Real.exp (c * b) - Real.exp (c * a)) / c := by
  rw [← intervalIntegral.integral_of_le hab, intervalIntegral.integral_comp_mul_left _ hc, integral_exp, smul_eq_mul]
  field_simp

/-- Laplace densities, locations in order. -/
theorem laplace_ip_le {m1 b1 m2 b2 : ℝ} (h1 : 0 < b1) (h2 : 0 < b2) (hm : m1 ≤ m2) :
    Integrable (fun t => dens (.laplace m1 b1) t * dens (.laplace m2 b2) t) volume ∧
      ∫ t, dens (.laplace m1 b1) t * dens (.laplace m2 b2) t =
        (Real.exp (-(m2 - m1) / b1) + Real.exp (-(m2 - m1) / b2)) / (4 * (b1 + b2)) +
          if b1 = b2 then Real.exp (-(m2 - m1) / b1) * (m2 - m1) / (4 * b1 ^ 2)
          else (Real.exp (-(m2 - m1) / b1) - Real.exp (-(m2 - m1) / b2)) / (4 * (b1 - b2)) := by
  set g : ℝ → ℝ := fun t => dens (.laplace m1 b1) t * dens (.laplace m2 b2) t with hg
  have hsum : 0 < b1 + b2 := by linarith
  have hpos : 0 < 1 / b1 + 1 / b2 := by positivity
  have hneg : -(1 / b1 + 1 / b2) < 0 := by linarith
  -- left part
  have eL : ∀ t ∈ Set.Iic m1, g t = 1 / (4 * b1 * b2) * Real.exp (-(m1 / b1 + m2 / b2)) *
      Real.exp ((1 / b1 + 1 / b2) * t) := by
    intro t ht
    have ht : t ≤ m1 := ht
    simp only [hg, dens]
    rw [abs_of_nonpos (by linarith), abs_of_nonpos (by linarith), mul_mul_mul_comm, ← Real.exp_add,
      mul_assoc (1 / (4 * b1 * b2)), ← Real.exp_add]
    congr 1
    · field_simp; ring
    · congr 1; field_simp; ring
  have eR : ∀ t ∈ Set.Ioi m2, g t = 1 / (4 * b1 * b2) * Real.exp (m1 / b1 + m2 / b2) *
      Real.exp (-(1 / b1 + 1 / b2) * t) := by
    intro t ht
    have ht : m2 < t := ht
    simp only [hg, dens]
    rw [abs_of_nonneg (by linarith), abs_of_nonneg (by linarith), mul_mul_mul_comm, ← Real.exp_add,
      mul_assoc (1 / (4 * b1 * b2)), ← Real.exp_add]
    congr 1
    · field_simp; ring
    · congr 1; field_simp; ring
  have eM : ∀ t ∈ Set.Ioc m1 m2, g t = 1 / (4 * b1 * b2) * Real.exp (m1 / b1 - m2 / b2) *
      Real.exp ((1 / b2 - 1 / b1) * t) := by
    intro t ht
    have ht1 : m1 < t := ht.1
    have ht2 : t ≤ m2 := ht.2
    simp only [hg, dens]
    rw [abs_of_nonneg (by linarith), abs_of_nonpos (by linarith), mul_mul_mul_comm, ← Real.exp_add,
      mul_assoc (1 / (4 * b1 * b2)), ← Real.exp_add]
    congr 1
    · field_simp; ring
    · congr 1; field_simp; ring
  have iL : IntegrableOn g (Set.Iic m1) :=
    (integrableOn_congr_fun eL measurableSet_Iic).2 ((integrableOn_exp_mul_Iic hpos m1).const_mul _)
  have iR : IntegrableOn g (Set.Ioi m2) :=
    (integrableOn_congr_fun eR measurableSet_Ioi).2 ((integrableOn_exp_mul_Ioi hneg m2).const_mul _)
  have iM : IntegrableOn g (Set.Ioc m1 m2) := by
    refine (integrableOn_congr_fun eM measurableSet_Ioc).2 (Integrable.const_mul ?_ _)
    exact ((by fun_prop : Continuous fun t : ℝ => Real.exp ((1 / b2 - 1 / b1) * t)).integrableOn_Icc).mono_set
      Set.Ioc_subset_Icc_self
  have hu1 : Set.Iic m1 ∪ Set.Ioc m1 m2 = Set.Iic m2 := Set.Iic_union_Ioc_eq_Iic hm
  have iLM : IntegrableOn g (Set.Iic m2) := hu1 ▸ iL.union iM
  have hu2 : Set.Iic m2 ∪ Set.Ioi m2 = Set.univ := Set.Iic_union_Ioi
  constructor
  · rw [← integrableOn_univ, ← hu2]
    exact iLM.union iR
  · rw [← setIntegral_univ, ← hu2, setIntegral_union (Set.Iic_disjoint_Ioi le_rfl) measurableSet_Ioi iLM iR, ← hu1,
      setIntegral_union (Set.Iic_disjoint_Ioc le_rfl) measurableSet_Ioc iL iM,
      setIntegral_congr_fun measurableSet_Iic eL, setIntegral_congr_fun measurableSet_Ioc eM,
      setIntegral_congr_fun measurableSet_Ioi eR, integral_const_mul, integral_const_mul, integral_const_mul,
      integral_exp_mul_Iic hpos, integral_exp_mul_Ioi hneg]
    have t1 : 1 / (4 * b1 * b2) * Real.exp (-(m1 / b1 + m2 / b2)) *
        (Real.exp ((1 / b1 + 1 / b2) * m1) / (1 / b1 + 1 / b2)) = Real.exp (-(m2 - m1) / b2) / (4 * (b1 + b2)) := by
      have : Real.exp (-(m2 - m1) / b2) =
          Real.exp (-(m1 / b1 + m2 / b2)) * Real.exp ((1 / b1 + 1 / b2) * m1) := by
        rw [← Real.exp_add]; congr 1; field_simp; ring
      rw [this]
      generalize Real.exp (-(m1 / b1 + m2 / b2)) = A
      generalize Real.exp ((1 / b1 + 1 / b2) * m1) = B
      field_simp
      ring
    have t3 : 1 / (4 * b1 * b2) * Real.exp (m1 / b1 + m2 / b2) *
        (-Real.exp (-(1 / b1 + 1 / b2) * m2) / -(1 / b1 + 1 / b2)) = Real.exp (-(m2 - m1) / b1) / (4 * (b1 + b2)) := by
      have : Real.exp (-(m2 - m1) / b1) =
          Real.exp (m1 / b1 + m2 / b2) * Real.exp (-(1 / b1 + 1 / b2) * m2) := by
        rw [← Real.exp_add]; congr 1; field_simp; ring
      rw [this, neg_div_neg_eq]
      generalize Real.exp (m1 / b1 + m2 / b2) = A
      generalize Real.exp (-(1 / b1 + 1 / b2) * m2) = B
      field_simp
      ring
    rw [t1, t3]
    have t2 : 1 / (4 * b1 * b2) * Real.exp (m1 / b1 - m2 / b2) *
        (∫ t in Set.Ioc m1 m2, Real.exp ((1 / b2 - 1 / b1) * t)) =
        if b1 = b2 then Real.exp (-(m2 - m1) / b1) * (m2 - m1) / (4 * b1 ^ 2)
          else (Real.exp (-(m2 - m1) / b1) - Real.exp (-(m2 - m1) / b2)) / (4 * (b1 - b2)) := by
      by_cases hb : b1 = b2
      · rw [if_pos hb]
        subst hb
        simp only [sub_self, zero_mul, Real.exp_zero]
        rw [setIntegral_const, Real.volume_real_Ioc_of_le hm, smul_eq_mul, mul_one]
        have : m1 / b1 - m2 / b1 = -(m2 - m1) / b1 := by ring
        rw [this]
        generalize Real.exp (-(m2 - m1) / b1) = A
        field_simp
      · rw [if_neg hb]
        have hne : b1 - b2 ≠ 0 := sub_ne_zero.2 hb
        have hc : 1 / b2 - 1 / b1 ≠ 0 := by
          rw [div_sub_div _ _ h2.ne' h1.ne']
          apply div_ne_zero _ (by positivity)
          intro h; apply hne; linarith
        rw [integral_exp_interval hc hm]
        have x1 : Real.exp (-(m2 - m1) / b1) =
            Real.exp (m1 / b1 - m2 / b2) * Real.exp ((1 / b2 - 1 / b1) * m2) := by
          rw [← Real.exp_add]; congr 1; field_simp; ring
        have x2 : Real.exp (-(m2 - m1) / b2) =
            Real.exp (m1 / b1 - m2 / b2) * Real.exp ((1 / b2 - 1 / b1) * m1) := by
          rw [← Real.exp_add]; congr 1; field_simp; ring
        rw [x1, x2]
        have hcc : 1 / b2 - 1 / b1 = (b1 - b2) / (b1 * b2) := by field_simp
        generalize Real.exp (m1 / b1 - m2 / b2) = A
        generalize Real.exp ((1 / b2 - 1 / b1) * m2) = B
        generalize Real.exp ((1 / b2 - 1 / b1) * m1) = D
        rw [hcc]
        field_simp
    rw [t2]
    ring

theorem laplace_ip {m1 b1 m2 b2 : ℝ} (h1 : 0 < b1) (h2 : 0 < b2) :
    Integrable (fun t => dens (.laplace m1 b1) t * dens (.laplace m2 b2) t) volume ∧
      ∫ t, dens (.laplace m1 b1) t * dens (.laplace m2 b2) t =
        (Real.exp (-|m1 - m2| / b1) + Real.exp (-|m1 - m2| / b2)) / (4 * (b1 + b2)) +
          if b1 = b2 then Real.exp (-|m1 - m2| / b1) * |m1 - m2| / (4 * b1 ^ 2)
          else (Real.exp (-|m1 - m2| / b1) - Real.exp (-|m1 - m2| / b2)) / (4 * (b1 - b2)) := by
  rcases le_total m1 m2 with h | h
  · rw [abs_sub_comm, abs_of_nonneg (sub_nonneg.2 h)]
    exact laplace_ip_le h1 h2 h
  · rw [abs_of_nonneg (sub_nonneg.2 h)]
    have := laplace_ip_le h2 h1 h
    simp only [mul_comm (dens (.laplace m2 b2) _)] at this
    refine ⟨this.1, this.2.trans ?_⟩
    rw [add_comm b2 b1, add_comm (Real.exp (-(m1 - m2) / b2))]
    congr 1
    by_cases hb : b1 = b2
    · subst hb; rfl
    · rw [if_neg hb, if_neg (Ne.symm hb), ← neg_sub b1 b2, ← neg_sub (Real.exp (-(m1 - m2) / b1)), mul_neg,
        neg_div_neg_eq]

/-- **C35 (leaves).** Every closed form returned for two admissible cells of the same variable is the integral (sum) of
the product of their densities. -/
theorem C35_leaves (disc : Var → Bool) {S : Set ℝ} (hS : Separated S) :
    LeafIp (refMeasure disc) (Admissible disc S) := by
  intro v a b z ha hb h
  have hd : disc v = true → refMeasure disc v = natCount := fun h => by simp [refMeasure, h]
  have hc : disc v = false → refMeasure disc v = volume := fun h => by simp [refMeasure, h]
  cases a <;> cases b <;> simp only [ipPar, reduceCtorEq] at h
  case bern.bern => cases h; rw [hd ha]; exact bern_ip _ _
  case cat.cat => split_ifs at h with hk; simp only [not_not] at hk; subst hk; cases h; rw [hd ha]; exact cat_ip _ _ _
  case cat.scat => split_ifs at h with hk; simp only [not_not] at hk; subst hk; cases h; rw [hd ha]; exact cat_ip _ _ _
  case scat.cat => split_ifs at h with hk; simp only [not_not] at hk; subst hk; cases h; rw [hd ha]; exact cat_ip _ _ _
  case scat.scat => split_ifs at h with hk; simp only [not_not] at hk; subst hk; cases h; rw [hd ha]; exact cat_ip _ _ _
  case expo.expo r1 r2 =>
    cases h
    rw [hc ha.1, clampMin_of_le (by have := ha.2; have := hb.2; have := tiny_pos; linarith)]
    exact expo_ip (tiny_pos.trans_le ha.2) (tiny_pos.trans_le hb.2)
  case unif.unif =>
    cases h
    rw [hc ha.1, clampMin_of_le ha.2, clampMin_of_le hb.2]
    exact unif_ip
  case geom.geom p1 p2 =>
    cases h
    have h1 := tiny_pos.trans_le ha.2.1
    have h2 := tiny_pos.trans_le hb.2.1
    rw [hd ha.1, max_eq_left h1.le, max_eq_left h2.le, min_eq_left ha.2.2, min_eq_left hb.2.2, clampMin_of_le]
    · exact geom_ip h1 ha.2.2 h2 hb.2.2
    · have := ha.2.1
      have := hb.2.2
      nlinarith [ha.2.2]
  case normal.normal =>
    cases h
    rw [hc ha.1]
    exact normal_ip ha.2 hb.2
  case laplace.laplace m1 b1 m2 b2 =>
    cases h
    have := laplace_ip (m1 := m1) (m2 := m2) (tiny_pos.trans_le ha.2.1) (tiny_pos.trans_le hb.2.1)
    simp only [hc ha.1, clampMin_of_le ha.2.1, clampMin_of_le hb.2.1]
    refine ⟨this.1, this.2.trans ?_⟩
    by_cases e : b1 = b2
    · rw [if_pos e, if_pos]
      subst e
      unfold isClose
      rw [sub_self, abs_zero]
      positivity
    · have hn : ¬isClose (clampMin b1) (clampMin b2) := by
        rw [clampMin_of_le ha.2.1, clampMin_of_le hb.2.1]
        exact (hS _ ha.2.2 _ hb.2.2).resolve_left e
      rw [if_neg e, if_neg hn]
  case logNormal.logNormal =>
    cases h
    simp only [hc ha.1, clampMin_of_le ha.2, clampMin_of_le hb.2]
    exact logNormal_ip (tiny_pos.trans_le ha.2) (tiny_pos.trans_le hb.2)
  case poisson.poisson l1 l2 =>
    cases h
    rw [hd ha.1, max_eq_left ha.2, max_eq_left hb.2, max_eq_left (mul_nonneg ha.2 hb.2)]
    exact poisson_ip ha.2 hb.2
  case gamma.gamma =>
    simp only [clampMin_of_le ha.2.1, clampMin_of_le hb.2.1, clampMin_of_le ha.2.2, clampMin_of_le hb.2.2] at h
    split_ifs at h with h0
    cases h
    rw [hc ha.1]
    exact gamma_ip (tiny_pos.trans_le ha.2.1) (tiny_pos.trans_le hb.2.1) (tiny_pos.trans_le ha.2.2)
      (tiny_pos.trans_le hb.2.2) (not_le.1 h0)
  case binom.binom =>
    cases h
    rw [hd ha.1]
    exact binom_ip ha.2.1 ha.2.2 hb.2.1 hb.2.2

end Inner
end Verif

import Verif.Pwl
import Mathlib.Analysis.SpecialFunctions.Integrals.Basic
import Mathlib.MeasureTheory.Integral.IntervalIntegral.Basic
import Mathlib.Tactic.Linarith
import Mathlib.Tactic.Positivity
import Mathlib.Tactic.FieldSimp
import Mathlib.Tactic.NormNum
import Mathlib.Tactic.Ring

/-!
# C72: the density of a piecewise linear curve
-/

namespace Verif.Pwl

open Finset MeasureTheory

/-- A curve as the leaf builds it: at least two points, increasing positions, non-negative heights, 0 at both ends. -/
structure Good (c : Curve) : Prop where
  len : 2 ≤ c.len
  mono : ∀ j, j + 1 < c.len → c.x j < c.x (j + 1)
  nonneg : ∀ j < c.len, 0 ≤ c.y j
  first : c.y 0 = 0
  last : c.y (c.len - 1) = 0

namespace Good

variable {c : Curve} (h : Good c)
include h

theorem lt {i j : ℕ} (hij : i < j) (hj : j < c.len) : c.x i < c.x j := by
  induction j, hij using Nat.le_induction with
  | base => exact h.mono i hj
  | succ j hj' ih => exact (ih (by omega)).trans (h.mono j hj)

theorem le {i j : ℕ} (hij : i ≤ j) (hj : j < c.len) : c.x i ≤ c.x j := by
  rcases hij.eq_or_lt with rfl | h'
  · exact le_rfl
  · exact (h.lt h' hj).le

theorem search_mid {i : ℕ} (hi : i + 1 < c.len) {q : ℝ} (h0 : c.x i < q) (h1 : q ≤ c.x (i + 1)) : search c q = i + 1 := by
  classical
  unfold search
  have : (range c.len).filter (fun j => c.x j < q) = range (i + 1) := by
    ext j
    simp only [mem_filter, mem_range]
    constructor
    · rintro ⟨hj, hx⟩
      by_contra hcon
      have := h.le (i := i + 1) (j := j) (by omega) hj
      linarith
    · intro hj
      exact ⟨by omega, (h.le (i := j) (j := i) (by omega) (by omega)).trans_lt h0⟩
  rw [this, card_range]

theorem search_low {q : ℝ} (hq : q ≤ c.x 0) : search c q = 0 := by
  classical
  unfold search
  rw [card_eq_zero, filter_eq_empty_iff]
  intro j hj
  have := h.le (i := 0) (j := j) (by omega) (mem_range.1 hj)
  linarith

theorem search_high {q : ℝ} (hq : c.x (c.len - 1) < q) : search c q = c.len := by
  classical
  unfold search
  have : (range c.len).filter (fun j => c.x j < q) = range c.len := by
    rw [filter_eq_self]
    intro j hj
    have hl := mem_range.1 hj
    exact (h.le (i := j) (j := c.len - 1) (by omega) (by omega)).trans_lt hq
  rw [this, card_range]

theorem dens_low {P : ℕ} {q : ℝ} (hq : q ≤ c.x 0) : dens P c q = 0 := by
  unfold dens
  rw [h.search_low hq]
  simp [slopeTab, offsetTab, h.first]

theorem dens_high {P : ℕ} {q : ℝ} (hq : c.x (c.len - 1) < q) : dens P c q = 0 := by
  unfold dens
  rw [h.search_high hq]
  have hl := h.len
  unfold slopeTab offsetTab
  have h1 : ¬ c.len = 0 := by omega
  have h2 : ¬ c.len - 1 < c.len - 1 := by omega
  by_cases hP : c.len = P
  · simp [hP, h1]
    rw [if_neg (by omega)]
    have := h.last
    rw [hP] at this
    simp [this]
  · simp [h1, hP]

/-- The density on the segment from point `i` to point `i + 1`. -/
theorem dens_seg {P : ℕ} (hP : c.len ≤ P) {i : ℕ} (hi : i + 1 < c.len) {q : ℝ} (h0 : c.x i ≤ q) (h1 : q ≤ c.x (i + 1)) :
    dens P c q = c.y i + (q - c.x i) * ((c.y (i + 1) - c.y i) / (c.x (i + 1) - c.x i)) := by
  have hd : 0 < c.x (i + 1) - c.x i := by linarith [h.mono i hi]
  have hval : ∀ {j : ℕ} (hj : j + 1 < c.len) {q : ℝ}, c.x j < q → q ≤ c.x (j + 1) →
      dens P c q = c.y j + (q - c.x j) * ((c.y (j + 1) - c.y j) / (c.x (j + 1) - c.x j)) := by
    intro j hj q h0 h1
    have hd : 0 < c.x (j + 1) - c.x j := by linarith [h.mono j hj]
    unfold dens
    rw [h.search_mid hj h0 h1]
    have e1 : slopeTab P c (j + 1) = (c.y (j + 1) - c.y j) / (c.x (j + 1) - c.x j) := by
      unfold slopeTab
      rw [if_neg (by omega), Nat.add_sub_cancel, if_pos (by omega)]
    have e2 : offsetTab P c (j + 1) = c.y j - (c.y (j + 1) - c.y j) / (c.x (j + 1) - c.x j) * c.x j := by
      unfold offsetTab
      rw [if_neg (by omega), if_neg (by omega), Nat.add_sub_cancel, if_pos (by omega)]
    rw [e1, e2]
    have hy0 := h.nonneg j (by omega)
    have hy1 := h.nonneg (j + 1) hj
    have : (c.y (j + 1) - c.y j) / (c.x (j + 1) - c.x j) * q
        + (c.y j - (c.y (j + 1) - c.y j) / (c.x (j + 1) - c.x j) * c.x j)
        = c.y j + (q - c.x j) * ((c.y (j + 1) - c.y j) / (c.x (j + 1) - c.x j)) := by ring
    rw [this]
    apply max_eq_left
    have e3 : c.y j + (q - c.x j) * ((c.y (j + 1) - c.y j) / (c.x (j + 1) - c.x j))
        = ((c.x (j + 1) - q) * c.y j + (q - c.x j) * c.y (j + 1)) / (c.x (j + 1) - c.x j) := by
      field_simp
      ring
    rw [e3]
    apply div_nonneg _ hd.le
    have := mul_nonneg (sub_nonneg.2 h1) hy0
    have := mul_nonneg (sub_nonneg.2 h0.le) hy1
    linarith
  rcases h0.eq_or_lt with rfl | h0
  · rcases Nat.eq_zero_or_pos i with rfl | hp
    · rw [h.dens_low le_rfl, h.first]; simp
    · obtain ⟨j, rfl⟩ : ∃ j, i = j + 1 := ⟨i - 1, by omega⟩
      rw [hval (j := j) (by omega) (h.mono j (by omega)) le_rfl]
      have : c.x (j + 1) - c.x j ≠ 0 := by linarith [h.mono j (by omega)]
      field_simp
      ring
  · exact hval hi h0 h1

theorem dens_point {P : ℕ} (hP : c.len ≤ P) {i : ℕ} (hi : i < c.len) : dens P c (c.x i) = c.y i := by
  rcases Nat.eq_zero_or_pos i with rfl | hp
  · rw [h.dens_low le_rfl, h.first]
  · obtain ⟨j, rfl⟩ : ∃ j, i = j + 1 := ⟨i - 1, by omega⟩
    have hm := h.mono j hi
    rw [h.dens_seg hP hi hm.le le_rfl]
    have : c.x (j + 1) - c.x j ≠ 0 := by linarith
    field_simp
    ring

/-- Every position inside is on some segment. -/
theorem exists_seg {q : ℝ} (h0 : c.x 0 ≤ q) (h1 : q ≤ c.x (c.len - 1)) : ∃ i, i + 1 < c.len ∧ c.x i ≤ q ∧ q ≤ c.x (i + 1) := by
  classical
  have hl := h.len
  have hex : ∃ b, q ≤ c.x (b + 1) := ⟨c.len - 2, by rw [show c.len - 2 + 1 = c.len - 1 by omega]; exact h1⟩
  have hlt : Nat.find hex ≤ c.len - 2 :=
    Nat.find_min' hex (m := c.len - 2) (by rw [show c.len - 2 + 1 = c.len - 1 by omega]; exact h1)
  refine ⟨Nat.find hex, by omega, ?_, Nat.find_spec hex⟩
  rcases Nat.eq_zero_or_pos (Nat.find hex) with hz | hp
  · rw [hz]; exact h0
  · have := Nat.find_min hex (m := Nat.find hex - 1) (by omega)
    rw [Nat.sub_add_cancel hp] at this
    exact (not_le.1 this).le

theorem dens_le {P : ℕ} (hP : c.len ≤ P) {M : ℝ} (hM : ∀ j < c.len, c.y j ≤ M) (q : ℝ) : dens P c q ≤ M := by
  have hM0 : 0 ≤ M := by have := hM 0 (by have := h.len; omega); rwa [h.first] at this
  rcases le_or_gt q (c.x 0) with h0 | h0
  · rwa [h.dens_low h0]
  · rcases lt_or_ge (c.x (c.len - 1)) q with h1 | h1
    · rwa [h.dens_high h1]
    · obtain ⟨i, hi, ha, hb⟩ := h.exists_seg h0.le h1
      have hd : 0 < c.x (i + 1) - c.x i := by linarith [h.mono i hi]
      rw [h.dens_seg hP hi ha hb]
      have e3 : c.y i + (q - c.x i) * ((c.y (i + 1) - c.y i) / (c.x (i + 1) - c.x i))
          = ((c.x (i + 1) - q) * c.y i + (q - c.x i) * c.y (i + 1)) / (c.x (i + 1) - c.x i) := by
        field_simp
        ring
      rw [e3, div_le_iff₀ hd]
      have := mul_le_mul_of_nonneg_left (hM i (by omega)) (sub_nonneg.2 hb)
      have := mul_le_mul_of_nonneg_left (hM (i + 1) hi) (sub_nonneg.2 ha)
      nlinarith

theorem integral_seg {P : ℕ} (hP : c.len ≤ P) {i : ℕ} (hi : i + 1 < c.len) :
    IntervalIntegrable (dens P c) volume (c.x i) (c.x (i + 1)) ∧
      ∫ q in c.x i..c.x (i + 1), dens P c q = trap c.x c.y i := by
  have hm := h.mono i hi
  have hd : c.x (i + 1) - c.x i ≠ 0 := by linarith
  set m := (c.y (i + 1) - c.y i) / (c.x (i + 1) - c.x i) with hmdef
  have heq : Set.EqOn (fun q => c.y i + (q - c.x i) * m) (dens P c) (Set.uIcc (c.x i) (c.x (i + 1))) := by
    intro q hq
    rw [Set.uIcc_of_le hm.le] at hq
    exact (h.dens_seg hP hi hq.1 hq.2).symm
  constructor
  · refine IntervalIntegrable.congr_uIoo (f := fun q => c.y i + (q - c.x i) * m) ?_ ?_
    · exact (Continuous.intervalIntegrable (by fun_prop) _ _)
    · intro q hq
      exact heq (Set.uIoo_subset_uIcc_self hq)
  · rw [← intervalIntegral.integral_congr heq]
    have hder : ∀ q ∈ Set.uIcc (c.x i) (c.x (i + 1)),
        HasDerivAt (fun q => c.y i * q + (q - c.x i) ^ 2 / 2 * m) (c.y i + (q - c.x i) * m) q := by
      intro q _
      have h1 := ((hasDerivAt_id q).const_mul (c.y i))
      have h2 := ((((hasDerivAt_id q).sub_const (c.x i)).pow 2).div_const 2).mul_const m
      refine (h1.add h2).congr_deriv ?_
      simp
      try ring
    rw [intervalIntegral.integral_eq_sub_of_hasDerivAt hder (Continuous.intervalIntegrable (by fun_prop) _ _)]
    unfold trap
    rw [hmdef]
    field_simp
    ring

theorem integral_dens {P : ℕ} (hP : c.len ≤ P) :
    IntervalIntegrable (dens P c) volume (c.x 0) (c.x (c.len - 1)) ∧
      ∫ q in c.x 0..c.x (c.len - 1), dens P c q = auc c.len c.x c.y := by
  have hl := h.len
  have hint : ∀ k < c.len - 1, IntervalIntegrable (dens P c) volume (c.x k) (c.x (k + 1)) :=
    fun k hk => (h.integral_seg hP (by omega)).1
  refine ⟨IntervalIntegrable.trans_iterate hint, ?_⟩
  rw [← intervalIntegral.sum_integral_adjacent_intervals hint]
  exact sum_congr rfl fun k hk => (h.integral_seg hP (by have := mem_range.1 hk; omega)).2

omit h in
theorem dens_nonneg {P : ℕ} (q : ℝ) : 0 ≤ dens P c q := le_max_right _ _

theorem lintegral_dens {P : ℕ} (hP : c.len ≤ P) :
    ∫⁻ q, ENNReal.ofReal (dens P c q) = ENNReal.ofReal (auc c.len c.x c.y) := by
  have hl := h.len
  obtain ⟨hi, hv⟩ := h.integral_dens hP
  have hle : c.x 0 ≤ c.x (c.len - 1) := h.le (by omega) (by omega)
  have hsupp : Function.support (fun q => ENNReal.ofReal (dens P c q)) ⊆ Set.Ioc (c.x 0) (c.x (c.len - 1)) := by
    intro q hq
    rw [Function.mem_support] at hq
    constructor
    · by_contra hcon
      exact hq (by rw [h.dens_low (not_lt.1 hcon)]; simp)
    · by_contra hcon
      exact hq (by rw [h.dens_high (not_le.1 hcon)]; simp)
  rw [← setLIntegral_eq_of_support_subset hsupp, ← ofReal_integral_eq_lintegral_ofReal
    ((intervalIntegrable_iff_integrableOn_Ioc_of_le hle).1 hi) (Filter.Eventually.of_forall fun q => dens_nonneg q),
    ← intervalIntegral.integral_of_le hle, hv]

end Good

end Verif.Pwl

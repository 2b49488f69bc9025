import Verif.PwlSample

/-!
# C72: the PiecewiseLinear leaf

The theorems.  `Fits dom data` (PwlFit) is the condition under which one cell can be fitted; `Good c` (PwlProps) is the
shape of a curve.
-/

namespace Verif.Pwl

open Finset MeasureTheory

/-! ## Bin edges -/

/-- **C72 (bin edges).** `get_bin_edges` always returns at least one bin and strictly increasing, equally spaced edges from
the first to the last edge; without a range these enclose every data point; with a proper range the outer edges are that
range; and unless all data points are equal, the bins are no wider than Sturges' rule asks. -/
theorem C72_bin_edges {a : List ℝ} {rb : Option (ℝ × ℝ)} {e : ℝ × ℝ} {n : ℕ} (h : binEdges a rb = .ok (e, n)) :
    1 ≤ n ∧ linspace e n 0 = e.1 ∧ linspace e n n = e.2 ∧ e.1 < e.2 ∧
      (∀ i, linspace e n (i + 1) - linspace e n i = (e.2 - e.1) / n) ∧
      (rb = none → ∀ v ∈ a, e.1 ≤ v ∧ v ≤ e.2) ∧
      (∀ lo hi, rb = some (lo, hi) → lo < hi → e = (lo, hi)) ∧
      (rb = none → minL a < maxL a → (e.2 - e.1) / n ≤ sturgesWidth a) := by
  unfold binEdges at h
  cases he : outerEdges a rb with
  | error x => rw [he] at h; simp [bind, Except.bind] at h
  | ok e' =>
    rw [he] at h
    simp only [bind, Except.bind] at h
    injection h with h
    obtain ⟨rfl, rfl⟩ := Prod.mk.inj h
    obtain ⟨h1, h2, h3, h4⟩ := outer_spec he
    have hn := numBins_pos (clip a rb e') h1
    refine ⟨hn, linspace_zero _ _, linspace_last _ hn, h1, fun i => linspace_step _ _ i, h2, h4, ?_⟩
    intro hrb hlt
    subst hrb
    have hc : clip a none e' = a := by simp [clip]
    have ha : a ≠ [] := by rintro rfl; simp [minL, maxL] at hlt
    have hlen : (1 : ℝ) ≤ a.length := by exact_mod_cast List.length_pos_of_ne_nil ha
    have hlog : 0 ≤ Real.logb 2 a.length := Real.logb_nonneg (by norm_num) hlen
    have hst : 0 < sturgesWidth a := div_pos (sub_pos.2 hlt) (by linarith)
    have hw : 0 < autoWidth a ∧ autoWidth a ≤ sturgesWidth a := by
      unfold autoWidth
      split_ifs with hf
      · exact ⟨lt_min hf hst, min_le_right _ _⟩
      · exact ⟨hst, le_rfl⟩
    have hnum : numBins (clip a none e') e' = ⌈(e'.2 - e'.1) / autoWidth a⌉₊ := by
      rw [hc]
      unfold numBins
      rw [if_neg ha, if_pos hw.1]
    have hge : (e'.2 - e'.1) / autoWidth a ≤ (numBins (clip a none e') e' : ℝ) := by
      rw [hnum]; exact Nat.le_ceil _
    have hnp : (0 : ℝ) < (numBins (clip a none e') e' : ℝ) := by exact_mod_cast hn
    rw [div_le_iff₀ hw.1] at hge
    rw [div_le_iff₀ hnp]
    nlinarith [hw.2]

/-- **C72 (range check).** A range with `max < min` is the only rejected argument. -/
theorem C72_bin_edges_rejects (a : List ℝ) (rb : Option (ℝ × ℝ)) :
    (∃ x, binEdges a rb = .error x) ↔ ∃ lo hi, rb = some (lo, hi) ∧ hi < lo := by
  unfold binEdges outerEdges
  cases rb with
  | none =>
    by_cases ha : a = [] <;> simp [ha, bind, Except.bind]
  | some p =>
    obtain ⟨lo, hi⟩ := p
    by_cases h : hi < lo <;> simp [h, bind, Except.bind]

/-! ## The density -/

/-- **C72 (the curve).** With non-negative `alpha`, every cell whose data fit its domain gets a curve with increasing
positions, non-negative heights that are 0 at both ends, and area 1. -/
theorem C72_curve {α : ℝ} (hα : 0 ≤ α) {dom : Domain} {data : List ℝ} (h : Fits dom data) :
    ∃ c, cell α dom data = .ok c ∧ Good c ∧ c.nan = false ∧ auc c.len c.x c.y = 1 := by
  obtain ⟨c, h1, h2, h3, h4⟩ := cell_ok hα h
  exact ⟨c, h1, h2, h4, h3⟩

/-- **C72 (interpolation).** Whatever the padding, the density is the linear interpolation of the points of the curve and
0 outside of them. -/
theorem C72_interpolates {c : Curve} (h : Good c) {P : ℕ} (hP : c.len ≤ P) :
    (∀ i, i + 1 < c.len → ∀ t : ℝ, 0 ≤ t → t ≤ 1 →
      dens P c ((1 - t) * c.x i + t * c.x (i + 1)) = (1 - t) * c.y i + t * c.y (i + 1)) ∧
    (∀ q, q < c.x 0 → dens P c q = 0) ∧ (∀ q, c.x (c.len - 1) < q → dens P c q = 0) := by
  refine ⟨?_, fun q hq => h.dens_low hq.le, fun q hq => h.dens_high hq⟩
  intro i hi t h0 h1
  have hm := h.mono i hi
  have hd : c.x (i + 1) - c.x i ≠ 0 := by linarith
  have e : (1 - t) * c.x i + t * c.x (i + 1) = c.x i + t * (c.x (i + 1) - c.x i) := by ring
  have hp : 0 ≤ t * (c.x (i + 1) - c.x i) := mul_nonneg h0 (by linarith)
  have hq : t * (c.x (i + 1) - c.x i) ≤ 1 * (c.x (i + 1) - c.x i) := mul_le_mul_of_nonneg_right h1 (by linarith)
  rw [h.dens_seg hP hi (by linarith) (by linarith), e]
  field_simp
  ring

/-- **C72 (normalisation before the floor).** The interpolated density of every fitted cell integrates to one. -/
theorem C72_integrates_to_one {α : ℝ} (hα : 0 ≤ α) {dom : Domain} {data : List ℝ} (h : Fits dom data) {c : Curve}
    (hc : cell α dom data = .ok c) {P : ℕ} (hP : c.len ≤ P) : ∫⁻ q, ENNReal.ofReal (dens P c q) = 1 := by
  obtain ⟨c', h1, h2, h3, -⟩ := cell_ok hα h
  rw [hc] at h1
  injection h1 with h1
  subst h1
  rw [h2.lintegral_dens hP, h3, ENNReal.ofReal_one]

theorem floor_ok (d : ℝ) (hd : 0 ≤ d) : (-300 : ℝ) ≤ Real.log (d + 1 / 10 ^ 10) := by
  have h1 : (0 : ℝ) < d + 1 / 10 ^ 10 := by positivity
  rw [Real.le_log_iff_exp_le h1, Real.exp_neg]
  have h2 : (2 : ℝ) ≤ Real.exp 1 := by have := Real.add_one_le_exp (1 : ℝ); linarith
  have h3 : Real.exp 300 = Real.exp 1 ^ 300 := by rw [← Real.exp_nat_mul]; norm_num
  have h4 : (10 : ℝ) ^ 10 ≤ Real.exp 300 := by
    rw [h3]
    calc (10 : ℝ) ^ 10 ≤ 2 ^ 34 := by norm_num
      _ ≤ 2 ^ 300 := pow_le_pow_right₀ (by norm_num) (by norm_num)
      _ ≤ Real.exp 1 ^ 300 := by gcongr
  have h5 : (Real.exp 300)⁻¹ ≤ 1 / 10 ^ 10 := by
    rw [one_div]; exact inv_anti₀ (by positivity) h4
  linarith

/-- **C72 (log-likelihood).** `log_likelihood` of an observed value is the logarithm of the interpolated density plus
`1e-10`; the lower clamp at `-300` never acts. -/
theorem C72_log_prob {c : Curve} (hn : c.nan = false) (P : ℕ) (q : ℝ) :
    logProb P c q = some (Real.log (dens P c q + 1 / 10 ^ 10)) := by
  unfold logProb
  rw [if_neg (by simp [hn]), max_eq_left (floor_ok _ (Good.dens_nonneg q))]

/-- **C72 (finding: the floor is not a density).** Because of the added `1e-10`, the exponentiated log-likelihood of every
curve has infinite total mass over the reals. -/
theorem C72_floor_improper {c : Curve} (hn : c.nan = false) (P : ℕ) :
    ∫⁻ q, ENNReal.ofReal (Real.exp ((logProb P c q).getD 0)) = ⊤ := by
  have hle : ∫⁻ _ : ℝ, ENNReal.ofReal (1 / 10 ^ 10) ≤ ∫⁻ q, ENNReal.ofReal (Real.exp ((logProb P c q).getD 0)) := by
    apply lintegral_mono
    intro q
    beta_reduce
    rw [C72_log_prob hn, Option.getD_some, Real.exp_log (by have := Good.dens_nonneg (c := c) (P := P) q; positivity)]
    apply ENNReal.ofReal_le_ofReal
    have := Good.dens_nonneg (c := c) (P := P) q
    linarith
  rw [lintegral_const, Real.volume_univ, ENNReal.mul_top (by simp)] at hle
  exact top_le_iff.1 hle

/-- **C72 (mass on the support).** Between its first and last point the exponentiated log-likelihood of a fitted curve has
mass `1 + 1e-10 * width`. -/
theorem C72_mass_on_support {c : Curve} (h : Good c) (hn : c.nan = false) (hA : auc c.len c.x c.y = 1) {P : ℕ}
    (hP : c.len ≤ P) :
    ∫⁻ q in Set.Icc (c.x 0) (c.x (c.len - 1)), ENNReal.ofReal (Real.exp ((logProb P c q).getD 0))
      = ENNReal.ofReal (1 + 1 / 10 ^ 10 * (c.x (c.len - 1) - c.x 0)) := by
  have hl := h.len
  have hle : c.x 0 ≤ c.x (c.len - 1) := h.le (by omega) (by omega)
  have e : ∀ q, ENNReal.ofReal (Real.exp ((logProb P c q).getD 0))
      = ENNReal.ofReal (dens P c q) + ENNReal.ofReal (1 / 10 ^ 10) := by
    intro q
    rw [C72_log_prob hn, Option.getD_some, Real.exp_log (by have := Good.dens_nonneg (c := c) (P := P) q; positivity),
      ENNReal.ofReal_add (Good.dens_nonneg q) (by positivity)]
  simp only [e]
  rw [lintegral_add_right _ measurable_const, lintegral_const]
  have hsupp : Function.support (fun q => ENNReal.ofReal (dens P c q)) ⊆ Set.Icc (c.x 0) (c.x (c.len - 1)) := by
    intro q hq
    rw [Function.mem_support] at hq
    constructor
    · by_contra hcon
      exact hq (by rw [h.dens_low (not_le.1 hcon).le]; simp)
    · by_contra hcon
      exact hq (by rw [h.dens_high (not_le.1 hcon)]; simp)
  rw [setLIntegral_eq_of_support_subset hsupp, h.lintegral_dens hP, hA, Measure.restrict_apply MeasurableSet.univ,
    Set.univ_inter, Real.volume_Icc, ← ENNReal.ofReal_mul (by positivity),
    ← ENNReal.ofReal_add (by norm_num) (mul_nonneg (by positivity) (by linarith))]

/-- **C72 (mode).** `mode` is a most likely value: no real number has a larger log-likelihood. -/
theorem C72_mode {c : Curve} (h : Good c) (hn : c.nan = false) {P : ℕ} (hP : c.len ≤ P) {m : ℝ} (hm : IsMode c m) :
    ∃ v, logProb P c m = some v ∧ ∀ q w, logProb P c q = some w → w ≤ v := by
  obtain ⟨i, hi, hmax, rfl⟩ := hm
  refine ⟨_, C72_log_prob hn P _, ?_⟩
  intro q w hw
  rw [C72_log_prob hn] at hw
  injection hw with hw
  subst hw
  apply Real.log_le_log (by have := Good.dens_nonneg (c := c) (P := P) q; positivity)
  rw [h.dens_point hP hi]
  have := h.dens_le hP hmax q
  linarith

/-! ## Discrete features -/

theorem unit_breaks {vs : List ℝ} (hu : ∀ i, i + 1 < vs.length → vs.getD (i + 1) 0 = vs.getD i 0 + 1) {i : ℕ}
    (hi : i < vs.length) : breaksD vs (i + 1) - breaksD vs i = 1 := by
  unfold breaksD
  rw [if_pos hi]
  by_cases h1 : i + 1 < vs.length
  · rw [if_pos h1, hu i h1]; ring
  · rw [if_neg h1]
    have : vs.getLastD 0 = vs.getD i 0 := by
      rw [List.getLastD_eq_getLast?, List.getLast?_eq_getElem?, show vs.length - 1 = i by omega,
        List.getElem?_eq_getElem hi, List.getD_eq_getElem _ _ hi]
      rfl
    rw [this]; ring

theorem unit_points {vs : List ℝ} (hv : vs ≠ []) (hu : ∀ i, i + 1 < vs.length → vs.getD (i + 1) 0 = vs.getD i 0 + 1) {j : ℕ}
    (hj : j < vs.length + 1) : pointsD vs (j + 1) - pointsD vs j = 1 := by
  have hl : 1 ≤ vs.length := List.length_pos_of_ne_nil hv
  rcases Nat.eq_zero_or_pos j with rfl | hp
  · unfold pointsD
    rw [if_neg (by omega), if_pos (by omega), if_pos rfl]
    simp
  · have := unit_breaks hu (i := j - 1) (by omega)
    rw [Nat.sub_add_cancel hp] at this
    rw [← this]
    unfold pointsD breaksD
    rw [if_neg (show ¬ j + 1 = 0 by omega), if_neg (show ¬ j = 0 by omega), if_pos (show j ≤ vs.length by omega),
      Nat.add_sub_cancel, if_pos (show j - 1 < vs.length by omega)]
    by_cases h1 : j < vs.length
    · rw [if_pos (show j + 1 ≤ vs.length by omega), if_pos h1]
    · rw [if_neg (show ¬ j + 1 ≤ vs.length by omega), if_neg h1]

theorem unit_auc {nb : ℕ} {x d : ℕ → ℝ} (hx : ∀ j < nb + 1, x (j + 1) - x j = 1) :
    auc (nb + 2) x (withTails nb d) = ∑ i ∈ range nb, d i := by
  have e : auc (nb + 2) x (withTails nb d)
      = (∑ j ∈ range (nb + 1), withTails nb d j + ∑ j ∈ range (nb + 1), withTails nb d (j + 1)) / 2 := by
    unfold auc
    rw [← sum_add_distrib, sum_div]
    refine sum_congr rfl fun j hj => ?_
    unfold trap
    rw [hx j (mem_range.1 hj)]
    ring
  have e1 : ∑ j ∈ range (nb + 1), withTails nb d j = ∑ i ∈ range nb, d i := by
    rw [sum_range_succ']
    have : withTails nb d 0 = 0 := by simp [withTails]
    rw [this, add_zero]
    exact sum_congr rfl fun i hi => withTails_succ d (mem_range.1 hi)
  have e2 : ∑ j ∈ range (nb + 1), withTails nb d (j + 1) = ∑ i ∈ range nb, d i := by
    rw [sum_range_succ]
    have : withTails nb d (nb + 1) = 0 := by simp [withTails]
    rw [this, add_zero]
    exact sum_congr rfl fun i hi => withTails_succ d (mem_range.1 hi)
  rw [e, e1, e2]
  ring

theorem pairwise_of_unit {vs : List ℝ} (hu : ∀ i, i + 1 < vs.length → vs.getD (i + 1) 0 = vs.getD i 0 + 1) :
    vs.Pairwise (· < ·) := by
  rw [List.pairwise_iff_getElem]
  intro i j hi hj hij
  have key : ∀ k, i + k < vs.length → vs.getD (i + k) 0 = vs.getD i 0 + k := by
    intro k
    induction k with
    | zero => simp
    | succ k ih =>
      intro hk
      rw [← Nat.add_assoc, hu (i + k) (by omega), ih (by omega)]
      push_cast
      ring
  have := key (j - i) (by omega)
  rw [show i + (j - i) = j by omega, List.getD_eq_getElem _ _ hj, List.getD_eq_getElem _ _ hi] at this
  rw [this]
  have : (0 : ℝ) < ((j - i : ℕ) : ℝ) := by exact_mod_cast (by omega : 0 < j - i)
  linarith

/-- The number of data points in the bin of value `i` is the number of times it occurs. -/
theorem count_value {vs data : List ℝ} (hu : ∀ i, i + 1 < vs.length → vs.getD (i + 1) 0 = vs.getD i 0 + 1)
    (hd : ∀ v ∈ data, v ∈ vs) {i : ℕ} (hi : i < vs.length) :
    count data vs.length (breaksD vs) i = data.countP fun v => open Classical in decide (v = vs.getD i 0) := by
  classical
  unfold count
  apply List.countP_congr
  intro v hv
  obtain ⟨j, hj, rfl⟩ := List.getElem_of_mem (hd v hv)
  have hinc := breaksD_inc (pairwise_of_unit hu)
  have hb : ∀ k, k < vs.length → breaksD vs k = vs.getD k 0 := fun k hk => by unfold breaksD; rw [if_pos hk]
  have hin : InBin vs.length (breaksD vs) j vs[j] := by
    have e : vs[j] = breaksD vs j := by rw [hb j hj, List.getD_eq_getElem _ _ hj]
    rw [e]
    exact ⟨le_rfl, Or.inl (hinc j hj)⟩
  simp only [decide_eq_true_eq]
  constructor
  · intro h
    have := bin_unique hinc hi hj h hin
    subst this
    rw [List.getD_eq_getElem _ _ hi]
  · intro h
    rw [h, ← hb i hi]
    exact ⟨le_rfl, Or.inl (hinc i hi)⟩

/-- **C72 (discrete features with consecutive values).** If the values of the domain are one apart and every data point is
one of them, then the density at each value is the Laplace estimate `(count + alpha) / (N + n * alpha)`, and the densities of
the values sum to one. -/
theorem C72_discrete_pmf {α : ℝ} (hα : 0 ≤ α) {vs data : List ℝ} (hv : vs ≠ [])
    (hu : ∀ i, i + 1 < vs.length → vs.getD (i + 1) 0 = vs.getD i 0 + 1) (hne : data ≠ []) (hd : ∀ v ∈ data, v ∈ vs) :
    ∃ c, cell α (.discrete vs) data = .ok c ∧ c.len = vs.length + 2 ∧ ∀ P, c.len ≤ P →
      (∀ i < vs.length, dens P c (vs.getD i 0)
        = ((data.countP fun v => open Classical in decide (v = vs.getD i 0) : ℕ) + α) / (data.length + vs.length * α)) ∧
      ∑ i ∈ range vs.length, dens P c (vs.getD i 0) = 1 := by
  have hs := pairwise_of_unit hu
  have hl : 1 ≤ vs.length := List.length_pos_of_ne_nil hv
  have hinc := breaksD_inc hs
  have hN : (0 : ℝ) < data.length := by exact_mod_cast List.length_pos_of_ne_nil hne
  have hrange : ∀ v ∈ data, breaksD vs 0 ≤ v ∧ v ≤ breaksD vs vs.length := by
    intro v hv'
    obtain ⟨j, hj, rfl⟩ := List.getElem_of_mem (hd v hv')
    have e : vs[j] = breaksD vs j := by unfold breaksD; rw [if_pos hj, List.getD_eq_getElem _ _ hj]
    rw [e]
    exact ⟨hinc.le (by omega) (by omega), hinc.le (by omega) le_rfl⟩
  have hfits : Fits (.discrete vs) data := by
    refine ⟨hv, hs, Or.inr ?_⟩
    obtain ⟨v, hv'⟩ := List.exists_mem_of_ne_nil data hne
    obtain ⟨e0, e1⟩ := breaksD_ends hv
    exact ⟨v, hv', by rw [← e0, ← e1]; exact hrange v hv'⟩
  obtain ⟨c, hc, hg, hA, -, hlen, hx, hy⟩ := cell_discrete hα hfits
  have htot := total_all hl hinc hrange
  have hraw : ∀ i < vs.length, (rawDensity data vs.length (breaksD vs)).1 i
      = count data vs.length (breaksD vs) i / data.length := by
    intro i hi
    unfold rawDensity histDensity
    rw [if_neg (by exact_mod_cast hN.ne'), if_neg (by rw [htot]; exact_mod_cast hN.ne')]
    dsimp only
    rw [htot, unit_breaks hu hi, mul_one]
  have hsm : ∀ i < vs.length, smooth α data.length vs.length (rawDensity data vs.length (breaksD vs)).1 i
      = (count data vs.length (breaksD vs) i + α) / (data.length + vs.length * α) := by
    intro i hi
    unfold smooth
    rw [hraw i hi]
    rcases hα.eq_or_lt with rfl | hα'
    · rw [if_neg (lt_irrefl _)]; simp
    · rw [if_pos hα', div_mul_cancel₀ _ hN.ne']
  have hden : (0 : ℝ) < data.length + vs.length * α := by positivity
  have hsum : ∑ i ∈ range vs.length, smooth α data.length vs.length (rawDensity data vs.length (breaksD vs)).1 i = 1 := by
    rw [sum_congr rfl fun i hi => hsm i (mem_range.1 hi), ← sum_div, sum_add_distrib]
    have : ∑ i ∈ range vs.length, (count data vs.length (breaksD vs) i : ℝ) = data.length := by
      rw [← htot]; unfold total; push_cast; rfl
    rw [this]
    simp only [sum_const, card_range, nsmul_eq_mul]
    exact div_self hden.ne'
  have hauc : auc (vs.length + 2) (pointsD vs)
      (withTails vs.length (smooth α data.length vs.length (rawDensity data vs.length (breaksD vs)).1)) = 1 := by
    rw [unit_auc (fun j hj => unit_points hv hu hj), hsum]
  refine ⟨c, hc, hlen, fun P hP => ?_⟩
  have hval : ∀ i < vs.length, dens P c (vs.getD i 0)
      = smooth α data.length vs.length (rawDensity data vs.length (breaksD vs)).1 i := by
    intro i hi
    have e : vs.getD i 0 = c.x (i + 1) := by
      rw [hx]
      unfold pointsD
      rw [if_neg (by omega), if_pos (by omega), Nat.add_sub_cancel]
    rw [e, hg.dens_point hP (by omega), hy i hi, hauc, div_one]
  refine ⟨fun i hi => ?_, ?_⟩
  · rw [hval i hi, hsm i hi, count_value hu hd hi]
  · rw [sum_congr rfl fun i hi => hval i (mem_range.1 hi), hsum]

/-- **C72 (mode of a discrete feature).** The mode of a fitted discrete cell is one of the values of its domain. -/
theorem C72_discrete_mode {α : ℝ} (hα : 0 ≤ α) {vs data : List ℝ} (h : Fits (.discrete vs) data) {c : Curve}
    (hc : cell α (.discrete vs) data = .ok c) {m : ℝ} (hm : IsMode c m) : m ∈ vs := by
  obtain ⟨c', h1, hg, hA, -, hlen, hx, -⟩ := cell_discrete hα h
  rw [hc] at h1
  injection h1 with h1
  subst h1
  obtain ⟨i, hi, hmax, rfl⟩ := hm
  have hpos : 0 < c.y i := by
    by_contra hcon
    have hz : ∀ j < c.len, c.y j = 0 := fun j hj =>
      le_antisymm ((hmax j hj).trans (not_lt.1 hcon)) (hg.nonneg j hj)
    have : auc c.len c.x c.y = 0 := by
      unfold auc
      apply sum_eq_zero
      intro j hj
      have hj := mem_range.1 hj
      unfold trap
      rw [hz j (by omega), hz (j + 1) (by omega)]
      ring
    linarith
  have hi0 : i ≠ 0 := by rintro rfl; rw [hg.first] at hpos; exact lt_irrefl _ hpos
  have hi1 : i ≠ c.len - 1 := by rintro rfl; rw [hg.last] at hpos; exact lt_irrefl _ hpos
  rw [hx]
  unfold pointsD
  rw [if_neg hi0, if_pos (by omega), List.getD_eq_getElem _ _ (by omega)]
  exact List.getElem_mem _

/-- **C72 (sampling a discrete feature, domain `0..n-1`).** If the values are `0, 1, .., n-1` and the data are among them,
sampling returns each value with exactly its density. -/
theorem C72_discrete_sample {α : ℝ} (hα : 0 ≤ α) {n : ℕ} {data : List ℝ} (hne : data ≠ [])
    (hd : ∀ v ∈ data, ∃ k < n, v = (k : ℝ)) {c : Curve}
    (hc : cell α (.discrete ((List.range n).map fun k : ℕ => (k : ℝ))) data = .ok c) {P : ℕ} (hP : c.len ≤ P) :
    ∀ k < n, discreteProb c k = dens P c k := by
  intro k hk
  have hgd : ∀ i < n, ((List.range n).map fun k : ℕ => (k : ℝ)).getD i 0 = i := by
    intro i hi
    rw [List.getD_eq_getElem _ _ (by simpa using hi)]
    simp
  have hu : ∀ i, i + 1 < ((List.range n).map fun k : ℕ => (k : ℝ)).length →
      ((List.range n).map fun k : ℕ => (k : ℝ)).getD (i + 1) 0 = ((List.range n).map fun k : ℕ => (k : ℝ)).getD i 0 + 1 := by
    intro i hi
    have hi' : i + 1 < n := by simpa using hi
    rw [hgd _ hi', hgd i (by omega)]
    push_cast
    rfl
  have hv : ((List.range n).map fun k : ℕ => (k : ℝ)) ≠ [] := by
    intro hnil
    have := congrArg List.length hnil
    simp at this
    omega
  obtain ⟨c', h1, hlen, hP'⟩ := C72_discrete_pmf hα hv hu hne (by
    intro v hv'
    obtain ⟨j, hj, rfl⟩ := hd v hv'
    simp only [List.mem_map, List.mem_range]
    exact ⟨j, hj, rfl⟩)
  rw [hc] at h1
  injection h1 with h1
  subst h1
  obtain ⟨-, hsum⟩ := hP' P hP
  have hlen' : c.len = n + 2 := by simpa using hlen
  have hfits : Fits (.discrete ((List.range n).map fun k : ℕ => (k : ℝ))) data := by
    refine ⟨hv, pairwise_of_unit hu, Or.inr ?_⟩
    obtain ⟨v, hv'⟩ := List.exists_mem_of_ne_nil data hne
    obtain ⟨j, hj, rfl⟩ := hd v hv'
    refine ⟨j, hv', ?_, ?_⟩
    · rw [hgd 0 (by omega)]; exact_mod_cast Nat.zero_le j
    · have : ((List.range n).map fun k : ℕ => (k : ℝ)).getLastD 0 = ((n - 1 : ℕ) : ℝ) := by
        rw [List.getLastD_eq_getLast?, List.getLast?_eq_getElem?]
        simp only [List.length_map, List.length_range]
        rw [List.getElem?_eq_getElem (by simp; omega)]
        simp
      rw [this]
      have : (j : ℝ) ≤ ((n - 1 : ℕ) : ℝ) := by exact_mod_cast (by omega : j ≤ n - 1)
      linarith
  obtain ⟨c', h1, hg, hA, -, -, hx, -⟩ := cell_discrete hα hfits
  rw [hc] at h1
  injection h1 with h1
  subst h1
  have hpt : ∀ i < n, c.y (i + 1) = dens P c i := by
    intro i hi
    have e : (i : ℝ) = c.x (i + 1) := by
      rw [hx]
      unfold pointsD
      rw [if_neg (by omega), if_pos (by simp; omega), Nat.add_sub_cancel, hgd i hi]
    rw [e, hg.dens_point hP (by omega)]
  have hone : ∑ j ∈ range (c.len - 2), c.y (j + 1) = 1 := by
    rw [hlen', Nat.add_sub_cancel, ← hsum]
    simp only [List.length_map, List.length_range]
    exact sum_congr rfl fun i hi => by rw [hgd i (mem_range.1 hi), hpt i (mem_range.1 hi)]
  unfold discreteProb
  rw [sum_eq_single k]
  · rw [if_pos rfl]
    unfold classProb
    rw [hone, div_one, hpt k hk]
  · intro j _ hne'
    rw [if_neg (by exact_mod_cast hne')]
  · intro hcon
    exact absurd (mem_range.2 (by omega)) hcon

/-! ## Continuous features -/

/-- **C72 (smoothing of a continuous feature).** The densities at the bin centres of a fitted continuous cell are
proportional to `count + alpha * width`: the effective pseudo-count is `alpha` times the bin width, not `alpha`. -/
theorem C72_effective_alpha {α : ℝ} (hα : 0 ≤ α) {lo hi : Option ℝ} {data : List ℝ} (hne : data ≠ []) :
    ∃ e n c Z, binEdges data none = .ok (e, n) ∧ cell α (.continuous lo hi) data = .ok c ∧ c.len = n + 2 ∧ 0 < Z ∧
      ∀ P, c.len ≤ P → ∀ i < n,
        dens P c ((linspace e n i + linspace e n (i + 1)) / 2) * Z
          = count data n (linspace e n) i + α * ((e.2 - e.1) / n) := by
  have hN : (0 : ℝ) < data.length := by exact_mod_cast List.length_pos_of_ne_nil hne
  have hfits : Fits (.continuous lo hi) data := Or.inl hne
  obtain ⟨e, c, he, hc, hg, hA, -, hlen, hx, hy⟩ := cell_continuous hα hfits
  obtain ⟨e', he', hlt, hn, hcov⟩ := breaksC_spec hfits
  rw [he] at he'
  injection he' with he'
  subst he'
  have hinc : Inc e.2 (linspace e.1 e.2) := fun i _ => linspace_lt hlt hn i
  have htot : total data e.2 (linspace e.1 e.2) = data.length := total_all hn hinc (fun v hv => by
    rw [linspace_zero, linspace_last _ hn]; exact hcov v hv)
  have hw : 0 < (e.1.2 - e.1.1) / e.2 := div_pos (sub_pos.2 hlt) (by exact_mod_cast hn)
  obtain ⟨r1, r2, r3⟩ := raw_pos hn hinc (data := data) (by
    obtain ⟨v, hv⟩ := List.exists_mem_of_ne_nil data hne
    exact Or.inr ⟨v, hv, by rw [linspace_zero, linspace_last _ hn]; exact hcov v hv⟩)
  obtain ⟨s1, s2⟩ := smooth_pos hα (n := data.length) hn r2 r3
  have hAp := auc_pos (pointsC_inc hn hinc) s1 s2
  set A := auc (e.2 + 2) (pointsC e.2 (linspace e.1 e.2))
    (withTails e.2 (smooth α data.length e.2 (rawDensity data e.2 (linspace e.1 e.2)).1)) with hAdef
  clear_value A
  have hden : (0 : ℝ) < data.length + e.2 * α := by positivity
  refine ⟨e.1, e.2, c, A * ((e.1.2 - e.1.1) / e.2) * (data.length + e.2 * α), ?_, hc, hlen, by positivity, ?_⟩
  · unfold breaksC at he
    rw [if_neg (by exact_mod_cast hN.ne')] at he
    exact he
  intro P hP i hi
  have ex : (linspace e.1 e.2 i + linspace e.1 e.2 (i + 1)) / 2 = c.x (i + 1) := by
    rw [hx]
    unfold pointsC
    rw [if_neg (by omega), if_pos (by omega), Nat.add_sub_cancel]
    ring
  have hraw : (rawDensity data e.2 (linspace e.1 e.2)).1 i
      = count data e.2 (linspace e.1 e.2) i / (data.length * ((e.1.2 - e.1.1) / e.2)) := by
    unfold rawDensity histDensity
    rw [if_neg (by exact_mod_cast hN.ne'), if_neg (by rw [htot]; exact_mod_cast hN.ne')]
    dsimp only
    rw [htot, linspace_step]
  have hsm : smooth α data.length e.2 (rawDensity data e.2 (linspace e.1 e.2)).1 i
      = (count data e.2 (linspace e.1 e.2) i + α * ((e.1.2 - e.1.1) / e.2))
        / (((e.1.2 - e.1.1) / e.2) * (data.length + e.2 * α)) := by
    unfold smooth
    rw [hraw]
    generalize (e.1.2 - e.1.1) / e.2 = w at *
    rcases hα.eq_or_lt with rfl | hα'
    · rw [if_neg (lt_irrefl _)]
      simp only [mul_zero, add_zero, zero_mul]
      rw [mul_comm w]
    · rw [if_pos hα']
      field_simp
  rw [ex, hg.dens_point hP (by omega), hy i hi, hsm]
  generalize (e.1.2 - e.1.1) / e.2 = w at *
  field_simp

/-- **C72 (samples stay in the support).** For every uniform number in `[0, 1)` the sample of a continuous cell lies
between the first and the last point. -/
theorem C72_sample_in_support {c : Curve} (h : Good c) (hA : auc c.len c.x c.y = 1) {u : ℝ} (h0 : 0 ≤ u) (h1 : u < 1) :
    c.x 0 ≤ draw c u ∧ draw c u < c.x (c.len - 1) := by
  obtain ⟨i, hi, he, ha, hb⟩ := h.index_cases hA h0
  obtain ⟨-, d1, d2⟩ := h.draw_in hA h1 hi he ha hb
  exact ⟨(h.le (by omega) (by omega)).trans d1, d2.trans_le (h.le (by omega) (by omega))⟩

/-- **C72 (segments are hit with their mass).** For a uniform number `u`, the probability that the sample falls between
two neighbouring points differs from the integral of the density between them by at most `1e-10`. -/
theorem C72_sample_segments {c : Curve} (h : Good c) (hA : auc c.len c.x c.y = 1) {P : ℕ} (hP : c.len ≤ P) {i : ℕ}
    (hi : i + 1 < c.len) :
    |(volume {u : ℝ | u ∈ Set.Ico (0 : ℝ) 1 ∧ draw c u ∈ Set.Ico (c.x i) (c.x (i + 1))}).toReal
        - ∫ q in c.x i..c.x (i + 1), dens P c q| ≤ 1 / 10 ^ 10 := by
  rw [(h.integral_seg hP hi).2]
  exact h.segment_volume hA hi

/-- **C72 (finding: samples are uniform inside a segment).** Within a segment the sample is an affine function of the
uniform number, so it does not follow the linear density there. -/
theorem C72_sample_affine {c : Curve} (h : Good c) (hA : auc c.len c.x c.y = 1) {i : ℕ} (hi : i + 1 < c.len) :
    ∃ s, ∀ u ∈ Set.Ico (0 : ℝ) 1, draw c u ∈ Set.Ico (c.x i) (c.x (i + 1)) → draw c u = c.x i + s * (u - cdf c i) := by
  refine ⟨(c.x (i + 1) - c.x i) / (cdf c (i + 1) - cdf c i + 1 / 10 ^ 8), ?_⟩
  intro u hu hd
  have hmem : u ∈ Set.Ico (cdf c i) (if i + 2 = c.len then 1 else cdf c (i + 1)) := by
    rw [← h.segment_set hA hi]; exact ⟨hu, hd⟩
  obtain ⟨j, hj, he, ha, hb⟩ := h.index_cases hA hu.1
  obtain ⟨e, d1, d2⟩ := h.draw_in hA hu.2 hj he ha hb
  have hji : j = i := by
    rcases lt_trichotomy j i with hlt | rfl | hlt
    · have := h.le (i := j + 1) (j := i) (by omega) (by omega); linarith [hd.1]
    · rfl
    · have := h.le (i := i + 1) (j := j) (by omega) (by omega); linarith [hd.2]
  subst hji
  rw [e]
  ring

end Verif.Pwl

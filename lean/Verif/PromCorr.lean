import Verif.PromLink
import Mathlib.Algebra.Order.BigOperators.Ring.Finset

/-!
# Property C32, on matrices: the correlation affinity
-/

namespace Verif.Prometheus

open Verif Finset

/-- The mean of a column. -/
noncomputable def avg (xs : List ℝ) : ℝ := xs.sum / xs.length

/-- Sum of the products of the deviations from the means. -/
noncomputable def cov (xs ys : List ℝ) : ℝ :=
  ∑ i ∈ range xs.length, (xs.getD i 0 - avg xs) * (ys.getD i 0 - avg ys)

/-- Absolute Pearson correlation. -/
noncomputable def pearson (xs ys : List ℝ) : ℝ := |cov xs ys| / (Real.sqrt (cov xs xs) * Real.sqrt (cov ys ys))

theorem zipWith_sum : ∀ (xs ys : List ℝ), xs.length = ys.length →
    (List.zipWith (· * ·) xs ys).sum = ∑ i ∈ range xs.length, xs.getD i 0 * ys.getD i 0 := by
  intro xs
  induction xs with
  | nil => intro ys _; simp
  | cons x xs ih =>
    intro ys h
    rcases ys with _ | ⟨y, ys⟩
    · simp at h
    · simp only [List.zipWith_cons_cons, List.sum_cons, List.length_cons, sum_range_succ']
      rw [ih ys (by simpa using h)]
      simp [add_comm]

theorem centred_getD (xs : List ℝ) {i : ℕ} (hi : i < xs.length) : (centred xs).getD i 0 = xs.getD i 0 - avg xs := by
  unfold centred avg
  rw [List.getD_eq_getElem _ _ (by simpa using hi), List.getD_eq_getElem _ _ hi]
  simp

theorem scale_eq (xs : List ℝ) : scale (centred xs) = max (Real.sqrt (cov xs xs)) (1 / 10 ^ 12) := by
  unfold scale
  congr 2
  have : ((centred xs).map fun x => x * x) = List.zipWith (· * ·) (centred xs) (centred xs) := by
    rw [List.zipWith_self]
  rw [this, zipWith_sum _ _ rfl]
  have hl : (centred xs).length = xs.length := by simp [centred]
  rw [hl]
  refine sum_congr rfl fun i hi => ?_
  rw [centred_getD xs (mem_range.1 hi)]

theorem scale_pos (xs : List ℝ) : 0 < scale xs := lt_of_lt_of_le (by norm_num) (le_max_right _ _)

theorem dot_eq {xs ys : List ℝ} (h : xs.length = ys.length) :
    dot xs ys = cov xs ys / (scale (centred xs) * scale (centred ys)) := by
  unfold dot
  rw [zipWith_sum _ _ (by simp [centred, h])]
  have hl : (((centred xs).map fun x => x / scale (centred xs))).length = xs.length := by simp [centred]
  rw [hl, cov, sum_div]
  refine sum_congr rfl fun i hi => ?_
  have hi' := mem_range.1 hi
  have e : ∀ (zs : List ℝ) (s : ℝ), (hz : i < zs.length) → ((centred zs).map fun x => x / s).getD i 0 = (zs.getD i 0 - avg zs) / s := by
    intro zs s hz
    rw [← centred_getD zs hz, List.getD_eq_getElem _ _ (by simpa [centred] using hz),
      List.getD_eq_getElem _ _ (by simpa [centred] using hz)]
    simp
  rw [e xs _ hi', e ys _ (h ▸ hi')]
  rw [div_mul_div_comm]

theorem cov_comm {xs ys : List ℝ} (h : xs.length = ys.length) : cov xs ys = cov ys xs := by
  unfold cov
  rw [h]
  exact sum_congr rfl fun i _ => mul_comm _ _

theorem cov_self_nonneg (xs : List ℝ) : 0 ≤ cov xs xs := sum_nonneg fun i _ => mul_self_nonneg _

theorem cov_sq_le {xs ys : List ℝ} (h : xs.length = ys.length) : cov xs ys ^ 2 ≤ cov xs xs * cov ys ys := by
  have := sum_mul_sq_le_sq_mul_sq (range xs.length) (fun i => xs.getD i 0 - avg xs) fun i => ys.getD i 0 - avg ys
  unfold cov
  rw [← h]
  simpa only [pow_two] using this

/-- Cauchy-Schwarz: the clamp changes nothing. -/
theorem abs_dot_le {xs ys : List ℝ} (h : xs.length = ys.length) : |dot xs ys| ≤ 1 := by
  have hs : 0 < scale (centred xs) * scale (centred ys) := mul_pos (scale_pos _) (scale_pos _)
  rw [dot_eq h, abs_div, abs_of_pos hs, div_le_one hs]
  calc |cov xs ys| ≤ Real.sqrt (cov xs xs * cov ys ys) := Real.abs_le_sqrt (cov_sq_le h)
    _ = Real.sqrt (cov xs xs) * Real.sqrt (cov ys ys) := Real.sqrt_mul (cov_self_nonneg _) _
    _ ≤ scale (centred xs) * scale (centred ys) := by
        rw [scale_eq, scale_eq]
        exact mul_le_mul (le_max_left _ _) (le_max_left _ _) (Real.sqrt_nonneg _) (le_trans (Real.sqrt_nonneg _) (le_max_left _ _))

theorem corrEntry_eq {xs ys : List ℝ} (h : xs.length = ys.length) : corrEntry xs ys = |dot xs ys| := by
  have := abs_le.1 (abs_dot_le h)
  unfold corrEntry
  rw [min_eq_right this.2, max_eq_right this.1]

theorem column_length (rows : List Row) (v : Var) : (column rows v).length = rows.length := by simp [column]

/-- C32: `similarity="corr"`.  For data without missing values the affinity matrix is square over the scope, symmetric, with
ones on the diagonal and values in `[0, 1]`; an off-diagonal entry is the absolute Pearson correlation of the two columns
whenever neither is (nearly) constant, and zero when one of them is constant. -/
theorem C32_correlation {rows : List Row} {scope : List Var} (hfull : ∀ r ∈ rows, ∀ v ∈ scope, (r v).isSome) :
    ∃ A, affinityCorr rows scope = .ok A ∧ A.r = scope.length ∧ A.c = scope.length ∧
      (∀ i, A.at2 i i = 1) ∧ (∀ i j, A.at2 i j = A.at2 j i) ∧ (∀ i j, 0 ≤ A.at2 i j ∧ A.at2 i j ≤ 1) ∧
      ∀ i (hi : i < scope.length) j (hj : j < scope.length), i ≠ j →
        ((1 / 10 ^ 12 ≤ Real.sqrt (cov (column rows scope[i]) (column rows scope[i])) →
          1 / 10 ^ 12 ≤ Real.sqrt (cov (column rows scope[j]) (column rows scope[j])) →
          A.at2 i j = pearson (column rows scope[i]) (column rows scope[j])) ∧
        ((∃ a, ∀ r ∈ rows, r scope[i] = some a) → A.at2 i j = 0)) := by
  have hnan : hasNaN rows scope = false := by
    unfold hasNaN
    rw [List.any_eq_false]
    intro r hr
    rw [Bool.not_eq_true, List.any_eq_false]
    intro v hv
    have := hfull r hr v hv
    cases h : r v <;> simp_all
  have hlen : ∀ u v, (column rows u).length = (column rows v).length := fun u v => by simp [column]
  refine ⟨⟨scope.length, scope.length, fun i j =>
    if i = j then 1 else corrEntry (column rows (scope.getD i 0)) (column rows (scope.getD j 0))⟩,
    by simp [affinityCorr, hnan], rfl, rfl, fun i => if_pos rfl, fun i j => ?_, fun i j => ?_, fun i hi j hj hij => ⟨?_, ?_⟩⟩
  · by_cases h : i = j
    · subst h; rfl
    · simp only [h, if_false, Ne.symm h]
      rw [corrEntry_eq (hlen _ _), corrEntry_eq (hlen _ _), dot_eq (hlen _ _), dot_eq (hlen _ _), cov_comm (hlen _ _), mul_comm]
  · simp only
    by_cases h : i = j
    · rw [if_pos h]; norm_num
    · rw [if_neg h, corrEntry_eq (hlen _ _)]
      exact ⟨abs_nonneg _, abs_dot_le (hlen _ _)⟩
  · intro h1 h2
    simp only
    rw [if_neg hij, corrEntry_eq (hlen _ _), dot_eq (hlen _ _), List.getD_eq_getElem _ _ hi, List.getD_eq_getElem _ _ hj,
      scale_eq, scale_eq, max_eq_left h1, max_eq_left h2, pearson, abs_div,
      abs_of_nonneg (mul_nonneg (Real.sqrt_nonneg _) (Real.sqrt_nonneg _))]
  · rintro ⟨a, ha⟩
    simp only
    rw [if_neg hij, corrEntry_eq (hlen _ _), dot_eq (hlen _ _), List.getD_eq_getElem _ _ hi, List.getD_eq_getElem _ _ hj]
    have hcol : column rows scope[i] = List.replicate rows.length a := by
      rw [List.eq_replicate_iff]
      refine ⟨by simp [column], fun b hb => ?_⟩
      unfold column at hb
      obtain ⟨r, hr, rfl⟩ := List.mem_map.1 hb
      rw [ha r hr]; rfl
    have hz : cov (column rows scope[i]) (column rows scope[j]) = 0 := by
      unfold cov
      refine sum_eq_zero fun k hk => ?_
      have hk' := mem_range.1 hk
      have h0 : (column rows scope[i]).getD k 0 - avg (column rows scope[i]) = 0 := by
        rw [List.getD_eq_getElem _ _ hk']
        have hkr : k < rows.length := by simpa [column] using hk'
        have hn : (rows.length : ℝ) ≠ 0 := by
          have : rows.length ≠ 0 := by omega
          exact_mod_cast this
        simp only [hcol, avg, List.sum_replicate, List.length_replicate, List.getElem_replicate, nsmul_eq_mul]
        field_simp
        ring
      rw [h0, zero_mul]
    rw [hz]; simp

/-- C32: a missing value is rejected by both built-in similarities. -/
theorem C32_missing_raises {rows : List Row} {scope : List Var} {r : Row} (hr : r ∈ rows) {v : Var} (hv : v ∈ scope)
    (hn : r v = none) (rdc : ℕ → ℕ → ℝ) : affinityCorr rows scope = .error .unsupported ∧
      affinityRdc rdc rows scope = .error .unsupported := by
  have h : hasNaN rows scope = true := by
    unfold hasNaN
    rw [List.any_eq_true]
    exact ⟨r, hr, List.any_eq_true.2 ⟨v, hv, by simp [hn]⟩⟩
  exact ⟨by simp [affinityCorr, h], by simp [affinityRdc, h]⟩

end Verif.Prometheus

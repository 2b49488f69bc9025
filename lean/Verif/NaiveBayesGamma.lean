import Verif.NaiveBayesFit
import Verif.GammaFitMore

/-!
# NaiveBayes: fitting Gamma leaves with class labels (C60)
-/

namespace Verif.NB

open Verif Verif.LeafFit

theorem theta_active (l : List (ℝ × ℝ)) : theta (active l) = theta l := by
  unfold theta
  simp only [wsum_active, nTot_active]

/-- On positive values the Gamma estimator ignores rows of weight zero. -/
theorem gamma_active (bias : Bool) {l : List (ℝ × ℝ)} (h : ∀ z ∈ l, 0 < z.1) : gammaEst bias (active l) = gammaEst bias l := by
  have h1 : ¬ ∃ z ∈ l, z.1 ≤ 0 := fun ⟨z, hz, e⟩ => absurd (h z hz) (not_lt.2 e)
  have h2 : ¬ ∃ z ∈ active l, z.1 ≤ 0 := fun ⟨z, hz, e⟩ => absurd (h z (List.mem_filter.1 hz).1) (not_lt.2 e)
  unfold gammaEst
  simp only [theta_active, wsum_active, nTot_active, h1, h2]

/-- C60, fitting, for Gamma leaves: on complete data whose values are *all* positive - also in the other classes - the
parameters of every class that occurs are those obtained by fitting the leaf on the rows of that class alone.
Missing: a value `≤ 0` in another class, where it is false (`C60_gamma_mixes_classes`); data with NaN. -/
theorem C60_gamma_per_class_partial (ignore bias : Bool) {F n : ℕ} (hF : 0 < F) {vals : List (ℕ → Option ℝ)} {ts : List ℕ}
    (hlen : ts.length = vals.length) (hc : Complete F vals) (hts : ∀ t ∈ ts, t < n) {k : ℕ} (hk : k ∈ ts) {f : ℕ} (hf : f < F)
    (hpos : ∀ v ∈ vals, ∀ x, v f = some x → 0 < x) :
    fitCell (gammaEst bias) ignore F n vals ts f k = fit (gammaEst bias) ignore F 1 1 (classRows vals ts k) f 0 0 := by
  refine fit_is_per_class_on ignore hF hlen hc hts hk f fun l hl => gamma_active bias fun z hz => ?_
  obtain ⟨-, v, hv, e⟩ := hl z hz
  obtain ⟨x, hx⟩ := Option.ne_none_iff_exists'.1 (hc v hv f hf)
  rw [e, hx]
  exact hpos v hv x hx

/-- The data of the witness: class 0 has the value 0, class 1 the values 1 and 2. -/
def gamVals : List (ℕ → Option ℝ) := [fun _ => some 0, fun _ => some 1, fun _ => some 2]

/-- The hypotheses of `C60_gamma_per_class_partial` are met by the values 3, 1, 2 with labels 0, 1, 1. -/
example : Complete 1 [fun _ => some 3, fun _ => some 1, fun _ => some 2] ∧ (∀ t ∈ [0, 1, 1], t < 2) ∧ 1 ∈ [0, 1, 1] ∧
    (∀ v ∈ ([fun _ => some 3, fun _ => some 1, fun _ => some 2] : List (ℕ → Option ℝ)), ∀ x, v 0 = some x → 0 < x) := by
  refine ⟨?_, by decide, by decide, ?_⟩
  · intro v hv f _
    simp only [List.mem_cons, List.not_mem_nil, or_false] at hv
    rcases hv with rfl | rfl | rfl <;> simp
  · intro v hv x hx
    simp only [List.mem_cons, List.not_mem_nil, or_false] at hv
    rcases hv with rfl | rfl | rfl <;> (cases hx; norm_num)

/-- **False of the code.** One zero in class 0 spoils the Gamma leaf of class 1: its two positive, distinct rows alone give
finite parameters (`C89_moments`), but fitted with the labels both of its parameters become `1e-8`. -/
theorem C60_gamma_mixes_classes (ignore bias : Bool) :
    fitCell (gammaEst bias) ignore 1 2 gamVals [0, 1, 1] 0 1 = .ok (.fin eps, .fin eps) ∧
      Spread (cell 0 0 0 (classRows gamVals [0, 1, 1] 1)) := by
  have e' : cell 0 0 0 (classRows gamVals [0, 1, 1] 1) = [(1, 1), (2, 1)] := by
    simp [cell, classRows, gamVals, defaultW]
  have e : cell 0 1 0 (oneHotRows gamVals [0, 1, 1]) = [(0, 0), (1, 1), (2, 1)] := by
    simp [cell, oneHotRows, gamVals]
  refine ⟨?_, ?_⟩
  · unfold fitCell
    rw [fit_complete (gammaEst bias) ignore (C := 2) (R := 1) one_pos (by simp [oneHotRows, gamVals])
      (by
        intro row hrow f _
        simp only [oneHotRows, gamVals, List.zip_cons_cons, List.zip_nil_right, List.map_cons, List.map_nil, List.mem_cons,
          List.not_mem_nil, or_false] at hrow
        rcases hrow with rfl | rfl | rfl <;> simp)
      (by
        simp [totalW, oneHotRows, gamVals, Finset.sum_range_succ]
        try norm_num)]
    rw [e]
    unfold gammaEst
    rw [if_pos (.inr ⟨(0, 0), by simp, le_rfl⟩)]
    rfl
  · rw [e']
    exact ⟨by simp, by simp, (1, 1), by simp, (2, 1), by simp, one_pos, one_pos, by norm_num⟩

end Verif.NB

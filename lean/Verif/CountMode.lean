import Verif.CountInner

/-!
# C90: the mode of a hypergeometric leaf
-/

namespace Verif
namespace Count

/-- `mode`, hypergeometric.py:105-108: `floor((n + 1)·(K + 1) / (N + 2))`, which `mpe` writes for a missing entry. -/
def Hyp.mode (h : Hyp) : ℕ := (h.n + 1) * (h.K + 1) / (h.N + 2)

/-- The number of draws with `k` marked objects. -/
def ways (h : Hyp) (k : ℕ) : ℕ := h.K.choose k * (h.N - h.K).choose (h.n - k)

theorem ways_succ {h : Hyp} {k : ℕ} (hk : k < h.n) :
    ways h (k + 1) * ((k + 1) * (h.N - h.K - (h.n - k - 1))) = ways h k * ((h.K - k) * (h.n - k)) := by
  have a := Nat.choose_succ_right_eq h.K k
  have b := Nat.choose_succ_right_eq (h.N - h.K) (h.n - k - 1)
  rw [Nat.sub_add_cancel (by omega)] at b
  unfold ways
  rw [show h.n - (k + 1) = h.n - k - 1 by omega]
  calc _ = (h.K.choose (k + 1) * (k + 1)) * ((h.N - h.K).choose (h.n - k - 1) * (h.N - h.K - (h.n - k - 1))) := by ring
    _ = _ := by rw [a, ← b]; ring

theorem pmf_ways {h : Hyp} {k : ℕ} (hk : k ≤ h.n) : hyperPmf h k = (ways h k : ℝ) / h.N.choose h.n := by
  unfold hyperPmf ways
  rw [if_pos hk]
  push_cast
  rfl

theorem pmf_nonneg (h : Hyp) (k : ℕ) : 0 ≤ hyperPmf h k := by
  unfold hyperPmf
  split_ifs <;> positivity

theorem pmf_up {h : Hyp} (hv : h.Valid) {k : ℕ} (hm : (k + 1) * (h.N + 2) ≤ (h.n + 1) * (h.K + 1)) :
    hyperPmf h k ≤ hyperPmf h (k + 1) := by
  by_cases hs : h.lo ≤ k ∧ k ≤ h.hi
  · obtain ⟨b1, b2, b3, b4, b5⟩ := mask_bounds hv hs
    have hn : k < h.n := by
      by_contra hc
      obtain rfl : k = h.n := by omega
      have := Nat.le_of_mul_le_mul_left hm (by omega)
      omega
    have hK : k < h.K := by
      by_contra hc
      obtain rfl : k = h.K := by omega
      rw [mul_comm (h.n + 1)] at hm
      have := Nat.le_of_mul_le_mul_left hm (by omega)
      omega
    have e := ways_succ (h := h) hn
    have hAB : (k + 1) * (h.N - h.K - (h.n - k - 1)) ≤ (h.K - k) * (h.n - k) := by
      zify [b1, b2, b4, show k ≤ h.n from b2, show 1 ≤ h.n - k by omega, show h.n - k - 1 ≤ h.N - h.K by omega] at hm ⊢
      nlinarith
    have hB : 0 < (h.K - k) * (h.n - k) := Nat.mul_pos (by omega) (by omega)
    have hw : ways h k ≤ ways h (k + 1) := by
      refine Nat.le_of_mul_le_mul_right ?_ hB
      rw [← e]
      exact Nat.mul_le_mul_left _ hAB
    rw [pmf_ways b2, pmf_ways (show k + 1 ≤ h.n from hn)]
    exact div_le_div_of_nonneg_right (by exact_mod_cast hw) (by positivity)
  · rw [hyperPmf_off hv hs]
    exact pmf_nonneg _ _

theorem pmf_down {h : Hyp} (hv : h.Valid) {k : ℕ} (hm : (h.n + 1) * (h.K + 1) < (k + 1) * (h.N + 2)) :
    hyperPmf h (k + 1) ≤ hyperPmf h k := by
  by_cases hs : h.lo ≤ k + 1 ∧ k + 1 ≤ h.hi
  · obtain ⟨b1, b2, b3, b4, b5⟩ := mask_bounds hv hs
    have hlo : h.n - k ≤ h.N - h.K := by
      by_contra hc
      have e : k + 1 + h.N = h.n + h.K := by omega
      zify at e hm b4 b5
      have e' : (k : ℤ) + 1 = h.n + h.K - h.N := by linarith
      rw [e'] at hm
      nlinarith [mul_nonneg (sub_nonneg.2 b4) (sub_nonneg.2 b5)]
    have e := ways_succ (h := h) (k := k) (by omega)
    have hAB : (h.K - k) * (h.n - k) ≤ (k + 1) * (h.N - h.K - (h.n - k - 1)) := by
      zify [show k ≤ h.K by omega, show k ≤ h.n by omega, b4, show 1 ≤ h.n - k by omega,
        show h.n - k - 1 ≤ h.N - h.K by omega] at hm ⊢
      nlinarith
    have hA : 0 < (k + 1) * (h.N - h.K - (h.n - k - 1)) := Nat.mul_pos (by omega) (by omega)
    have hw : ways h (k + 1) ≤ ways h k := by
      refine Nat.le_of_mul_le_mul_right ?_ hA
      rw [e]
      exact Nat.mul_le_mul_left _ hAB
    rw [pmf_ways b2, pmf_ways (show k ≤ h.n by omega)]
    exact div_le_div_of_nonneg_right (by exact_mod_cast hw) (by positivity)
  · rw [hyperPmf_off hv hs]
    exact pmf_nonneg _ _

/-- **C90.** The mode of a hypergeometric leaf is a most likely count. -/
theorem C90_hyper_mode {h : Hyp} (hv : h.Valid) (k : ℕ) : h.lik k ≤ h.lik h.mode := by
  rw [C90_hyper_lik hv, C90_hyper_lik hv]
  rcases le_total k h.mode with hk | hk
  · refine Nat.le_induction (P := fun m _ => m ≤ h.mode → hyperPmf h k ≤ hyperPmf h m) (fun _ => le_rfl) (fun m _ ih hm => ?_)
      h.mode hk le_rfl
    refine (ih (by omega)).trans (pmf_up hv ?_)
    exact (Nat.le_div_iff_mul_le (by omega)).1 hm
  · refine Nat.le_induction (P := fun m _ => hyperPmf h m ≤ hyperPmf h h.mode) le_rfl (fun m hm ih => ?_) k hk
    refine (pmf_down hv ?_).trans ih
    have : h.mode < m + 1 := by omega
    exact (Nat.div_lt_iff_lt_mul (by omega)).1 this

/-- **C90.** Among the most likely counts, the mode lies in the support. -/
theorem C90_hyper_mode_support {h : Hyp} (hv : h.Valid) : h.lo ≤ h.mode ∧ h.mode ≤ h.hi := by
  by_contra hs
  have h0 : h.lik h.mode = 0 := by rw [C90_hyper_lik hv, hyperPmf_off hv hs]
  have h1 := C90_hyper_normalised hv
  have : (fun k => h.lik k) = fun _ => 0 := by
    funext k
    refine le_antisymm ((C90_hyper_mode hv k).trans h0.le) ?_
    rw [C90_hyper_lik hv]
    exact pmf_nonneg _ _
  rw [this] at h1
  exact zero_ne_one (hasSum_zero.unique h1)

/-- For 5 marked objects among 10 and 4 draws the mode is 2. -/
example : (⟨5, 10, 4⟩ : Hyp).Valid ∧ (⟨5, 10, 4⟩ : Hyp).mode = 2 := ⟨⟨by norm_num, by norm_num⟩, rfl⟩

end Count
end Verif

import Verif.SimpleLeaves
import Mathlib.Probability.Distributions.Poisson.Basic

/-!
# C73: hypergeometric, truncated and approximated leaf samplers
-/

namespace Verif.Simple

open Finset MeasureTheory

/-! ### Hypergeometric -/

theorem hypPmf_sum {K N n : ℕ} (hK : K ≤ N) (hn : n ≤ N) : ∑ k ∈ Ico (n + K - N) (min n K + 1), hypPmf K N n k = 1 := by
  have h0 : (N.choose n : ℝ) ≠ 0 := by exact_mod_cast (Nat.choose_pos hn).ne'
  have hv := Nat.add_choose_eq K (N - K) n
  rw [Nat.add_sub_cancel' hK, Finset.Nat.sum_antidiagonal_eq_sum_range_succ fun i j => K.choose i * (N - K).choose j] at hv
  have hsub : Ico (n + K - N) (min n K + 1) ⊆ range (n + 1) := fun k hk => by
    rw [mem_Ico] at hk; rw [mem_range]; omega
  rw [← sum_subset hsub] at hv
  · unfold hypPmf
    rw [← sum_div, div_eq_one_iff_eq h0, hv]
    push_cast
    rfl
  · intro k hk hk'
    rw [mem_range] at hk
    rw [mem_Ico, not_and_or] at hk'
    rcases hk' with h | h
    · rw [Nat.choose_eq_zero_of_lt (show N - K < n - k by omega), mul_zero]
    · rw [Nat.choose_eq_zero_of_lt (show K < k by omega), zero_mul]

/-- Hypergeometric: exactly the hypergeometric distribution, for every cell of the parameter tensor. -/
theorem C73_hypergeometric {lo hi K N n : ℕ} (hK : K ≤ N) (hn : n ≤ N) (hlo : lo ≤ n + K - N) (hhi : min n K ≤ hi) :
    (∀ k, n + K - N ≤ k → k ≤ min n K → prob (hi - lo + 1) (hypSample lo hi K N n) k = ENNReal.ofReal (hypPmf K N n k)) ∧
    ∀ t : ℝ, (∀ k : ℕ, n + K - N ≤ k → k ≤ min n K → (k : ℝ) ≠ t) → prob (hi - lo + 1) (hypSample lo hi K N n) t = 0 := by
  obtain ⟨w, hw⟩ : ∃ w : ℕ → ℝ, w = fun k => if k < n + K - N ∨ min n K < k then 0 else hypPmf K N n k := ⟨_, rfl⟩
  have hpos : ∀ k, 0 ≤ hypPmf K N n k := fun k => by unfold hypPmf; positivity
  have hs : ∑ i ∈ range (hi - lo + 1), w (lo + i) = 1 := by
    have := sum_Ico_eq_sum_range w lo (hi + 1)
    rw [show hi + 1 - lo = hi - lo + 1 by omega] at this
    rw [← this, ← hypPmf_sum hK hn, ← sum_subset (s₁ := Ico (n + K - N) (min n K + 1)) (fun k hk => by
      rw [mem_Ico] at hk ⊢; omega)]
    · exact sum_congr rfl fun k hk => by rw [mem_Ico] at hk; rw [hw]; exact if_neg (by omega)
    · intro k _ hk; rw [mem_Ico] at hk; rw [hw]; exact if_pos (by omega)
  have h := prob_rsample (n := hi - lo + 1) (l := hypLogits K N n lo) (w := fun i => w (lo + i)) (v := fun i => ((lo + i : ℕ) : ℝ))
    (fun i _ => by
      unfold hypLogits
      rw [hw]
      by_cases h : lo + i < n + K - N ∨ min n K < lo + i
      · rw [if_pos h]; beta_reduce; rw [if_pos h, expL_bot]
      · rw [if_neg h]; beta_reduce; rw [if_neg h, expL_logL (hpos _)])
    (exists_pos_of_sum hs) fun i _ j _ hij => by have : lo + i = lo + j := by exact_mod_cast hij
                                                 omega
  have hk : ∀ k, lo ≤ k → k ≤ hi → prob (hi - lo + 1) (hypSample lo hi K N n) k = ENNReal.ofReal (w k) := fun k h1 h2 => by
    have := h.1 (k - lo) (by omega)
    beta_reduce at this
    rw [hs, div_one, show lo + (k - lo) = k by omega] at this
    exact this
  refine ⟨fun k h1 h2 => ?_, fun t ht => ?_⟩
  · rw [hk k (by omega) (by omega), hw]; beta_reduce; rw [if_neg (by omega)]
  · by_cases hc : ∃ i < hi - lo + 1, ((lo + i : ℕ) : ℝ) = t
    · obtain ⟨i, hi', rfl⟩ := hc
      rw [hk _ (by omega) (by omega), hw]
      beta_reduce
      rw [if_pos (by by_contra h'; exact ht (lo + i) (by omega) (by omega) rfl), ENNReal.ofReal_zero]
    · push Not at hc
      exact h.2 t hc

/-! ### Truncated samplers -/

/-- The truncated sampler draws from the distribution conditioned on not exceeding the truncation point. -/
theorem C73_truncated_law {pmf : ℕ → ℝ} (h0 : ∀ k, 0 ≤ pmf k) (h1 : 0 < pmf 0) (K : ℕ) :
    (∀ k ≤ K, prob (K + 1) (truncSample pmf K) k = ENNReal.ofReal (pmf k / ∑ j ∈ range (K + 1), pmf j)) ∧
    ∀ t : ℝ, (∀ k ≤ K, (k : ℝ) ≠ t) → prob (K + 1) (truncSample pmf K) t = 0 := by
  have h := prob_rsample (n := K + 1) (l := fun k => logL (pmf k)) (w := pmf) (v := fun k => (k : ℝ)) (fun k _ => expL_logL (h0 k))
    ⟨0, by omega, h1⟩ fun i _ j _ hij => by exact_mod_cast hij
  exact ⟨fun k hk => h.1 k (by omega), fun t ht => h.2 t fun i hi => ht i (by omega)⟩

/-- The distance to the leaf's distribution: `sum_k |P(sample = k) - pmf k|` is twice the mass beyond the truncation point. -/
theorem C73_truncated_error {pmf : ℕ → ℝ} (h0 : ∀ k, 0 ≤ pmf k) (h1 : 0 < pmf 0) (hs : HasSum pmf 1) (K : ℕ) :
    HasSum (fun k : ℕ => |(prob (K + 1) (truncSample pmf K) k).toReal - pmf k|) (2 * (1 - ∑ k ∈ range (K + 1), pmf k)) := by
  obtain ⟨S, hS⟩ : ∃ S, S = ∑ j ∈ range (K + 1), pmf j := ⟨_, rfl⟩
  have hSp : 0 < S := by rw [hS]; exact sum_pos' (fun i _ => h0 i) ⟨0, by simp, h1⟩
  have hS1 : S ≤ 1 := by rw [hS]; exact sum_le_hasSum _ (fun i _ => h0 i) hs
  have hl := C73_truncated_law h0 h1 K
  have hlow : ∀ k ∈ range (K + 1), |(prob (K + 1) (truncSample pmf K) k).toReal - pmf k| = pmf k / S - pmf k := fun k hk => by
    have hk' : k ≤ K := by rw [mem_range] at hk; omega
    have : pmf k ≤ pmf k / S := by rw [le_div_iff₀ hSp]; exact mul_le_of_le_one_right (h0 k) hS1
    rw [hl.1 k hk', ← hS, ENNReal.toReal_ofReal (div_nonneg (h0 k) hSp.le), abs_of_nonneg (by linarith)]
  have hhigh : ∀ k, |(prob (K + 1) (truncSample pmf K) ((k + (K + 1) : ℕ) : ℝ)).toReal - pmf (k + (K + 1))| = pmf (k + (K + 1)) := fun k => by
    rw [hl.2 _ fun j hj h => by have : j = k + (K + 1) := by exact_mod_cast h
                                omega, ENNReal.toReal_zero, zero_sub, abs_neg, abs_of_nonneg (h0 _)]
  have htail : HasSum (fun k => pmf (k + (K + 1))) (1 - S) := by
    rw [hasSum_nat_add_iff, hS, sub_add_cancel]; exact hs
  have := (hasSum_nat_add_iff (f := fun k : ℕ => |(prob (K + 1) (truncSample pmf K) k).toReal - pmf k|) (K + 1) (g := 1 - S)).1
    (by rw [show (fun n : ℕ => |(prob (K + 1) (truncSample pmf K) ((n + (K + 1) : ℕ) : ℝ)).toReal - pmf (n + (K + 1))|) = fun k => pmf (k + (K + 1)) from
          funext hhigh]
        exact htail)
  rw [sum_congr rfl hlow, sum_sub_distrib, ← sum_div, ← hS, div_self hSp.ne'] at this
  rw [← hS, two_mul]
  exact this

/-- Chebyshev: beyond ten standard deviations there is at most a hundredth of the mass. -/
theorem tail_le {pmf : ℕ → ℝ} (h0 : ∀ k, 0 ≤ pmf k) (hs : HasSum pmf 1) {m s : ℝ} (hs0 : 0 ≤ s)
    (hv : HasSum (fun k : ℕ => ((k : ℝ) - m) ^ 2 * pmf k) (s ^ 2)) {K : ℕ} (hK : m + 10 * s + 10 ≤ K) :
    1 - ∑ k ∈ range (K + 1), pmf k ≤ 1 / 100 := by
  have htail : HasSum (fun k => pmf (k + (K + 1))) (1 - ∑ k ∈ range (K + 1), pmf k) := by
    rw [hasSum_nat_add_iff, sub_add_cancel]; exact hs
  have hv' : HasSum (fun k : ℕ => (((k + (K + 1) : ℕ) : ℝ) - m) ^ 2 * pmf (k + (K + 1)))
      (s ^ 2 - ∑ k ∈ range (K + 1), ((k : ℝ) - m) ^ 2 * pmf k) := by
    rw [hasSum_nat_add_iff (f := fun k : ℕ => ((k : ℝ) - m) ^ 2 * pmf k), sub_add_cancel]; exact hv
  have hle := hasSum_le (fun k => by
    have h1 : 10 * s + 10 ≤ ((k + (K + 1) : ℕ) : ℝ) - m := by push_cast; have : (0 : ℝ) ≤ k := by positivity
                                                              linarith
    have h2 : (10 * s + 10) ^ 2 ≤ (((k + (K + 1) : ℕ) : ℝ) - m) ^ 2 := pow_le_pow_left₀ (by linarith) h1 2
    exact mul_le_mul_of_nonneg_right h2 (h0 _)) (htail.mul_left ((10 * s + 10) ^ 2)) hv'
  have hnn : 0 ≤ ∑ k ∈ range (K + 1), ((k : ℝ) - m) ^ 2 * pmf k := sum_nonneg fun k _ => mul_nonneg (sq_nonneg _) (h0 k)
  have ht0 : 0 ≤ 1 - ∑ k ∈ range (K + 1), pmf k := htail.nonneg fun k => h0 _
  nlinarith

theorem truncAt_ge {cells : List (ℝ × ℝ)} {cap : ℕ} (hcap : truncAt cells cap < cap) {c : ℝ × ℝ} (hc : c ∈ cells) :
    c.1 + 10 * c.2 + 10 ≤ truncAt cells cap := by
  have hmax : ∀ (l : List ℤ) (a : ℤ), a ≤ l.foldl max a ∧ ∀ x ∈ l, x ≤ l.foldl max a := by
    intro l
    induction l with
    | nil => intro a; exact ⟨le_rfl, fun x hx => by cases hx⟩
    | cons y l ih =>
      intro a
      obtain ⟨h1, h2⟩ := ih (max a y)
      refine ⟨(le_max_left _ _).trans h1, fun x hx => ?_⟩
      rcases List.mem_cons.1 hx with rfl | hx
      · exact (le_max_right _ _).trans h1
      · exact h2 x hx
  unfold truncAt at hcap ⊢
  obtain ⟨M, hM⟩ : ∃ M, M = (cells.map fun c => ⌈c.1 + 10 * c.2 + 10⌉).foldl max 0 := ⟨_, rfl⟩
  have hm := (hmax (cells.map fun c => ⌈c.1 + 10 * c.2 + 10⌉) 0)
  rw [← hM] at hm hcap ⊢
  have h1 := hm.2 _ (List.mem_map_of_mem (f := fun c : ℝ × ℝ => ⌈c.1 + 10 * c.2 + 10⌉) hc)
  rw [min_eq_left (by omega)]
  have h2 : ((M.toNat : ℕ) : ℤ) = M := Int.toNat_of_nonneg hm.1
  calc c.1 + 10 * c.2 + 10 ≤ ⌈c.1 + 10 * c.2 + 10⌉ := Int.le_ceil _
    _ ≤ (M : ℝ) := by exact_mod_cast h1
    _ = ((M.toNat : ℕ) : ℝ) := by exact_mod_cast (congrArg (Int.cast (R := ℝ)) h2).symm

/-! ### Poisson -/

theorem poissonPmf_nonneg {r : ℝ} (h : 0 ≤ r) (k : ℕ) : 0 ≤ poissonPmf r k := by unfold poissonPmf; positivity

theorem poissonPmf_sum {r : ℝ} (h : 0 ≤ r) : HasSum (poissonPmf r) 1 := ProbabilityTheory.hasSum_one_poissonMeasure ⟨r, h⟩

theorem poissonPmf_succ (r : ℝ) (k : ℕ) : ((k + 1 : ℕ) : ℝ) * poissonPmf r (k + 1) = r * poissonPmf r k := by
  unfold poissonPmf
  have : ((k + 1 : ℕ) : ℝ) ≠ 0 := by positivity
  have h2 : (k.factorial : ℝ) ≠ 0 := by positivity
  rw [Nat.factorial_succ]
  push_cast at this ⊢
  field_simp
  ring

theorem poisson_mean {r : ℝ} (h : 0 ≤ r) : HasSum (fun k : ℕ => (k : ℝ) * poissonPmf r k) r := by
  have := (hasSum_nat_add_iff (f := fun k : ℕ => (k : ℝ) * poissonPmf r k) 1 (g := r)).1
    (by rw [show (fun n : ℕ => ((n + 1 : ℕ) : ℝ) * poissonPmf r (n + 1)) = fun k => r * poissonPmf r k from funext (poissonPmf_succ r)]
        simpa using (poissonPmf_sum h).mul_left r)
  simpa using this

theorem poisson_second {r : ℝ} (h : 0 ≤ r) : HasSum (fun k : ℕ => (k : ℝ) * (k - 1) * poissonPmf r k) (r * r) := by
  have := (hasSum_nat_add_iff (f := fun k : ℕ => (k : ℝ) * (k - 1) * poissonPmf r k) 1 (g := r * r)).1
    (by rw [show (fun n : ℕ => ((n + 1 : ℕ) : ℝ) * (((n + 1 : ℕ) : ℝ) - 1) * poissonPmf r (n + 1)) = fun k : ℕ => r * ((k : ℝ) * poissonPmf r k) from
          funext fun k => by rw [mul_right_comm, poissonPmf_succ]; push_cast; ring]
        exact (poisson_mean h).mul_left r)
  simpa using this

theorem poisson_var {r : ℝ} (h : 0 ≤ r) : HasSum (fun k : ℕ => ((k : ℝ) - r) ^ 2 * poissonPmf r k) r := by
  have := ((poisson_second h).add ((poisson_mean h).mul_left (1 - 2 * r))).add ((poissonPmf_sum h).mul_left (r ^ 2))
  convert this using 1
  · funext k; ring
  · ring

/-- Poisson: the law of the sampler is the Poisson distribution conditioned on not exceeding the truncation point; unless
the cap of 2048 is hit, the total error is at most `2/100`. -/
theorem C73_poisson_partial {rates : List ℝ} {r : ℝ} (hr : r ∈ rates) (h : 0 < r) :
    (∀ k ≤ poissonMax rates, prob (poissonMax rates + 1) (truncSample (poissonPmf r) (poissonMax rates)) k =
      ENNReal.ofReal (poissonPmf r k / ∑ j ∈ range (poissonMax rates + 1), poissonPmf r j)) ∧
    (poissonMax rates < 2048 →
      ∑' k : ℕ, |(prob (poissonMax rates + 1) (truncSample (poissonPmf r) (poissonMax rates)) k).toReal - poissonPmf r k| ≤ 2 / 100) := by
  have hp : 0 < poissonPmf r 0 := by unfold poissonPmf; positivity
  refine ⟨(C73_truncated_law (poissonPmf_nonneg h.le) hp _).1, fun hcap => ?_⟩
  rw [(C73_truncated_error (poissonPmf_nonneg h.le) hp (poissonPmf_sum h.le) _).tsum_eq]
  have hge := truncAt_ge hcap (List.mem_map_of_mem (f := fun r : ℝ => (r, √(max r 0))) hr)
  have := tail_le (poissonPmf_nonneg h.le) (poissonPmf_sum h.le) (m := r) (s := √(max r 0)) (Real.sqrt_nonneg _)
    (by rw [max_eq_left h.le, Real.sq_sqrt h.le]; exact poisson_var h.le) hge
  replace this : 1 - ∑ k ∈ range (poissonMax rates + 1), poissonPmf r k ≤ 1 / 100 := this
  linarith

/-! ### Negative binomial and geometric -/

theorem nbPmf_nonneg {p : ℝ} (h0 : 0 ≤ p) (h1 : p < 1) (r k : ℕ) : 0 ≤ nbPmf r p k := by
  unfold nbPmf
  have := sub_pos.2 h1
  positivity

theorem nbPmf_sum {p : ℝ} (h0 : 0 ≤ p) (h1 : p < 1) {r : ℕ} (hr : 1 ≤ r) : HasSum (nbPmf r p) 1 := by
  have hq := sub_pos.2 h1
  have := hasSum_choose_mul_geometric_of_norm_lt_one (r - 1) (r := p) (by rw [Real.norm_of_nonneg h0]; exact h1)
  have := this.mul_left ((1 - p) ^ r)
  rw [show r - 1 + 1 = r by omega, mul_one_div, div_self (pow_pos hq r).ne'] at this
  have e : nbPmf r p = fun k => (1 - p) ^ r * (((k + (r - 1)).choose (r - 1) : ℕ) * p ^ k) := by
   funext k
   unfold nbPmf
   rw [show k + r - 1 = k + (r - 1) by omega, Nat.choose_symm_add]
   ring
  rw [e]
  exact this

theorem nbPmf_succ {p : ℝ} (h1 : p < 1) {r : ℕ} (hr : 1 ≤ r) (k : ℕ) :
    ((k + 1 : ℕ) : ℝ) * nbPmf r p (k + 1) = r * p / (1 - p) * nbPmf (r + 1) p k := by
  have hq := (sub_pos.2 h1).ne'
  unfold nbPmf
  have hc : (k + r).choose (k + 1) * (k + 1) = (k + r).choose k * r := by
    rw [Nat.choose_succ_right_eq]; congr 1; omega
  have hc' : ((k + r).choose (k + 1) : ℝ) * ((k + 1 : ℕ) : ℝ) = (k + r).choose k * r := by exact_mod_cast hc
  rw [show k + 1 + r - 1 = k + r by omega, show k + (r + 1) - 1 = k + r by omega]
  have : ((k + 1 : ℕ) : ℝ) * (((k + r).choose (k + 1) : ℝ) * (1 - p) ^ r * p ^ (k + 1))
      = (((k + r).choose (k + 1) : ℝ) * ((k + 1 : ℕ) : ℝ)) * (1 - p) ^ r * p ^ (k + 1) := by ring
  rw [this, hc', pow_succ (1 - p), pow_succ p]
  field_simp

theorem nb_mean {p : ℝ} (h0 : 0 ≤ p) (h1 : p < 1) {r : ℕ} (hr : 1 ≤ r) :
    HasSum (fun k : ℕ => (k : ℝ) * nbPmf r p k) (r * p / (1 - p)) := by
  have := (hasSum_nat_add_iff (f := fun k : ℕ => (k : ℝ) * nbPmf r p k) 1 (g := r * p / (1 - p))).1
    (by rw [show (fun n : ℕ => ((n + 1 : ℕ) : ℝ) * nbPmf r p (n + 1)) = fun k => r * p / (1 - p) * nbPmf (r + 1) p k from
          funext (nbPmf_succ h1 hr)]
        simpa using (nbPmf_sum h0 h1 (r := r + 1) (by omega)).mul_left (r * p / (1 - p)))
  simpa using this

theorem nb_second {p : ℝ} (h0 : 0 ≤ p) (h1 : p < 1) {r : ℕ} (hr : 1 ≤ r) :
    HasSum (fun k : ℕ => (k : ℝ) * (k - 1) * nbPmf r p k) (r * p / (1 - p) * ((r + 1 : ℕ) * p / (1 - p))) := by
  have := (hasSum_nat_add_iff (f := fun k : ℕ => (k : ℝ) * (k - 1) * nbPmf r p k) 1 (g := r * p / (1 - p) * ((r + 1 : ℕ) * p / (1 - p)))).1
    (by rw [show (fun n : ℕ => ((n + 1 : ℕ) : ℝ) * (((n + 1 : ℕ) : ℝ) - 1) * nbPmf r p (n + 1))
          = fun k : ℕ => r * p / (1 - p) * ((k : ℝ) * nbPmf (r + 1) p k) from
          funext fun k => by rw [mul_right_comm, nbPmf_succ h1 hr]; push_cast; ring]
        exact (nb_mean h0 h1 (r := r + 1) (by omega)).mul_left _)
  simpa using this

theorem nb_var {p : ℝ} (h0 : 0 ≤ p) (h1 : p < 1) {r : ℕ} (hr : 1 ≤ r) :
    HasSum (fun k : ℕ => ((k : ℝ) - r * p / (1 - p)) ^ 2 * nbPmf r p k) (r * p / ((1 - p) * (1 - p))) := by
  have hq := (sub_pos.2 h1).ne'
  have := ((nb_second h0 h1 hr).add ((nb_mean h0 h1 hr).mul_left (1 - 2 * (r * p / (1 - p))))).add
    ((nbPmf_sum h0 h1 hr).mul_left ((r * p / (1 - p)) ^ 2))
  convert this using 1
  · funext k; ring
  · push_cast; field_simp; ring

/-- Negative binomial, as for Poisson. -/
theorem C73_negative_binomial_partial {cells : List (ℕ × ℝ)} {r : ℕ} {p : ℝ} (hc : (r, p) ∈ cells) (hr : 1 ≤ r) (h0 : 0 ≤ p) (h1 : p < 1) :
    (∀ k ≤ nbMax cells, prob (nbMax cells + 1) (truncSample (nbPmf r p) (nbMax cells)) k =
      ENNReal.ofReal (nbPmf r p k / ∑ j ∈ range (nbMax cells + 1), nbPmf r p j)) ∧
    (nbMax cells < 2048 →
      ∑' k : ℕ, |(prob (nbMax cells + 1) (truncSample (nbPmf r p) (nbMax cells)) k).toReal - nbPmf r p k| ≤ 2 / 100) := by
  have hq := sub_pos.2 h1
  have hp : 0 < nbPmf r p 0 := by unfold nbPmf; simp; positivity
  refine ⟨(C73_truncated_law (nbPmf_nonneg h0 h1 r) hp _).1, fun hcap => ?_⟩
  rw [(C73_truncated_error (nbPmf_nonneg h0 h1 r) hp (nbPmf_sum h0 h1 hr) _).tsum_eq]
  have hge := truncAt_ge hcap (List.mem_map_of_mem (f := fun c : ℕ × ℝ => ((c.1 : ℝ) * c.2 / (1 - c.2), √(c.1 * c.2 / ((1 - c.2) * (1 - c.2))))) hc)
  have := tail_le (nbPmf_nonneg h0 h1 r) (nbPmf_sum h0 h1 hr) (m := r * p / (1 - p)) (s := √(r * p / ((1 - p) * (1 - p)))) (Real.sqrt_nonneg _)
    (by rw [Real.sq_sqrt (by positivity)]; exact nb_var h0 h1 hr) hge
  replace this : 1 - ∑ k ∈ range (nbMax cells + 1), nbPmf r p k ≤ 1 / 100 := this
  linarith

theorem geom_eq (p : ℝ) : geomPmf p = nbPmf 1 (1 - p) := by
  funext k
  unfold geomPmf nbPmf
  simp
  ring

/-- Geometric, as for Poisson, with cap 1024. -/
theorem C73_geometric_partial {ps : List ℝ} {p : ℝ} (hp : p ∈ ps) (h0 : 0 < p) (h1 : p ≤ 1) :
    (∀ k ≤ geomMax ps, prob (geomMax ps + 1) (truncSample (geomPmf p) (geomMax ps)) k =
      ENNReal.ofReal (geomPmf p k / ∑ j ∈ range (geomMax ps + 1), geomPmf p j)) ∧
    (geomMax ps < 1024 →
      ∑' k : ℕ, |(prob (geomMax ps + 1) (truncSample (geomPmf p) (geomMax ps)) k).toReal - geomPmf p k| ≤ 2 / 100) := by
  have ha : 0 ≤ 1 - p := by linarith
  have hb : 1 - p < 1 := by linarith
  have hn : ∀ k, 0 ≤ geomPmf p k := by rw [geom_eq]; exact nbPmf_nonneg ha hb 1
  have hs : HasSum (geomPmf p) 1 := by rw [geom_eq]; exact nbPmf_sum ha hb le_rfl
  have hz : 0 < geomPmf p 0 := by unfold geomPmf; simpa using h0
  refine ⟨(C73_truncated_law hn hz _).1, fun hcap => ?_⟩
  rw [(C73_truncated_error hn hz hs _).tsum_eq]
  have hge := truncAt_ge hcap (List.mem_map_of_mem (f := fun p : ℝ => ((1 - p) / p, √(1 - p) / p)) hp)
  have hv := nb_var ha hb (r := 1) le_rfl
  rw [← geom_eq] at hv
  have := tail_le hn hs (m := (1 - p) / p) (s := √(1 - p) / p) (by positivity)
    (by rw [div_pow, Real.sq_sqrt ha]
        convert hv using 1
        · funext k; norm_num
        · norm_num; rw [sq]) hge
  replace this : 1 - ∑ k ∈ range (geomMax ps + 1), geomPmf p k ≤ 1 / 100 := this
  linarith

end Verif.Simple

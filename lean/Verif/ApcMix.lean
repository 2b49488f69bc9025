import Verif.ApcStats
import Verif.ApcTrainProps
import Mathlib.Analysis.Convex.SpecificFunctions.Basic
import Mathlib.Analysis.SpecialFunctions.Log.NegMulLog

/-!
# C74: the divergence of the posterior against the divergence of one routed component; witnesses
-/

namespace Verif.Apc

open Finset

/-- The posterior of a latent coordinate given the evidence: the mixture of the leaf components `p c` with the probabilities `π c` of
routing to them. -/
def posterior {ι : Type} (s : Finset ι) (π : ι → ℝ) (p : ι → ℕ → ℝ) (k : ℕ) : ℝ := ∑ c ∈ s, π c * p c k

/-- The divergence of the posterior is at most the expected divergence of the routed component. -/
theorem C74_posterior_le {ι : Type} (s : Finset ι) {π : ι → ℝ} (h0 : ∀ c ∈ s, 0 ≤ π c) (h1 : ∑ c ∈ s, π c = 1) (n : ℕ)
    {p : ι → ℕ → ℝ} (hp : ∀ c ∈ s, ∀ k, 0 ≤ p c k) {q : ℕ → ℝ} (hq : ∀ k < n, 0 < q k) :
    klSum n (posterior s π p) q ≤ ∑ c ∈ s, π c * klSum n (p c) q := by
  unfold klSum
  simp only [mul_sum]
  rw [sum_comm]
  refine sum_le_sum fun k hk => ?_
  have hqk := hq k (mem_range.1 hk)
  have hJ := Real.convexOn_mul_log.map_sum_le (t := s) (w := π) (p := fun c => p c k / q k) h0 h1
    fun c hc => Set.mem_Ici.2 (div_nonneg (hp c hc k) hqk.le)
  simp only [smul_eq_mul] at hJ
  have e : ∑ c ∈ s, π c * (p c k / q k) = posterior s π p k / q k := by
    unfold posterior
    rw [sum_div]
    exact sum_congr rfl fun c _ => by ring
  rw [e] at hJ
  have h2 := mul_le_mul_of_nonneg_left hJ hqk.le
  calc posterior s π p k * Real.log (posterior s π p k / q k)
      = q k * (posterior s π p k / q k * Real.log (posterior s π p k / q k)) := by field_simp
    _ ≤ _ := h2
    _ = _ := by
      rw [mul_sum]
      exact sum_congr rfl fun c _ => by field_simp

/-- A coin that is not fair has a positive divergence from the fair coin. -/
theorem klSum_coin_pos {p : ℝ} (h0 : 0 < p) (h1 : p < 1) (h : p ≠ 1 / 2) : 0 < klSum 2 (bern p) (bern (1 / 2)) := by
  have h2 : 0 < 1 - p := by linarith
  unfold klSum bern
  rw [sum_range_succ, sum_range_one, if_pos rfl, if_neg one_ne_zero, if_pos rfl, if_neg one_ne_zero,
    show (1 : ℝ) - 1 / 2 = 1 / 2 by norm_num]
  have a := Real.log_lt_sub_one_of_pos (x := (1 / 2) / p) (by positivity) (fun hc => h (by field_simp at hc; linarith))
  have b := Real.log_le_sub_one_of_pos (x := (1 / 2) / (1 - p)) (by positivity)
  rw [← inv_div, Real.log_inv] at a b
  rw [inv_div] at a b
  have a' : p * (1 - (1 / 2) / p) < p * Real.log (p / (1 / 2)) := mul_lt_mul_of_pos_left (by linarith) h0
  have b' : (1 - p) * (1 - (1 / 2) / (1 - p)) ≤ (1 - p) * Real.log ((1 - p) / (1 / 2)) := mul_le_mul_of_nonneg_left (by linarith) h2.le
  have e1 : p * (1 - (1 / 2) / p) = p - 1 / 2 := by field_simp
  have e2 : (1 - p) * (1 - (1 / 2) / (1 - p)) = 1 - p - 1 / 2 := by field_simp
  linarith

/-- Two Bernoulli channels with logits 1 and -1. -/
def twoCoins : ℕ → ℕ → ℕ → ℝ := fun _ c _ => if c = 0 then 1 else -1

/-- **The reported value is not the divergence of the posterior.** A leaf with two channels of logits 1 and -1, each routed to with
probability 1/2: the posterior of the latent is the fair coin, that is the prior itself, so its divergence is 0; but the value reported
for either routing is positive. -/
theorem C74_not_posterior_kl {eps : ℝ} (h0 : 0 < eps) (h1 : eps ≤ 1 / 8) :
    klSum 2 (posterior (range 2) (fun _ => 1 / 2) fun c => bern (Real.sigmoid (twoCoins 0 c 0))) (bern (1 / 2)) = 0 ∧
      ∀ c < 2, ∃ s, statsOf eps .bernoulli 1 1 2 1 (fun _ _ => c) (fun _ => 0) (bernoulliParams 1 2 1 twoCoins) = .ok s ∧
        0 < s.kld 0 := by
  have hneg : Real.sigmoid (-1) = 1 - Real.sigmoid 1 := Real.sigmoid_neg 1
  refine ⟨?_, fun c hc => ?_⟩
  · unfold klSum posterior
    have e : ∀ k, ∑ c ∈ range 2, (1 / 2 : ℝ) * bern (Real.sigmoid (twoCoins 0 c 0)) k = 1 / 2 := by
      intro k
      rw [sum_range_succ, sum_range_one]
      unfold twoCoins bern
      rw [if_pos rfl, if_neg one_ne_zero, hneg]
      split_ifs <;> ring
    have e' : ∀ k, bern (1 / 2) k = 1 / 2 := fun k => by unfold bern; split_ifs <;> norm_num
    simp only [e, e']
    norm_num
  · obtain ⟨s, hs, hk⟩ := C74_bernoulli h0 (by linarith) (B := 1) (D := 1) (C := 2) (R := 1) (ch := fun _ _ => c) (rep := fun _ => 0)
      ⟨fun _ _ _ _ => hc, fun _ _ => Nat.zero_lt_one⟩ twoCoins
    refine ⟨s, hs, ?_⟩
    rw [(hk 0 Nat.zero_lt_one).1, sum_range_one]
    refine klSum_coin_pos (clamp_pos h0 (by linarith)).1 (clamp_pos h0 (by linarith)).2 fun hcl => ?_
    have hs1 : (1 : ℝ) / 2 < Real.sigmoid 1 := by
      have := Real.sigmoid_strictMono (show (0 : ℝ) < 1 by norm_num)
      rw [Real.sigmoid_zero] at this
      linarith
    have hne : Real.sigmoid (twoCoins 0 c 0) ≠ 1 / 2 := by
      unfold twoCoins
      split_ifs
      · linarith
      · rw [hneg]; linarith
    unfold clamp at hcl
    rcases min_choice (max (Real.sigmoid (twoCoins 0 c 0)) eps) (1 - eps) with hm | hm
    · rw [hm] at hcl
      rcases max_choice (Real.sigmoid (twoCoins 0 c 0)) eps with hx | hx
      · rw [hx] at hcl; exact hne hcl
      · rw [hx] at hcl; linarith
    · rw [hm] at hcl; linarith

/-! ### Concrete cases -/

/-- A batch of two rows, two latent dimensions, two channels and two repetitions. -/
example : Route 2 2 2 2 (fun b j => (b + j) % 2) (fun b => b) :=
  ⟨fun _ _ _ _ => Nat.mod_lt _ (by omega), fun _ h => h⟩

/-- An encoder of rows `(x, noise)`: the latent is `x + noise`, the statistics are those of `N(x, 1)`. -/
noncomputable def exEnc : Enc (ℝ × ℝ) ℝ where
  flat x := [x.1]
  encode x := x.1 + x.2
  encodeStats x := some (x.1 ^ 2 / 2, x.1 + x.2, x.1)
  decode z := [z]
  jointLL x z := -(x.1 - z) ^ 2
  margLL x := -x.1 ^ 2

/-- All three terms, mean squared error, decoding the most likely latent. -/
noncomputable def exCfg : Cfg := ⟨.mse, true, true, ⟨1, 2, 3⟩⟩

theorem exUsable (x : ℝ × ℝ) : Usable exCfg exEnc x := ⟨fun _ => rfl, fun _ => rfl⟩

/-- The hypotheses of `C74_components`, `C74_evaluate` and `C74_evaluate_batch_size` are met; here the objective of two rows. -/
example : components exCfg exEnc [(1, 2), (3, 0)] = .ok (means exCfg exEnc [(1, 2), (3, 0)]) ∧
    mean (rowTotal exCfg exEnc) [(1, 2), (3, 0)] = 11 := by
  refine ⟨C74_components _ _ (by simp) (fun _ h => by cases h) fun x _ => exUsable x, ?_⟩
  simp [mean, rowTotal, rowRec, rowKld, rowNll, rowLatent, exCfg, exEnc, rowLoss]
  norm_num

example : evaluate (components exCfg exEnc) true (loader 2 [(1, 2), (3, 0), (5, 1)]) =
    evaluate (components exCfg exEnc) true (loader 1 [(3, 0), (1, 2), (5, 1)]) :=
  C74_evaluate_batch_size exCfg exEnc true (List.Perm.swap _ _ _) (by simp) (by omega) (by omega) (fun _ h => by cases h)
    fun x _ => exUsable x

/-- `fit_apc` returns: one epoch, a counter of steps as parameters. -/
example : ∃ q h, fit (fun _ : ℕ => components exCfg exEnc) (fun n _ => n + 1) 1 (fun _ xs => xs) (.tensor [(1, 2), (3, 0)]) none 1 0 =
    .ok (q, h) ∧ q = 2 := by
  have hu : ∀ x : ℝ × ℝ, components exCfg exEnc [x] = .ok (means exCfg exEnc [x]) := fun x =>
    C74_components _ _ (by simp) (fun _ h => by cases h) fun y _ => exUsable y
  have hb : (Source.tensor [((1 : ℝ), (2 : ℝ)), (3, 0)]).batches 1 (fun _ xs => xs) 0 = [[(1, 2)], [(3, 0)]] := rfl
  have : ∃ h, fit (fun _ : ℕ => components exCfg exEnc) (fun n _ => n + 1) 1 (fun _ xs => xs) (.tensor [(1, 2), (3, 0)]) none 1 0 =
      .ok (2, h) := by
    unfold fit
    rw [fitFrom, hb, trainLoop_eq]
    simp only [epochLosses, hu, weighted]
    constructor
    rfl
  obtain ⟨h, hh⟩ := this
  exact ⟨2, h, hh, rfl⟩

end Verif.Apc

import Verif.ConvProps
import Verif.EmProps

/-!
# C50: SumConv
-/

namespace Verif.Conv

open Finset

/-- A number of features that is a perfect square (images are square). -/
def Square (F : ℕ) : Prop := side F * side F = F

theorem square_mul (H : ℕ) : Square (H * H) ∧ side (H * H) = H := by
  have : side (H * H) = H := Nat.sqrt_eq H
  exact ⟨by unfold Square; rw [this], this⟩

/-- Position of pixel `f` of an `H` x `H` image inside the kernel. -/
def kpos (H K f : ℕ) : ℕ × ℕ := (f / H % K, f % H % K)

theorem block_index {H K f : ℕ} (hK : 1 ≤ K) (hd : K ∣ H) :
    ((f / K / (H / K) / K * K + f / K / (H / K) % K) * H + (f / K % (H / K) * K + f % K) = f) ∧
      f / K / (H / K) % K = f / H % K ∧ f % K = f % H % K := by
  obtain ⟨q, rfl⟩ := hd
  have e : K * q / K = q := Nat.mul_div_cancel_left _ hK
  rw [e, Nat.div_add_mod', Nat.div_div_eq_div_mul]
  refine ⟨?_, rfl, (Nat.mod_mod_of_dvd f ⟨q, rfl⟩).symm⟩
  have hm : f % (K * q) = f % K + K * (f / K % q) := Nat.mod_mul
  have hdm := Nat.div_add_mod' f (K * q)
  rw [hm] at hdm
  calc f / (K * q) * (K * q) + (f / K % q * K + f % K)
      = f / (K * q) * (K * q) + (f % K + K * (f / K % q)) := by ring
    _ = f := hdm

/-- C50: `log_likelihood` leaves every pixel in place and mixes its channels with the weights of the pixel's position
inside the kernel; an image smaller than the kernel uses the weights of position (0, 0) for every pixel. -/
theorem C50_pixel_mixture {L : SumConv} (hK : 1 ≤ L.K) {inF inR : ℕ} {ll T : Tens} (h : L.logLik inF inR ll = .ok T)
    {f : ℕ} (co r : ℕ) :
    expL (T f co r) = ∑ ci ∈ range L.Ci,
      (if side inF < L.K then L.weight co ci 0 0 r
        else L.weight co ci (kpos (side inF) L.K f).1 (kpos (side inF) L.K f).2 r) * expL (ll f ci r) := by
  unfold SumConv.logLik at h
  split at h; · cases h
  split at h; · cases h
  split at h; · cases h
  split at h
  · rename_i hs
    cases h
    rw [expL_lse]
    refine sum_congr rfl fun ci _ => ?_
    rw [expL_add, if_pos hs, mul_comm]
    unfold SumConv.logW SumConv.weight
    rw [expL_logSoftmax_eq_softmax]
  · rename_i hs
    split at h; · cases h
    rename_i hd
    cases h
    obtain ⟨h1, h2, h3⟩ := block_index (f := f) hK (Nat.dvd_of_mod_eq_zero (not_not.1 hd) : L.K ∣ side inF)
    unfold fromBlocks
    rw [expL_lse]
    refine sum_congr rfl fun ci _ => ?_
    rw [expL_add, if_neg hs, mul_comm]
    unfold SumConv.logW SumConv.weight toBlocks kpos
    rw [expL_logSoftmax_eq_softmax, h1, h2, h3]

/-- C50: when `log_likelihood` raises. -/
theorem C50_evaluates_iff {L : SumConv} (hR : 1 ≤ L.R) (inF inR : ℕ) (ll : Tens) :
    (∃ T, L.logLik inF inR ll = .ok T) ↔ inR = L.R ∧ Square inF ∧ (side inF < L.K ∨ L.K ∣ side inF) := by
  unfold SumConv.logLik Square
  by_cases h1 : inR = 1 ∧ 1 < L.R
  · rw [if_pos h1]; exact ⟨fun ⟨_, h⟩ => (by cases h), fun h => by omega⟩
  rw [if_neg h1]
  by_cases h2 : inR ≠ L.R ∧ inR ≠ 1
  · rw [if_pos h2]; exact ⟨fun ⟨_, h⟩ => (by cases h), fun h => by omega⟩
  rw [if_neg h2]
  by_cases h3 : side inF * side inF ≠ inF
  · rw [if_pos h3]; exact ⟨fun ⟨_, h⟩ => (by cases h), fun h => absurd h.2.1 h3⟩
  rw [if_neg h3]
  by_cases h4 : side inF < L.K
  · rw [if_pos h4]; exact ⟨fun _ => ⟨by omega, not_not.1 h3, .inl h4⟩, fun _ => ⟨_, rfl⟩⟩
  rw [if_neg h4]
  by_cases h5 : side inF % L.K ≠ 0
  · rw [if_pos h5]
    exact ⟨fun ⟨_, h⟩ => (by cases h), fun h => (h.2.2.elim (fun h' => absurd h' h4)
      fun h' => absurd (Nat.mod_eq_zero_of_dvd h') h5)⟩
  rw [if_neg h5]
  exact ⟨fun _ => ⟨by omega, not_not.1 h3, .inr (Nat.dvd_of_mod_eq_zero (not_not.1 h5))⟩, fun _ => ⟨_, rfl⟩⟩

theorem softmax_logSoftmax {n : ℕ} {l : ℕ → LogV} (h : ∃ i < n, l i ≠ ⊥) (i : ℕ) :
    softmax n (logSoftmax n l) i = softmax n l i := by
  rw [softmax_eq]
  simp only [expL_logSoftmax_eq_softmax]
  rw [sum_softmax h, div_one]

theorem kFlat {a b K : ℕ} (hb : b < K) : (a * K + b) / K = a ∧ (a * K + b) % K = b := ⟨div_row hb, mod_row hb⟩

/-- C50: sampling draws the input channel of a pixel with the weights of the same kernel position that `log_likelihood`
uses - reweighted by the cached likelihoods when there is evidence. -/
theorem C50_sampling_weights_partial {L : SumConv} (hK : 1 ≤ L.K) (H : ℕ) (ch : ℕ → ℕ) (r f : ℕ)
    (hfin : ∀ ci < L.Ci, L.θ (ch f) ci (kpos H L.K f).1 (kpos H L.K f).2 r ≠ ⊥) (hCi : 1 ≤ L.Ci) :
    (∀ ci, softmax L.Ci (L.sampleLogits H none ch r f) ci = L.weight (ch f) ci (kpos H L.K f).1 (kpos H L.K f).2 r) ∧
      ∀ ll : Tens, (∃ ci < L.Ci, ll f ci r ≠ ⊥) → ∀ ci, softmax L.Ci (L.sampleLogits H (some ll) ch r f) ci =
        L.weight (ch f) ci (kpos H L.K f).1 (kpos H L.K f).2 r * expL (ll f ci r) /
          ∑ i ∈ range L.Ci, L.weight (ch f) i (kpos H L.K f).1 (kpos H L.K f).2 r * expL (ll f i r) := by
  have hb : f % H % L.K < L.K := Nat.mod_lt _ hK
  have e := kFlat (a := f / H % L.K) hb
  constructor
  · intro ci
    unfold SumConv.sampleLogits SumConv.weight
    simp only
    rw [softmax_logSoftmax (by exact ⟨0, hCi, by rw [e.1, e.2]; exact hfin 0 hCi⟩)]
    rw [e.1, e.2]
    rfl
  · rintro ll ⟨c0, hc0, hl0⟩ ci
    unfold SumConv.sampleLogits SumConv.weight
    simp only
    rw [e.1, e.2]
    rw [softmax_logSoftmax ⟨c0, hc0, by
      have := hfin c0 hc0
      intro hcon
      rcases WithBot.add_eq_bot.1 hcon with h | h
      · exact this h
      · exact hl0 h⟩]
    simp only [softmax_eq, expL_add]
    have hS : 0 < ∑ j ∈ range L.Ci, expL (L.θ (ch f) j (kpos H L.K f).1 (kpos H L.K f).2 r) :=
      sum_expL_pos ⟨0, hCi, hfin 0 hCi⟩
    unfold kpos at hS ⊢
    simp only at hS ⊢
    set S := ∑ j ∈ range L.Ci, expL (L.θ (ch f) j (f / H % L.K) (f % H % L.K) r)
    have e2 : ∀ i, expL (L.θ (ch f) i (f / H % L.K) (f % H % L.K) r) / S * expL (ll f i r) =
        expL (L.θ (ch f) i (f / H % L.K) (f % H % L.K) r) * expL (ll f i r) / S := fun i => by ring
    simp only [e2]
    rw [← sum_div, div_div_div_cancel_right₀ hS.ne']

/-- C50 is FALSE for images smaller than the kernel: `log_likelihood` evaluates, but `sample` raises ValueError. -/
theorem C50_small_image_cannot_sample {L : SumConv} (hR : L.R = 1) {inF : ℕ} (hsq : Square inF)
    (h0 : 0 < inF) (hs : side inF < L.K) (ll : Tens) :
    (∃ T, L.logLik inF 1 ll = .ok T) ∧ L.sampleOk inF = .error .valueError := by
  refine ⟨(C50_evaluates_iff (by omega) inF 1 ll).2 ⟨by omega, hsq, .inl hs⟩, ?_⟩
  unfold SumConv.sampleOk
  unfold Square at hsq
  rw [if_neg (by omega), if_pos ?_]
  rw [Nat.mod_eq_of_lt hs]
  intro h
  rw [h] at hsq
  omega

/-- Otherwise sampling works exactly when `log_likelihood` does. -/
theorem C50_sampling_ok {L : SumConv} {inF : ℕ} (hsq : Square inF) (hd : L.K ∣ side inF) : L.sampleOk inF = .ok () := by
  unfold SumConv.sampleOk
  unfold Square at hsq
  rw [if_neg (by omega), if_neg (by rw [Nat.mod_eq_zero_of_dvd hd]; omega)]

/-! ### EM -/

/-- C50 (EM): after the step all kernel positions have the same weights, whatever the data. -/
theorem C50_em_ties_kernel (L : SumConv) (B F : ℕ) (inp out g : ℕ → ℕ → ℕ → ℕ → ℝ) (co ci a b a' b' r : ℕ) :
    (L.emStep B F inp out g).weight co ci a b r = (L.emStep B F inp out g).weight co ci a' b' r := rfl

theorem em_weight {L : SumConv} {B F : ℕ} (hB : 1 ≤ B) (hF : 1 ≤ F) (hCi : 1 ≤ L.Ci) (inp out g : ℕ → ℕ → ℕ → ℕ → ℝ)
    (co ci a b r : ℕ) : (L.emStep B F inp out g).weight co ci a b r =
      softmax L.Ci (fun ci => lse F fun f => lse B fun n =>
        (((∑ a ∈ range L.K, ∑ c ∈ range L.K, Real.log (L.weight co ci a c r)) / (L.K * L.K)
          + Real.log (g n f co r + 1 / 10 ^ 10) + inp n f ci r - out n f co r : ℝ) : LogV)) ci := by
  unfold SumConv.weight SumConv.emStep SumConv.emLogits
  simp only
  refine softmax_logSoftmax ⟨0, hCi, ?_⟩ ci
  rw [ne_eq, lse_eq_bot_iff]
  push Not
  refine ⟨0, hF, ?_⟩
  rw [ne_eq, lse_eq_bot_iff]
  push Not
  exact ⟨0, hB, WithBot.coe_ne_bot⟩

theorem em_sum_weight {L : SumConv} {B F : ℕ} (hB : 1 ≤ B) (hF : 1 ≤ F) (hCi : 1 ≤ L.Ci) (inp out g : ℕ → ℕ → ℕ → ℕ → ℝ)
    (co a b r : ℕ) : ∑ ci ∈ range L.Ci, (L.emStep B F inp out g).weight co ci a b r = 1 := by
  simp only [em_weight hB hF hCi]
  refine sum_softmax ⟨0, hCi, ?_⟩
  rw [ne_eq, lse_eq_bot_iff]
  push Not
  refine ⟨0, hF, ?_⟩
  rw [ne_eq, lse_eq_bot_iff]
  push Not
  exact ⟨0, hB, WithBot.coe_ne_bot⟩

/-- The witness layer: two input channels, kernel 2 x 2; position (0, 0) has weights 9/10, 1/10, the others 1/10, 9/10. -/
noncomputable def exLayer : SumConv := ⟨2, 1, 2, 1, fun _ ci kh kw _ =>
  logL (if (kh = 0 ∧ kw = 0) = (ci = 0) then 9/10 else 1/10)⟩

/-- The log-likelihoods of the channels Bernoulli(9/10) and Bernoulli(1/10) on the image 1 0 / 0 0. -/
noncomputable def exInp (f ci : ℕ) : ℝ := Real.log (if (f = 0) = (ci = 0) then 9/10 else 1/10)

/-- C50 is FALSE for EM: on a 2 x 2 image one step strictly decreases the likelihood of the product of the four pixels,
whatever gradients and cached outputs it is given. -/
theorem C50_em_decreases (out g : ℕ → ℕ → ℕ → ℕ → ℝ) :
    ∃ T T', exLayer.logLik 4 1 (fun f ci _ => (exInp f ci : LogV)) = .ok T ∧
      (exLayer.emStep 1 4 (fun _ f ci _ => exInp f ci) out g).logLik 4 1 (fun f ci _ => (exInp f ci : LogV)) = .ok T' ∧
      ∏ f ∈ range 4, expL (T' f 0 0) < ∏ f ∈ range 4, expL (T f 0 0) := by
  have hs4 : side 4 = 2 := (square_mul 2).2
  have hsq : Square 4 := (square_mul 2).1
  obtain ⟨T, hT⟩ := (C50_evaluates_iff (L := exLayer) (by decide) 4 1
    (fun f ci _ => (exInp f ci : LogV))).2 ⟨rfl, hsq, .inr (by rw [hs4]; exact dvd_rfl)⟩
  obtain ⟨T', hT'⟩ := (C50_evaluates_iff (L := exLayer.emStep 1 4 (fun _ f ci _ => exInp f ci) out g) (show 1 ≤ 1 by decide) 4 1 (fun f ci _ => (exInp f ci : LogV))).2 ⟨rfl, hsq, .inr (by rw [hs4]; exact dvd_rfl)⟩
  refine ⟨T, T', hT, hT', ?_⟩
  set w := fun ci => (exLayer.emStep 1 4 (fun _ f ci _ => exInp f ci) out g).weight 0 ci 0 0 0 with hw
  have hw1 : w 0 + w 1 = 1 := by
    have := em_sum_weight (L := exLayer) (B := 1) (F := 4) le_rfl (by decide) (by decide)
      (fun _ f ci _ => exInp f ci) out g 0 0 0 0
    rw [show exLayer.Ci = 2 from rfl, sum_range_succ, sum_range_one] at this
    exact this
  have hw0 : ∀ ci, 0 ≤ w ci := fun ci => softmax_nonneg _ _ _
  have e9 : expL (logL (9/10)) = 9/10 := expL_logL (by norm_num)
  have e1 : expL (logL (1/10)) = 1/10 := expL_logL (by norm_num)
  have ex : ∀ f ci, expL ((exInp f ci : ℝ) : LogV) = if (f = 0) = (ci = 0) then 9/10 else 1/10 := by
    intro f ci
    rw [expL_coe]
    unfold exInp
    rw [Real.exp_log (by split_ifs <;> norm_num)]
  have hold : ∀ f < 4, expL (T f 0 0) = 82/100 := by
    intro f hf
    rw [C50_pixel_mixture (by decide) hT, hs4, show exLayer.Ci = 2 from rfl, sum_range_succ, sum_range_one,
      if_neg (by decide), if_neg (by decide), ex, ex]
    unfold SumConv.weight
    rw [softmax_eq, softmax_eq, show exLayer.Ci = 2 from rfl, sum_range_succ, sum_range_one]
    interval_cases f <;> norm_num [exLayer, kpos, e9, e1]
  have hnew : ∀ f < 4, expL (T' f 0 0) = if f = 0 then 9/10 * w 0 + 1/10 * w 1 else 1/10 * w 0 + 9/10 * w 1 := by
    intro f hf
    have h22 : ¬ 2 < (exLayer.emStep 1 4 (fun _ f ci _ => exInp f ci) out g).K := by show ¬ 2 < 2; decide
    rw [C50_pixel_mixture (show 1 ≤ 2 by decide) hT', hs4]
    show ∑ ci ∈ range 2, _ = _
    rw [sum_range_succ, sum_range_one, if_neg h22, if_neg h22, ex, ex,
      C50_em_ties_kernel _ _ _ _ _ _ _ _ _ _ 0 0, C50_em_ties_kernel _ _ _ _ _ _ _ 1 _ _ 0 0]
    show w 0 * _ + w 1 * _ = _
    interval_cases f <;> norm_num <;> ring
  rw [prod_congr rfl fun f hf => hold f (mem_range.1 hf), prod_congr rfl fun f hf => hnew f (mem_range.1 hf)]
  simp only [prod_range_succ, prod_range_zero, one_mul]
  norm_num
  have h0 := hw0 0
  have h1 := hw0 1
  set a := 9/10 * w 0 + 1/10 * w 1 with ha
  set b := 1/10 * w 0 + 9/10 * w 1 with hb
  have hab : a + b = 1 := by rw [ha, hb]; linarith
  have ha0 : 0 ≤ a := by rw [ha]; linarith
  have hb0 : 0 ≤ b := by rw [hb]; linarith
  have hb1 : b ≤ 1 := by linarith
  have hp : a * b ≤ 1/4 := by nlinarith [sq_nonneg (a - b)]
  have hp2 : a * b * b ≤ 1/4 := by nlinarith [mul_nonneg ha0 hb0]
  nlinarith [mul_nonneg (mul_nonneg ha0 hb0) hb0]

/-- C50 (EM), the case of a 1 x 1 kernel: the step does not decrease the log-likelihood, weighted with the gradients
(plus the code's 1e-10) that the layers above passed down - with a Product above all gradients are 1.  Missing: larger
kernels (false, `C50_em_decreases`) and the interaction with updates of other layers. -/
theorem C50_em_kernel_one_partial {L : SumConv} (hK : L.K = 1) (hR : L.R = 1) {B F : ℕ} (hB : 1 ≤ B) (hF : 1 ≤ F)
    (hsq : Square F) (hCi : 1 ≤ L.Ci) (co : ℕ) (hfin : ∀ ci < L.Ci, L.θ co ci 0 0 0 ≠ ⊥) (inp g : ℕ → ℕ → ℕ → ℕ → ℝ)
    (hg : ∀ b f, 0 ≤ g b f co 0) {T : ℕ → Tens} (hT : ∀ b < B, L.logLik F 1 (fun f ci r => (inp b f ci r : LogV)) = .ok (T b))
    (out : ℕ → ℕ → ℕ → ℕ → ℝ) (hout : ∀ b < B, ∀ f < F, (out b f co 0 : LogV) = T b f co 0) :
    ∃ T' : ℕ → Tens, (∀ b < B, (L.emStep B F inp out g).logLik F 1 (fun f ci r => (inp b f ci r : LogV)) = .ok (T' b)) ∧
      0 ≤ ∑ b ∈ range B, ∑ f ∈ range F, (g b f co 0 + 1 / 10 ^ 10) *
        (Real.log (expL (T' b f co 0)) - Real.log (expL (T b f co 0))) := by
  set w := fun ci => L.weight co ci 0 0 0 with hw
  set w' := fun ci => (L.emStep B F inp out g).weight co ci 0 0 0 with hw'
  have hwpos : ∀ ci < L.Ci, 0 < w ci := fun ci hci => softmax_pos hci (hfin ci hci)
  have hwsum : ∑ ci ∈ range L.Ci, w ci = 1 := sum_softmax ⟨0, hCi, hfin 0 hCi⟩
  have hev := fun b => (C50_evaluates_iff (L := L.emStep B F inp out g) (by show 1 ≤ L.R; omega)
    F 1 (fun f ci r => (inp b f ci r : LogV))).2 ⟨hR.symm, hsq, .inr (by show L.K ∣ _; rw [hK]; exact one_dvd _)⟩
  choose T' hT' using hev
  refine ⟨T', fun b _ => hT' b, ?_⟩
  have hsF : ¬ side F < 1 := by
    intro h
    have : side F = 0 := by omega
    unfold Square at hsq
    rw [this] at hsq
    omega
  -- values of the outputs
  have hv : ∀ b < B, ∀ f, expL (T b f co 0) = ∑ ci ∈ range L.Ci, w ci * Real.exp (inp b f ci 0) := by
    intro b hb f
    rw [C50_pixel_mixture (by omega) (hT b hb)]
    refine sum_congr rfl fun ci _ => ?_
    rw [if_neg (by rw [hK]; exact hsF), expL_coe]
    simp only [kpos, hK, Nat.mod_one, hw]
  have hv' : ∀ b, ∀ f, expL (T' b f co 0) = ∑ ci ∈ range L.Ci, w' ci * Real.exp (inp b f ci 0) := by
    intro b f
    rw [C50_pixel_mixture (by show 1 ≤ L.K; omega) (hT' b)]
    refine sum_congr rfl fun ci _ => ?_
    rw [if_neg (by show ¬ side F < L.K; rw [hK]; exact hsF), expL_coe]
    rfl
  have hvpos : ∀ b f, 0 < ∑ ci ∈ range L.Ci, w ci * Real.exp (inp b f ci 0) := fun b f =>
    sum_pos (fun ci hci => mul_pos (hwpos ci (mem_range.1 hci)) (Real.exp_pos _)) ⟨0, mem_range.2 hCi⟩
  set γ := fun b f => g b f co 0 + 1 / 10 ^ 10 with hγ
  have hγpos : ∀ b f, 0 < γ b f := fun b f => by have := hg b f; simp only [hγ]; positivity
  set k := fun ci => ∑ f ∈ range F, ∑ b ∈ range B,
    γ b f * (w ci * Real.exp (inp b f ci 0) / ∑ i ∈ range L.Ci, w i * Real.exp (inp b f i 0)) with hk
  have hkpos : ∀ ci < L.Ci, 0 < k ci := fun ci hci =>
    sum_pos (fun f _ => sum_pos (fun b _ => mul_pos (hγpos b f)
      (div_pos (mul_pos (hwpos ci hci) (Real.exp_pos _)) (hvpos b f))) ⟨0, mem_range.2 hB⟩) ⟨0, mem_range.2 hF⟩
  have hKS : 0 < ∑ ci ∈ range L.Ci, k ci := sum_pos (fun ci hci => hkpos ci (mem_range.1 hci)) ⟨0, mem_range.2 hCi⟩
  have hw'k : ∀ ci < L.Ci, w' ci = k ci / ∑ i ∈ range L.Ci, k i := by
    have hcount : ∀ ci < L.Ci, expL (lse F fun f => lse B fun n =>
        (((∑ a ∈ range L.K, ∑ c ∈ range L.K, Real.log (L.weight co ci a c 0)) / (L.K * L.K)
          + Real.log (g n f co 0 + 1 / 10 ^ 10) + inp n f ci 0 - out n f co 0 : ℝ) : LogV)) = k ci := by
      intro ci hci
      rw [expL_lse]
      refine sum_congr rfl fun f hf => ?_
      rw [expL_lse]
      refine sum_congr rfl fun b hb => ?_
      rw [hK, sum_range_one, sum_range_one, expL_coe]
      have h1 := hout b (mem_range.1 hb) f (mem_range.1 hf)
      have h2 : Real.exp (out b f co 0) = ∑ i ∈ range L.Ci, w i * Real.exp (inp b f i 0) := by
        rw [← hv b (mem_range.1 hb) f, ← h1, expL_coe]
      rw [Real.exp_sub, Real.exp_add, Real.exp_add, Real.exp_log (hγpos b f), h2]
      push_cast
      rw [mul_one, div_one, Real.exp_log (hwpos ci hci)]
      ring
    intro ci hci
    simp only [hw']
    rw [em_weight hB hF hCi, softmax_eq, hcount ci hci, sum_congr rfl fun i hi => hcount i (mem_range.1 hi)]
  have hw'pos : ∀ ci < L.Ci, 0 < w' ci := fun ci hci => by rw [hw'k ci hci]; exact div_pos (hkpos ci hci) hKS
  -- the gain
  have hgain := Em.count_gain L.Ci w k (fun i hi => (hwpos i hi).le) hwsum.le (fun i hi => (hkpos i hi).le)
    (fun i hi _ => hwpos i hi) hKS
  refine hgain.trans ?_
  have hunit : ∀ b f, ∑ i ∈ range L.Ci, (w i * Real.exp (inp b f i 0) / ∑ i ∈ range L.Ci, w i * Real.exp (inp b f i 0)) *
      (Real.log (w' i) - Real.log (w i)) ≤
        Real.log (∑ i ∈ range L.Ci, w' i * Real.exp (inp b f i 0)) - Real.log (∑ i ∈ range L.Ci, w i * Real.exp (inp b f i 0)) := by
    intro b f
    have := Em.unit_gain L.Ci w (fun i => Real.exp (inp b f i 0)) w' (fun i => Real.exp (inp b f i 0))
      (fun i hi => (hwpos i hi).le) (fun i _ => (Real.exp_pos _).le) (fun i hi => (hw'pos i hi).le)
      (fun i _ => (Real.exp_pos _).le) (hvpos b f) (fun i hi _ => mul_pos (hw'pos i hi) (Real.exp_pos _))
    simpa using this
  calc ∑ i ∈ range L.Ci, k i * (Real.log (k i / ∑ i ∈ range L.Ci, k i) - Real.log (w i))
      = ∑ i ∈ range L.Ci, ∑ b ∈ range B, ∑ f ∈ range F, γ b f * ((w i * Real.exp (inp b f i 0) /
          ∑ i ∈ range L.Ci, w i * Real.exp (inp b f i 0)) * (Real.log (w' i) - Real.log (w i))) := by
        refine sum_congr rfl fun i hi => ?_
        rw [hw'k i (mem_range.1 hi)]
        simp only [hk]
        rw [sum_mul]
        conv_rhs => rw [sum_comm]
        refine sum_congr rfl fun f _ => ?_
        rw [sum_mul]
        refine sum_congr rfl fun b _ => ?_
        ring
    _ = ∑ b ∈ range B, ∑ f ∈ range F, γ b f * ∑ i ∈ range L.Ci, ((w i * Real.exp (inp b f i 0) /
          ∑ i ∈ range L.Ci, w i * Real.exp (inp b f i 0)) * (Real.log (w' i) - Real.log (w i))) := by
        rw [sum_comm]
        refine sum_congr rfl fun b _ => ?_
        rw [sum_comm]
        refine sum_congr rfl fun f _ => ?_
        rw [mul_sum]
    _ ≤ _ := by
        refine sum_le_sum fun b hb => sum_le_sum fun f _ => ?_
        rw [hv b (mem_range.1 hb), hv']
        exact mul_le_mul_of_nonneg_left (hunit b f) (hγpos b f).le

/-! ### marginalize -/

/-- The weights of a freshly drawn layer. -/
theorem init_weight {Ci Co K R : ℕ} {u : ℕ → ℕ → ℕ → ℕ → ℕ → ℝ} (hu : ∀ co ci kh kw r, 0 ≤ u co ci kh kw r) {L : SumConv}
    (h : SumConv.mk? Ci Co K R (initLogits Ci u) = .ok L) (hCi : 1 ≤ Ci) (co ci kh kw r : ℕ) :
    L.weight co ci kh kw r = (u co ci kh kw r + 1 / 10 ^ 8) / ∑ i ∈ range Ci, (u co i kh kw r + 1 / 10 ^ 8) := by
  unfold SumConv.mk? at h
  split at h; · cases h
  split at h; · cases h
  cases h
  have hp : ∀ i, 0 < u co i kh kw r + 1 / 10 ^ 8 := fun i => by have := hu co i kh kw r; positivity
  have hS : 0 < ∑ i ∈ range Ci, (u co i kh kw r + 1 / 10 ^ 8) := sum_pos (fun i _ => hp i) ⟨0, mem_range.2 hCi⟩
  unfold SumConv.weight
  simp only
  rw [softmax_eq]
  unfold initLogits
  simp only [expL_logL (div_pos (hp _) hS).le]
  rw [← sum_div, div_self hS.ne', div_one]

/-- C50 is FALSE for `marginalize`: it builds a new layer with newly drawn weights that do not depend on the old ones - for
every layer with at least two input channels some draw of `torch.rand` gives a layer with different weights. -/
theorem C50_marginalize_redraws (L : SumConv) (hCo : 1 ≤ L.Co) (hK : 1 ≤ L.K) (hCi : 2 ≤ L.Ci) :
    (∀ u : ℕ → ℕ → ℕ → ℕ → ℕ → ℝ, (∀ co ci kh kw r, 0 ≤ u co ci kh kw r) → ∃ L', L.marginalize L.Ci u = .ok L' ∧
      ∀ co ci kh kw r, L'.weight co ci kh kw r =
        (u co ci kh kw r + 1 / 10 ^ 8) / ∑ i ∈ range L.Ci, (u co i kh kw r + 1 / 10 ^ 8)) ∧
    ∃ u : ℕ → ℕ → ℕ → ℕ → ℕ → ℝ, (∀ co ci kh kw r, 0 ≤ u co ci kh kw r ∧ u co ci kh kw r < 1) ∧
      ∃ L', L.marginalize L.Ci u = .ok L' ∧ L'.weight 0 0 0 0 0 ≠ L.weight 0 0 0 0 0 := by
  have key : ∀ u : ℕ → ℕ → ℕ → ℕ → ℕ → ℝ, (∀ co ci kh kw r, 0 ≤ u co ci kh kw r) → ∃ L', L.marginalize L.Ci u = .ok L' ∧
      ∀ co ci kh kw r, L'.weight co ci kh kw r =
        (u co ci kh kw r + 1 / 10 ^ 8) / ∑ i ∈ range L.Ci, (u co i kh kw r + 1 / 10 ^ 8) := by
    intro u hu
    have hok : L.marginalize L.Ci u = .ok ⟨L.Ci, L.Co, L.K, L.R, initLogits L.Ci u⟩ := by
      unfold SumConv.marginalize SumConv.mk?
      rw [if_neg (by omega), if_neg (by omega)]
    exact ⟨_, hok, fun co ci kh kw r => init_weight hu hok (by omega) co ci kh kw r⟩
  refine ⟨key, ?_⟩
  obtain ⟨L1, h1, e1⟩ := key (fun _ _ _ _ _ => 1/2) (fun _ _ _ _ _ => by norm_num)
  obtain ⟨L2, h2, e2⟩ := key (fun _ ci _ _ _ => if ci = 0 then 0 else 1/2) (fun _ _ _ _ _ => by split_ifs <;> norm_num)
  by_cases hc : L1.weight 0 0 0 0 0 = L.weight 0 0 0 0 0
  · refine ⟨_, fun co ci kh kw r => ?_, L2, h2, ?_⟩
    · constructor <;> beta_reduce <;> split_ifs <;> norm_num
    rw [← hc, e1, e2]
    obtain ⟨m, hm⟩ : ∃ m, L.Ci = m + 1 := ⟨L.Ci - 1, by omega⟩
    have hm1 : (1 : ℝ) ≤ m := by exact_mod_cast (by omega : 1 ≤ m)
    rw [hm]
    simp only [sum_range_succ', if_true, Nat.add_eq_zero_iff, one_ne_zero, and_false, if_false, sum_const, card_range,
      nsmul_eq_mul]
    rw [ne_eq, div_eq_div_iff (by positivity) (by positivity)]
    intro h
    norm_num at h
    linarith
  · exact ⟨_, fun co ci kh kw r => ⟨by norm_num, by norm_num⟩, L1, h1, hc⟩

end Verif.Conv

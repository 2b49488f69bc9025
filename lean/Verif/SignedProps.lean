import Verif.Signed
import Mathlib.Tactic.Linarith
/-
C34: signed log-space arithmetic refines real arithmetic.
-/
namespace Verif.Signed

/-- The real number a pair `(log|x|, sign)` stands for. -/
noncomputable def val (x : SV) : ℝ := (x.2 : ℝ) * expL x.1

theorem signR_mul_abs (x : ℝ) : (signR x : ℝ) * |x| = x := by
  unfold signR
  split
  · rename_i h; rw [abs_of_pos h]; simp
  · split
    · rename_i _ h; rw [abs_of_neg h]; simp
    · have : x = 0 := by linarith
      simp [this]

/-- **C34.** `signed_logsumexp` computes the signed sum exactly: `sign * exp(logabs)` of the result is
`Σ signᵢ * exp(logabsᵢ)`, for every number of terms, all signs (including 0), all magnitudes (including
-inf) and complete cancellation. -/
theorem C34_signed_logsumexp (n : ℕ) (t : ℕ → SV) :
    val (signedLse n t) = ∑ i ∈ Finset.range n, val (t i) := by
  unfold signedLse val
  cases hm : (Finset.range n).sup fun i => (t i).1 using WithBot.recBotCoe with
  | bot =>
    simp only [expL_bot, mul_zero]
    symm
    apply Finset.sum_eq_zero
    intro i hi
    have : (t i).1 ≤ (⊥ : LogV) := by
      rw [← hm]; exact Finset.le_sup (f := fun i => (t i).1) hi
    rw [le_bot_iff.mp this]
    simp
  | coe m =>
    dsimp only
    set s := ∑ i ∈ Finset.range n, expL ((t i).1 + ((-m : ℝ) : LogV)) * ((t i).2 : ℝ) with hs
    rw [expL_add, logAbs, expL_logL (abs_nonneg s)]
    have : (signR s : ℝ) * (expL (m : LogV) * |s|) = expL (m : LogV) * ((signR s : ℝ) * |s|) := by ring
    rw [this, signR_mul_abs, hs, Finset.mul_sum]
    apply Finset.sum_congr rfl
    intro i _
    rw [expL_add]
    have e : expL (m : LogV) * expL ((-m : ℝ) : LogV) = 1 := by
      simp only [expL_coe]
      rw [← Real.exp_add]; simp
    calc expL (m : LogV) * (expL (t i).1 * expL ((-m : ℝ) : LogV) * ((t i).2 : ℝ))
        = (expL (m : LogV) * expL ((-m : ℝ) : LogV)) * (((t i).2 : ℝ) * expL (t i).1) := by ring
      _ = _ := by rw [e, one_mul]

/-- **C34, normal form.** The returned sign is the sign of the real sum, in {-1, 0, 1}, and the returned
log-absolute value is `-inf` exactly when the sum is zero. -/
theorem C34_sign_normal (n : ℕ) (t : ℕ → SV) :
    (signedLse n t).2 = signR (∑ i ∈ Finset.range n, val (t i)) ∧
    (signedLse n t).1 = logAbs (∑ i ∈ Finset.range n, val (t i)) := by
  have key : (signedLse n t).2 = 1 ∨ (signedLse n t).2 = -1 ∨
      ((signedLse n t).2 = 0 ∧ (signedLse n t).1 = ⊥) := by
    unfold signedLse
    cases hm : (Finset.range n).sup fun i => (t i).1 using WithBot.recBotCoe with
    | bot => right; right; simp [signR]
    | coe m =>
      dsimp only
      set s := ∑ i ∈ Finset.range n, expL ((t i).1 + ((-m : ℝ) : LogV)) * ((t i).2 : ℝ)
      rcases lt_trichotomy s 0 with h | h | h
      · right; left; simp [signR, h, not_lt.mpr h.le]
      · right; right; simp [signR, h, logAbs, logL]
      · left; simp [signR, h]
  have hbot1 : (signedLse n t).2 ≠ 0 → (signedLse n t).1 ≠ ⊥ := by
    unfold signedLse
    cases hm : (Finset.range n).sup fun i => (t i).1 using WithBot.recBotCoe with
    | bot => simp [signR]
    | coe m =>
      dsimp only
      set s := ∑ i ∈ Finset.range n, expL ((t i).1 + ((-m : ℝ) : LogV)) * ((t i).2 : ℝ)
      intro h
      have hs : s ≠ 0 := by
        intro h0; apply h; simp [signR, h0]
      have : logAbs s = ((Real.log |s| : ℝ) : LogV) := by
        unfold logAbs logL
        rw [if_pos (abs_pos.mpr hs)]
      rw [this, ← WithBot.coe_add]
      exact WithBot.coe_ne_bot
  rw [← C34_signed_logsumexp n t]
  unfold val
  rcases key with h | h | ⟨h1, h2⟩
  · rw [h]
    have hp : 0 < expL (signedLse n t).1 := (expL_pos_iff _).mpr (hbot1 (by omega))
    simp only [Int.cast_one, one_mul]
    refine ⟨by simp [signR, hp], ?_⟩
    rw [logAbs, abs_of_pos hp, logL_expL]
  · rw [h]
    have hp : 0 < expL (signedLse n t).1 := (expL_pos_iff _).mpr (hbot1 (by omega))
    simp only [Int.cast_neg, Int.cast_one, neg_mul, one_mul]
    refine ⟨?_, ?_⟩
    · unfold signR
      rw [if_neg (by linarith), if_pos (by linarith)]
    · rw [logAbs, abs_neg, abs_of_pos hp, logL_expL]
  · rw [h1, h2]
    simp [signR, logAbs, logL]

/-- A weight that the clamp at 1e-30 leaves alone. -/
def Unclamped (w : ℝ) : Prop := w = 0 ∨ (10 : ℝ) ^ (-30 : ℤ) ≤ |w|

theorem clamp_val (w : ℝ) (h : Unclamped w) : (signR w : ℝ) * expL (clampLogAbs w) = w := by
  unfold clampLogAbs
  rcases h with h | h
  · subst h; simp [signR]
  · have hpos : (0 : ℝ) < |w| := lt_of_lt_of_le (by positivity) h
    rw [max_eq_left h, expL_coe, Real.exp_log hpos, signR_mul_abs]

/-- **C34, SignedSum.** The linear combination `Σ wᵢ xᵢ`, for weights that are zero or at least 1e-30 in
magnitude. -/
theorem C34_signed_sum_partial (n : ℕ) (w : ℕ → ℝ) (x : ℕ → SV) (h : ∀ i < n, Unclamped (w i)) :
    val (signedSum n w x) = ∑ i ∈ Finset.range n, w i * val (x i) := by
  rw [signedSum, C34_signed_logsumexp]
  apply Finset.sum_congr rfl
  intro i hi
  unfold val
  rw [expL_add]
  push_cast
  have := clamp_val (w i) (h i (Finset.mem_range.mp hi))
  calc (signR (w i) : ℝ) * ((x i).2 : ℝ) * (expL (x i).1 * expL (clampLogAbs (w i)))
      = ((signR (w i) : ℝ) * expL (clampLogAbs (w i))) * (((x i).2 : ℝ) * expL (x i).1) := by ring
    _ = _ := by rw [this]

/-- **C34 is false for smaller weights**: a weight of 1e-40 acts as 1e-30. -/
theorem C34_tiny_weight_wrong :
    val (signedSum 1 (fun _ => (10 : ℝ) ^ (-40 : ℤ)) fun _ => (0, 1)) = (10 : ℝ) ^ (-30 : ℤ) := by
  rw [signedSum, C34_signed_logsumexp]
  have h1 : (0 : ℝ) < (10 : ℝ) ^ (-40 : ℤ) := by positivity
  have h2 : (10 : ℝ) ^ (-40 : ℤ) ≤ (10 : ℝ) ^ (-30 : ℤ) := by
    apply zpow_le_zpow_right₀ <;> norm_num
  have h3 : (0 : ℝ) < (10 : ℝ) ^ (-30 : ℤ) := by positivity
  simp only [Finset.range_one, Finset.sum_singleton, val, zero_add]
  rw [clampLogAbs, abs_of_pos h1, max_eq_right h2, expL_coe, Real.exp_log h3]
  simp [signR, h1]

theorem signedProd_val (n : ℕ) (x : ℕ → SV) : val (signedProd n x) = ∏ f ∈ Finset.range n, val (x f) := by
  unfold signedProd val
  rw [expL_sum]
  push_cast
  rw [Finset.prod_mul_distrib]

/-! ### Whole circuits -/

/-- Specification: the real function a circuit denotes. SignedSum is a linear combination of the input
channels, Product the product over features, Cat concatenation. -/
noncomputable def SC.sem : SC → ℕ → ℕ → ℝ
  | .pos _ _ ll => fun f c => expL (ll f c)
  | .leaf _ _ v => fun f c => v f c
  | .catF a b => fun f c => if f < a.feats then a.sem f c else b.sem (f - a.feats) c
  | .catC a b => fun f c => if c < a.chans then a.sem f c else b.sem f (c - a.chans)
  | .prod a => fun _ c => ∏ f ∈ Finset.range a.feats, a.sem f c
  | .ssum _ w a => fun f c => ∑ i ∈ Finset.range a.chans, w f i c * a.sem f i

/-- All weights and signed leaf values are zero or at least 1e-30 in magnitude. -/
def SC.Unclamped : SC → Prop
  | .pos _ _ _ => True
  | .leaf _ _ v => ∀ f c, Signed.Unclamped (v f c)
  | .catF a b => a.Unclamped ∧ b.Unclamped
  | .catC a b => a.Unclamped ∧ b.Unclamped
  | .prod a => a.Unclamped
  | .ssum _ w a => a.Unclamped ∧ ∀ f i c, Signed.Unclamped (w f i c)

/-- **C34, circuits.** Signed evaluation of every circuit of non-negative modules, signed leaves, Cat,
Product and SignedSum yields the real function the circuit denotes. -/
theorem C34_signed_eval_partial (a : SC) (h : a.Unclamped) : ∀ f c, val (a.eval f c) = a.sem f c := by
  induction a with
  | pos F C ll => intro f c; simp [SC.eval, SC.sem, val]
  | leaf F C v => intro f c; exact clamp_val (v f c) (h f c)
  | catF a b iha ihb =>
    intro f c
    simp only [SC.eval, SC.sem]
    split
    · exact iha h.1 f c
    · exact ihb h.2 _ c
  | catC a b iha ihb =>
    intro f c
    simp only [SC.eval, SC.sem]
    split
    · exact iha h.1 f c
    · exact ihb h.2 f _
  | prod a iha =>
    intro f c
    simp only [SC.eval, SC.sem]
    rw [signedProd_val]
    exact Finset.prod_congr rfl fun f _ => iha h f c
  | ssum oc w a iha =>
    intro f c
    simp only [SC.eval, SC.sem]
    rw [C34_signed_sum_partial _ _ _ (fun i _ => h.2 f i c)]
    exact Finset.sum_congr rfl fun i _ => by rw [iha h.1]

/-- Non-vacuity: `1 * x - 1 * x` cancels completely; the evaluation is `(-inf, 0)`. -/
example : (signedSum 2 (fun i => if i = 0 then 1 else -1) fun _ => ((3 : ℝ), 1)) = (⊥, 0) := by
  have hU : ∀ i < 2, Unclamped ((fun i : ℕ => if i = 0 then (1 : ℝ) else -1) i) := by
    intro i _
    right
    have : (10 : ℝ) ^ (-30 : ℤ) ≤ 1 := by
      rw [show (1 : ℝ) = (10 : ℝ) ^ (0 : ℤ) by simp]
      apply zpow_le_zpow_right₀ <;> norm_num
    dsimp only
    split <;> simpa using this
  have hv := C34_signed_sum_partial 2 _ (fun _ => (((3 : ℝ) : LogV), 1)) hU
  have h2 := C34_sign_normal 2 fun i => ((((3 : ℝ) : LogV)) + clampLogAbs (if i = 0 then 1 else -1),
    signR (if i = 0 then (1 : ℝ) else -1) * (1 : Int))
  rw [← C34_signed_logsumexp] at h2
  have hz : val (signedLse 2 fun i => ((((3 : ℝ) : LogV)) + clampLogAbs (if i = 0 then 1 else -1),
    signR (if i = 0 then (1 : ℝ) else -1) * (1 : Int))) = 0 := by
    refine Eq.trans hv ?_
    rw [Finset.sum_range_succ, Finset.sum_range_succ]
    simp
  rw [hz] at h2
  unfold signedSum
  exact Prod.ext (by rw [h2.2]; simp [logAbs, logL]) (by rw [h2.1]; simp [signR])

end Verif.Signed

import Mathlib.Analysis.SpecialFunctions.Log.Basic
import Mathlib.Analysis.SpecialFunctions.Exp
import Mathlib.Order.WithBot
import Mathlib.Algebra.Order.Monoid.WithTop
import Mathlib.Algebra.BigOperators.Group.Finset.Basic

/-!
# Log-space arithmetic

Log-likelihoods are `WithBot ℝ`: `⊥` is `-inf`, every other value is an exact real (floating point
rounding and `+inf` are not modelled).  `lse` mirrors `torch.logsumexp`, including the shift
by the maximum and the replacement of an infinite maximum by `0` (ATen `logsumexp_out_impl`), as used at
spflow/modules/sums/sum.py:278.  `logSoftmax` mirrors `torch.nn.functional.log_softmax`
(sum.py:197) and `softmax` mirrors `torch.nn.functional.softmax` (sum.py:207).
-/

namespace Verif

/-- A log-likelihood: a real or `-inf`. -/
abbrev LogV := WithBot ℝ

/-- `torch.exp`, with `exp(-inf) = 0`. -/
noncomputable def expL : LogV → ℝ
  | ⊥ => 0
  | (x : ℝ) => Real.exp x

/-- `torch.log` on non-negative numbers, with `log 0 = -inf`. -/
noncomputable def logL (p : ℝ) : LogV := if 0 < p then ((Real.log p : ℝ) : LogV) else ⊥

/-- `maxes.masked_fill_(maxes.abs() == inf, 0)` in ATen's `logsumexp`. -/
def shiftOf (m : LogV) : ℝ := WithBot.unbotD 0 m

/-- `torch.logsumexp` over the entries `f 0 .. f (n-1)`:
`log (sum_i exp (f i - m)) + m` with `m` the (finite) maximum.  sum.py:278. -/
noncomputable def lse (n : ℕ) (f : ℕ → LogV) : LogV :=
  let m := shiftOf ((Finset.range n).sup f)
  logL (∑ i ∈ Finset.range n, expL (f i + ((-m : ℝ) : LogV))) + ((m : ℝ) : LogV)

/-- `log_softmax` over `n` entries: `x_i - logsumexp x` (sum.py:197).  If every entry is `-inf` torch
returns NaN; the model returns `⊥` there and every property excludes that case explicitly. -/
noncomputable def logSoftmax (n : ℕ) (f : ℕ → LogV) (i : ℕ) : LogV :=
  match lse n f with
  | ⊥ => ⊥
  | (l : ℝ) => f i + ((-l : ℝ) : LogV)

/-- `softmax` over `n` entries, max-shifted as in ATen: `exp (x_i - m) / sum_j exp (x_j - m)` (sum.py:207). -/
noncomputable def softmax (n : ℕ) (f : ℕ → LogV) (i : ℕ) : ℝ :=
  let m := shiftOf ((Finset.range n).sup f)
  expL (f i + ((-m : ℝ) : LogV)) / ∑ j ∈ Finset.range n, expL (f j + ((-m : ℝ) : LogV))

/-! ## Lemmas -/

@[simp] theorem expL_bot : expL ⊥ = 0 := rfl
@[simp] theorem expL_coe (x : ℝ) : expL (x : LogV) = Real.exp x := rfl
@[simp] theorem expL_zero : expL (0 : LogV) = 1 := by
  show Real.exp 0 = 1
  exact Real.exp_zero

theorem expL_nonneg (x : LogV) : 0 ≤ expL x := by
  induction x using WithBot.recBotCoe with
  | bot => simp
  | coe x => simpa using (Real.exp_pos x).le

theorem expL_add (x y : LogV) : expL (x + y) = expL x * expL y := by
  induction x using WithBot.recBotCoe with
  | bot => simp
  | coe x =>
    induction y using WithBot.recBotCoe with
    | bot => simp
    | coe y => rw [← WithBot.coe_add, expL_coe, expL_coe, expL_coe, Real.exp_add]

theorem expL_pos_iff (x : LogV) : 0 < expL x ↔ x ≠ ⊥ := by
  induction x using WithBot.recBotCoe with
  | bot => simp
  | coe x => simp [Real.exp_pos]

theorem expL_eq_zero_iff (x : LogV) : expL x = 0 ↔ x = ⊥ := by
  induction x using WithBot.recBotCoe with
  | bot => simp
  | coe x => simp

theorem expL_injective : Function.Injective expL := by
  intro x y h
  induction x using WithBot.recBotCoe with
  | bot => exact ((expL_eq_zero_iff y).1 (by simpa using h.symm)).symm
  | coe x =>
    induction y using WithBot.recBotCoe with
    | bot => simp at h
    | coe y => simpa using h

theorem expL_le_iff (x y : LogV) : expL x ≤ expL y ↔ x ≤ y := by
  induction x using WithBot.recBotCoe with
  | bot => simp [expL_nonneg]
  | coe x =>
    induction y using WithBot.recBotCoe with
    | bot => simp [Real.exp_pos]
    | coe y => simp

theorem expL_logL {p : ℝ} (hp : 0 ≤ p) : expL (logL p) = p := by
  unfold logL
  split
  · rename_i h; simp [Real.exp_log h]
  · rename_i h; simp; linarith

theorem logL_expL (x : LogV) : logL (expL x) = x :=
  expL_injective (expL_logL (expL_nonneg x))

theorem expL_sum {ι : Type*} (s : Finset ι) (f : ι → LogV) :
    expL (∑ i ∈ s, f i) = ∏ i ∈ s, expL (f i) := by
  classical
  induction s using Finset.induction_on with
  | empty => simp
  | insert a s ha ih => rw [Finset.sum_insert ha, Finset.prod_insert ha, expL_add, ih]

theorem expL_list_sum (l : List LogV) : expL l.sum = (l.map expL).prod := by
  induction l with
  | nil => simp
  | cons a l ih => simp [expL_add, ih]

/-- The max shift never changes the value: `exp (logsumexp f) = sum_i exp (f i)`. -/
theorem expL_lse (n : ℕ) (f : ℕ → LogV) : expL (lse n f) = ∑ i ∈ Finset.range n, expL (f i) := by
  unfold lse
  simp only [expL_add, expL_coe]
  rw [expL_logL (Finset.sum_nonneg fun i _ => mul_nonneg (expL_nonneg _) (Real.exp_pos _).le),
    Finset.sum_mul]
  refine Finset.sum_congr rfl fun i _ => ?_
  rw [mul_assoc, ← Real.exp_add]; simp

theorem lse_eq_bot_iff (n : ℕ) (f : ℕ → LogV) : lse n f = ⊥ ↔ ∀ i < n, f i = ⊥ := by
  rw [← expL_eq_zero_iff, expL_lse, Finset.sum_eq_zero_iff_of_nonneg fun i _ => expL_nonneg _]
  simp [expL_eq_zero_iff]

theorem expL_logSoftmax (n : ℕ) (f : ℕ → LogV) (i : ℕ) :
    expL (logSoftmax n f i) = expL (f i) / ∑ j ∈ Finset.range n, expL (f j) := by
  unfold logSoftmax
  rcases h : lse n f with _ | l
  · have h' : lse n f = ⊥ := h
    have := expL_lse n f
    rw [h'] at this
    simp only [expL_bot] at this
    show expL ⊥ = _
    rw [← this]; simp
  · have h' : lse n f = ((l : ℝ) : LogV) := h
    have := expL_lse n f
    rw [h', expL_coe] at this
    show expL (f i + ((-l : ℝ) : LogV)) = _
    rw [expL_add, ← this, expL_coe, Real.exp_neg, div_eq_mul_inv]

theorem softmax_eq (n : ℕ) (f : ℕ → LogV) (i : ℕ) :
    softmax n f i = expL (f i) / ∑ j ∈ Finset.range n, expL (f j) := by
  unfold softmax
  simp only [expL_add, ← Finset.sum_mul, expL_coe]
  rw [mul_div_mul_right _ _ (Real.exp_ne_zero _)]

/-- `exp(log_softmax) = softmax`. -/
theorem expL_logSoftmax_eq_softmax (n : ℕ) (f : ℕ → LogV) (i : ℕ) :
    expL (logSoftmax n f i) = softmax n f i := by rw [expL_logSoftmax, softmax_eq]

theorem softmax_nonneg (n : ℕ) (f : ℕ → LogV) (i : ℕ) : 0 ≤ softmax n f i := by
  rw [softmax_eq]; exact div_nonneg (expL_nonneg _) (Finset.sum_nonneg fun i _ => expL_nonneg _)

theorem sum_expL_pos {n : ℕ} {f : ℕ → LogV} (h : ∃ i < n, f i ≠ ⊥) :
    0 < ∑ j ∈ Finset.range n, expL (f j) := by
  obtain ⟨i, hi, hf⟩ := h
  exact Finset.sum_pos' (fun i _ => expL_nonneg _) ⟨i, Finset.mem_range.2 hi, (expL_pos_iff _).2 hf⟩

theorem sum_softmax {n : ℕ} {f : ℕ → LogV} (h : ∃ i < n, f i ≠ ⊥) :
    ∑ i ∈ Finset.range n, softmax n f i = 1 := by
  simp only [softmax_eq, div_eq_mul_inv, ← Finset.sum_mul]
  exact mul_inv_cancel₀ (sum_expL_pos h).ne'

theorem softmax_pos {n : ℕ} {f : ℕ → LogV} {i : ℕ} (hi : i < n) (h : f i ≠ ⊥) :
    0 < softmax n f i := by
  rw [softmax_eq]
  exact div_pos ((expL_pos_iff _).2 h) (sum_expL_pos ⟨i, hi, h⟩)

end Verif

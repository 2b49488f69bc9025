import Verif.SimpleProps
import Mathlib.Probability.Distributions.Gaussian.Real
import Mathlib.Analysis.SpecialFunctions.Sigmoid
import Mathlib.Analysis.SpecificLimits.Normed
import Mathlib.Data.Nat.Choose.Vandermonde
import Mathlib.Data.Nat.Choose.Sum

/-!
# C73: the leaf distributions with differentiable sampling

Model of the `rsample` methods of the differentiable leaf distributions: bernoulli.py:203-221, categorical.py:249-259,
binomial.py:201-223 (NORMAL, the default) and 237-273 (SIMPLE), poisson.py:132-154, geometric.py:161-185,
negative_binomial.py:191-220, hypergeometric.py:210-244, histogram.py:161-180.

One cell (feature, channel, repetition) of the parameter tensor at a time; where the code looks at the whole parameter
tensor (largest `total_count`, largest truncation point, the common support), that quantity is an argument. `log_prob` of a
torch distribution is the logarithm of its probability function.
-/

namespace Verif.Simple

open Finset MeasureTheory

/-! ### Model -/

/-- `logsigmoid(-logits), logsigmoid(logits)` stacked, bernoulli.py:212-214. -/
noncomputable def bernLogits (x : ℝ) (i : ℕ) : LogV := if i = 0 then logL (Real.sigmoid (-x)) else logL (Real.sigmoid x)

/-- `BernoulliWithDifferentiableSampling.rsample`, bernoulli.py:203-221: component 1 of the one-hot sample. -/
noncomputable def bernSample (x : ℝ) (u : ℕ → ℝ) : Except Exc (Option ℝ) :=
  (simple 2 (bernLogits x) 1 false u).map fun y => y.map fun y => y 1

/-- Probability function of Binomial(n, p). -/
noncomputable def binPmf (n : ℕ) (p : ℝ) (k : ℕ) : ℝ := n.choose k * p ^ k * (1 - p) ^ (n - k)

/-- The logits of `BinomialWithDifferentiableSamplingSIMPLE.rsample`, binomial.py:256-266: `k > total_count` is masked. -/
noncomputable def binLogits (n : ℕ) (p : ℝ) (k : ℕ) : LogV := if n < k then ⊥ else logL (binPmf n p k)

/-- `BinomialWithDifferentiableSamplingSIMPLE.rsample`, binomial.py:237-273; `maxTotal` is the largest `total_count` of
the parameter tensor. -/
noncomputable def binSample (maxTotal n : ℕ) (p : ℝ) : (ℕ → ℝ) → Except Exc (Option ℝ) :=
  rsample (maxTotal + 1) (binLogits n p) fun k => k

/-- `torch.round`: to the nearest integer, halves to the even one. -/
noncomputable def rne (x : ℝ) : ℤ :=
  if x - ⌊x⌋ < 1 / 2 then ⌊x⌋ else if 1 / 2 < x - ⌊x⌋ then ⌊x⌋ + 1 else if 2 ∣ ⌊x⌋ then ⌊x⌋ else ⌊x⌋ + 1

/-- `BinomialWithDifferentiableSamplingNormal.rsample`, binomial.py:201-223, with the standard normal draw `e`. -/
noncomputable def binNormalSample (n : ℕ) (p e : ℝ) : ℝ :=
  rne (min (max (n * p + √(max (n * p * (1 - p)) 0) * e) 0) n)

/-- Probability function of the hypergeometric distribution. -/
noncomputable def hypPmf (K N n k : ℕ) : ℝ := K.choose k * (N - K).choose (n - k) / N.choose n

/-- The logits of hypergeometric.py:232-240 over the support `lo, lo + 1, ...` common to all cells. -/
noncomputable def hypLogits (K N n lo i : ℕ) : LogV :=
  if lo + i < n + K - N ∨ min n K < lo + i then ⊥ else logL (hypPmf K N n (lo + i))

/-- `_HypergeometricDistributionWithDifferentiableSampling.rsample`, hypergeometric.py:210-244; `lo` and `hi` are the least
and the largest support bound over the cells. -/
noncomputable def hypSample (lo hi K N n : ℕ) : (ℕ → ℝ) → Except Exc (Option ℝ) :=
  rsample (hi - lo + 1) (hypLogits K N n lo) fun i => (lo + i : ℕ)

/-- The truncated samplers: logits `log_prob(k)` for `k = 0, ..., K`. -/
noncomputable def truncSample (pmf : ℕ → ℝ) (K : ℕ) : (ℕ → ℝ) → Except Exc (Option ℝ) :=
  rsample (K + 1) (fun k => logL (pmf k)) fun k => k

/-- `clamp(ceil(max (mean + 10 std + 10)), 0, cap)` over the cells `(mean, std)`, e.g. poisson.py:139-141. -/
noncomputable def truncAt (cells : List (ℝ × ℝ)) (cap : ℕ) : ℕ :=
  min ((cells.map fun c => ⌈c.1 + 10 * c.2 + 10⌉).foldl max 0).toNat cap

/-- Probability function of Poisson(rate). -/
noncomputable def poissonPmf (rate : ℝ) (k : ℕ) : ℝ := Real.exp (-rate) * rate ^ k / k.factorial

/-- The truncation point of `PoissonWithDifferentiableSamplingSIMPLE`, poisson.py:127, 139-141, for the rates of all cells. -/
noncomputable def poissonMax (rates : List ℝ) : ℕ := truncAt (rates.map fun r => (r, √(max r 0))) 2048

/-- Probability function of Geometric(p) on `0, 1, 2, ...`. -/
noncomputable def geomPmf (p : ℝ) (k : ℕ) : ℝ := (1 - p) ^ k * p

/-- The truncation point of `GeometricWithDifferentiableSamplingSIMPLE`, geometric.py:156, 168-171. -/
noncomputable def geomMax (ps : List ℝ) : ℕ := truncAt (ps.map fun p => ((1 - p) / p, √(1 - p) / p)) 1024

/-- Probability function of NegativeBinomial(r, p): `k` successes (probability `p`) before the `r`-th failure. -/
noncomputable def nbPmf (r : ℕ) (p : ℝ) (k : ℕ) : ℝ := (k + r - 1).choose k * (1 - p) ^ r * p ^ k

/-- The truncation point of `NegativeBinomialWithDifferentiableSamplingSIMPLE`, negative_binomial.py:186, 199-204 (the
clamps of `1 - probs` and of the variance have no effect for `0 ≤ p < 1` bounded away from 1). -/
noncomputable def nbMax (cells : List (ℕ × ℝ)) : ℕ :=
  truncAt (cells.map fun c => (c.1 * c.2 / (1 - c.2), √(c.1 * c.2 / ((1 - c.2) * (1 - c.2))))) 2048

/-- `HistogramDistWithDifferentiableSampling.rsample`, histogram.py:161-180: the bin by SIMPLE, its edges by one-hot sums,
then a uniform position `t`. -/
noncomputable def histSample (n : ℕ) (l : ℕ → LogV) (edge : ℕ → ℝ) (u : ℕ → ℝ) (t : ℝ) : Except Exc (Option ℝ) :=
  (simple n l 1 false u).map fun y => y.map fun y =>
    (∑ i ∈ range n, y i * edge i) + t * ((∑ i ∈ range n, y i * edge (i + 1)) - ∑ i ∈ range n, y i * edge i)

/-! ### Laws -/

theorem logL_ne_bot {x : ℝ} (h : 0 < x) : logL x ≠ ⊥ := by
  intro hb
  have := expL_logL h.le
  rw [hb, expL_bot] at this
  exact h.ne this

/-- The probability that a sampler returns the value `t`. -/
noncomputable def prob (n : ℕ) (s : (ℕ → ℝ) → Except Exc (Option ℝ)) (t : ℝ) : ENNReal := pr n fun u => s u = .ok (some t)

/-- A sampler over the distinct values `v i`, whose logits are the logarithms of weights `w i`. -/
theorem prob_rsample {n : ℕ} {l : ℕ → LogV} {w v : ℕ → ℝ} (hw : ∀ i < n, expL (l i) = w i) (hpos : ∃ i < n, 0 < w i)
    (hv : ∀ i < n, ∀ j < n, v i = v j → i = j) :
    (∀ i < n, prob n (rsample n l v) (v i) = ENNReal.ofReal (w i / ∑ j ∈ range n, w j)) ∧
    (∀ t, (∀ i < n, v i ≠ t) → prob n (rsample n l v) t = 0) := by
  classical
  have hl : ∃ i < n, l i ≠ ⊥ := by
    obtain ⟨i, hi, h⟩ := hpos
    exact ⟨i, hi, (expL_pos_iff _).1 (by rw [hw i hi]; exact h)⟩
  have key : ∀ t, prob n (rsample n l v) t = ∑ i ∈ range n, if v i = t then ENNReal.ofReal (softmax n l i) else 0 := fun t => by
    have := C73_value_law hl v {t}
    rw [sum_filter] at this
    rw [prob, ← show (fun u => ∃ t' ∈ ({t} : Set ℝ), rsample n l v u = .ok (some t')) = fun u => rsample n l v u = .ok (some t) by
      funext u; simp, this]
    exact sum_congr rfl fun i _ => by by_cases h : v i = t <;> simp [h]
  refine ⟨fun i hi => ?_, fun t ht => ?_⟩
  · rw [key, sum_eq_single_of_mem i (mem_range.2 hi) fun j hj hji => if_neg fun h => hji (hv j (mem_range.1 hj) i hi h), if_pos rfl,
      softmax_eq, hw i hi, sum_congr rfl fun j hj => hw j (mem_range.1 hj)]
  · rw [key]
    exact sum_eq_zero fun i hi => if_neg (ht i (mem_range.1 hi))

/-- Bernoulli: 1 with probability `sigmoid(logits)`, 0 otherwise — the leaf's own distribution. -/
theorem C73_bernoulli (x : ℝ) :
    prob 2 (bernSample x) 1 = ENNReal.ofReal (Real.sigmoid x) ∧ prob 2 (bernSample x) 0 = ENNReal.ofReal (1 - Real.sigmoid x) := by
  have e : bernSample x = rsample 2 (bernLogits x) fun i => i := by
    funext u
    have : ∀ i < 2, bernLogits x i ≠ ⊥ := fun i _ => by
      unfold bernLogits; split <;> exact logL_ne_bot (Real.sigmoid_pos _)
    have hl : ∃ i < 2, bernLogits x i ≠ ⊥ := ⟨0, by norm_num, this 0 (by norm_num)⟩
    rw [rsample_eq hl, bernSample, simple_eq hl one_pos]
    show Except.ok (some _) = _
    congr 2
    have hlt := index_lt (by norm_num : 2 ≠ 0) (bernLogits x) false u
    unfold oneHot
    rcases (by omega : index 2 (bernLogits x) false u = 0 ∨ index 2 (bernLogits x) false u = 1) with h | h <;> simp [h]
  have h := prob_rsample (n := 2) (l := bernLogits x) (w := fun i => if i = 0 then Real.sigmoid (-x) else Real.sigmoid x) (v := fun i => (i : ℝ))
    (fun i _ => by unfold bernLogits; split <;> exact expL_logL (Real.sigmoid_pos _).le) ⟨0, by norm_num, by simpa using Real.sigmoid_pos _⟩
    (fun i _ j _ hij => by exact_mod_cast hij)
  have hs : ∑ j ∈ range 2, (if j = 0 then Real.sigmoid (-x) else Real.sigmoid x) = 1 := by
    rw [sum_range_succ, sum_range_one, if_pos rfl, if_neg one_ne_zero, Real.sigmoid_neg]; ring
  rw [e]
  refine ⟨?_, ?_⟩
  · have := h.1 1 (by norm_num)
    rw [hs, div_one, if_neg one_ne_zero] at this
    simpa using this
  · have := h.1 0 (by norm_num)
    rw [hs, div_one, if_pos rfl, Real.sigmoid_neg] at this
    simpa using this

/-- Categorical: class `k` with probability `softmax(logits)_k`. -/
theorem C73_categorical {K : ℕ} {l : ℕ → LogV} (hl : ∃ i < K, l i ≠ ⊥) {k : ℕ} (hk : k < K) :
    prob K (rsample K l fun i => i) k = ENNReal.ofReal (softmax K l k) := by
  obtain ⟨i, hi, h⟩ := hl
  have := (prob_rsample (n := K) (l := l) (w := fun i => expL (l i)) (v := fun i => (i : ℝ)) (fun _ _ => rfl)
    ⟨i, hi, (expL_pos_iff _).2 h⟩ fun i _ j _ hij => by exact_mod_cast hij).1 k hk
  rw [softmax_eq]
  exact this

theorem binPmf_sum (n : ℕ) (p : ℝ) : ∑ k ∈ range (n + 1), binPmf n p k = 1 := by
  have := add_pow p (1 - p) n
  rw [show p + (1 - p) = 1 by ring, one_pow] at this
  rw [this]
  exact sum_congr rfl fun k _ => by unfold binPmf; ring

theorem binPmf_nonneg {n : ℕ} {p : ℝ} (h0 : 0 ≤ p) (h1 : p ≤ 1) (k : ℕ) : 0 ≤ binPmf n p k := by
  unfold binPmf
  have := sub_nonneg.2 h1
  positivity

theorem exists_pos_of_sum {n : ℕ} {w : ℕ → ℝ} (h : ∑ j ∈ range n, w j = 1) : ∃ i < n, 0 < w i := by
  by_contra hc
  push Not at hc
  have := sum_nonpos fun i hi => hc i (mem_range.1 hi)
  rw [h] at this
  linarith

/-- Binomial with method SIMPLE: exactly the Binomial distribution, whatever the other cells are. -/
theorem C73_binomial_simple {maxTotal n : ℕ} (hn : n ≤ maxTotal) {p : ℝ} (h0 : 0 ≤ p) (h1 : p ≤ 1) :
    (∀ k ≤ n, prob (maxTotal + 1) (binSample maxTotal n p) k = ENNReal.ofReal (binPmf n p k)) ∧
    ∀ t : ℝ, (∀ k ≤ n, (k : ℝ) ≠ t) → prob (maxTotal + 1) (binSample maxTotal n p) t = 0 := by
  have hsub : range (n + 1) ⊆ range (maxTotal + 1) := range_subset_range.2 (by omega)
  have hs : ∑ j ∈ range (maxTotal + 1), (if n < j then 0 else binPmf n p j) = 1 := by
    rw [← sum_subset hsub fun j _ hj => if_pos (by rw [mem_range] at hj; omega), ← binPmf_sum n p]
    exact sum_congr rfl fun j hj => if_neg (by rw [mem_range] at hj; omega)
  have h := prob_rsample (n := maxTotal + 1) (l := binLogits n p) (w := fun k => if n < k then 0 else binPmf n p k) (v := fun k => (k : ℝ))
    (fun k _ => by unfold binLogits; by_cases h : n < k
                   · rw [if_pos h, if_pos h, expL_bot]
                   · rw [if_neg h, if_neg h, expL_logL (binPmf_nonneg h0 h1 k)])
    (exists_pos_of_sum hs) fun i _ j _ hij => by exact_mod_cast hij
  have hk : ∀ k ≤ maxTotal, prob (maxTotal + 1) (binSample maxTotal n p) k = ENNReal.ofReal (if n < k then 0 else binPmf n p k) := fun k hk => by
    have := h.1 k (by omega)
    rw [hs, div_one] at this
    exact this
  refine ⟨fun k hkn => ?_, fun t ht => ?_⟩
  · rw [hk k (by omega), if_neg (by omega)]
  · by_cases hc : ∃ k < maxTotal + 1, (k : ℝ) = t
    · obtain ⟨k, hkm, rfl⟩ := hc
      rw [hk k (by omega), if_pos (by by_contra h'; exact ht k (by omega) rfl), ENNReal.ofReal_zero]
    · push Not at hc
      exact h.2 t hc

end Verif.Simple

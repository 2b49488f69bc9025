import Verif.SimpleTrunc
import Mathlib.Analysis.Complex.ExponentialBounds

/-!
# C73: histograms, the Normal approximation, the caps, examples
-/

namespace Verif.Simple

open Finset MeasureTheory

/-! ### Histogram -/

theorem hist_eq {n : ℕ} {l : ℕ → LogV} (hl : ∃ i < n, l i ≠ ⊥) (edge u : ℕ → ℝ) (t : ℝ) :
    histSample n l edge u t = .ok (some (edge (index n l false u) + t * (edge (index n l false u + 1) - edge (index n l false u)))) := by
  have hlt : index n l false u < n := index_lt (by obtain ⟨i, hi, _⟩ := hl; omega) _ _ _
  have hs : ∀ v : ℕ → ℝ, ∑ i ∈ range n, oneHot (index n l false u) i * v i = v (index n l false u) := fun v => by
    unfold oneHot
    rw [sum_eq_single_of_mem _ (mem_range.2 hlt) fun i _ hi => by rw [if_neg hi, zero_mul], if_pos rfl, one_mul]
  unfold histSample
  rw [simple_eq hl one_pos]
  show Except.ok (some _) = _
  congr 2
  beta_reduce
  rw [hs, hs fun i => edge (i + 1)]

/-- Histogram: for every position `t` drawn in `[0, 1)`, the sample lies in bin `j` with the probability of that bin, and at
relative position `t` in it. -/
theorem C73_histogram {n : ℕ} {l : ℕ → LogV} (hl : ∃ i < n, l i ≠ ⊥) {edge : ℕ → ℝ} (hmono : ∀ i < n, edge i < edge (i + 1))
    {t : ℝ} (h0 : 0 ≤ t) (h1 : t < 1) {j : ℕ} (hj : j < n) :
    pr n (fun u => ∃ x, histSample n l edge u t = .ok (some x) ∧ edge j ≤ x ∧ x < edge (j + 1)) = ENNReal.ofReal (softmax n l j) ∧
    ∀ u x, histSample n l edge u t = .ok (some x) → edge j ≤ x → x < edge (j + 1) → x = edge j + t * (edge (j + 1) - edge j) := by
  classical
  have hle : ∀ a b, a ≤ b → b ≤ n → edge a ≤ edge b := fun a b hab hb => by
    induction b, hab using Nat.le_induction with
    | base => exact le_rfl
    | succ b _ ih => exact (ih (by omega)).trans (hmono b (by omega)).le
  have hin : ∀ i < n, edge i ≤ edge i + t * (edge (i + 1) - edge i) ∧ edge i + t * (edge (i + 1) - edge i) < edge (i + 1) := fun i hi => by
    have := hmono i hi
    constructor <;> nlinarith
  have hlt : ∀ u, index n l false u < n := fun u => index_lt (by omega) _ _ _
  have huniq : ∀ i < n, edge j ≤ edge i + t * (edge (i + 1) - edge i) → edge i + t * (edge (i + 1) - edge i) < edge (j + 1) → i = j := fun i hi ha hb => by
    have := hin i hi
    rcases lt_trichotomy i j with h | h | h
    · have := hle (i + 1) j (by omega) (by omega); linarith
    · exact h
    · have := hle (j + 1) i (by omega) (by omega); linarith
  have hset : (fun u => ∃ x, histSample n l edge u t = .ok (some x) ∧ edge j ≤ x ∧ x < edge (j + 1)) = fun u => index n l false u = j := by
    funext u
    rw [hist_eq hl]
    refine propext ⟨?_, fun h => ⟨_, rfl, ?_⟩⟩
    · rintro ⟨x, hx, ha, hb⟩
      injection hx with hx; injection hx with hx; subst hx
      exact huniq _ (hlt u) ha hb
    · rw [h]; exact hin j hj
  refine ⟨?_, fun u x hx ha hb => ?_⟩
  · rw [hset, pr_index hl fun i => i = j, sum_filter]
    exact (sum_eq_single_of_mem j (mem_range.2 hj) fun i _ hi => if_neg hi).trans (if_pos rfl)
  · rw [hist_eq hl] at hx
    injection hx with hx; injection hx with hx; subst hx
    rw [huniq _ (hlt u) ha hb]

/-! ### The Normal approximation of the Binomial (the default method) -/

theorem rne_bounds (x : ℝ) : x - 1 / 2 ≤ rne x ∧ (rne x : ℝ) ≤ x + 1 / 2 := by
  have h1 := Int.floor_le x
  have h2 := Int.lt_floor_add_one x
  unfold rne
  split_ifs <;> (push_cast; constructor <;> linarith)

/-- The default differentiable Binomial sampler only returns counts `0, ..., n`. -/
theorem C73_binomial_normal_support (n : ℕ) (p e : ℝ) : ∃ k ≤ n, binNormalSample n p e = (k : ℕ) := by
  obtain ⟨x, hx⟩ : ∃ x, x = min (max (n * p + √(max (n * p * (1 - p)) 0) * e) 0) (n : ℝ) := ⟨_, rfl⟩
  have hx0 : 0 ≤ x := by rw [hx]; exact le_min (le_max_right _ _) (by positivity)
  have hxn : x ≤ n := by rw [hx]; exact min_le_right _ _
  have hb := rne_bounds x
  have h1 : -1 < rne x := by
    have : (-1 : ℝ) < rne x := by linarith
    exact_mod_cast this
  have h2 : rne x < n + 1 := by
    have : (rne x : ℝ) < n + 1 := by linarith
    exact_mod_cast this
  refine ⟨(rne x).toNat, by omega, ?_⟩
  unfold binNormalSample
  rw [← hx]
  have : (((rne x).toNat : ℕ) : ℤ) = rne x := Int.toNat_of_nonneg (by omega)
  exact_mod_cast (congrArg (Int.cast (R := ℝ)) this).symm

/-- But not with the Binomial's probabilities: for one trial with success probability `1/50` it returns 1 with probability
less than `1/100`. -/
theorem C73_binomial_normal_wrong :
    (ProbabilityTheory.gaussianReal 0 1).real {e | binNormalSample 1 (1 / 50) e = 1} < 1 / 100 ∧ binPmf 1 (1 / 50) 1 = 1 / 50 := by
  constructor
  · have hsub : {e : ℝ | binNormalSample 1 (1 / 50) e = 1} ⊆ {e | 24 / 7 ≤ id e} := by
      intro e he
      have he : binNormalSample 1 (1 / 50) e = 1 := he
      unfold binNormalSample at he
      have hsq : √(max (((1 : ℕ) : ℝ) * (1 / 50) * (1 - 1 / 50)) 0) = 7 / 50 := by
        rw [max_eq_left (by norm_num), show ((1 : ℕ) : ℝ) * (1 / 50) * (1 - 1 / 50) = (7 / 50) ^ 2 by norm_num, Real.sqrt_sq (by norm_num)]
      rw [hsq] at he
      have hb := (rne_bounds (min (max (((1 : ℕ) : ℝ) * (1 / 50) + 7 / 50 * e) 0) ((1 : ℕ) : ℝ))).2
      rw [he] at hb
      have h1 := min_le_left (max (((1 : ℕ) : ℝ) * (1 / 50) + 7 / 50 * e) 0) ((1 : ℕ) : ℝ)
      show 24 / 7 ≤ e
      by_contra hc
      push Not at hc
      have h2 : max (((1 : ℕ) : ℝ) * (1 / 50) + 7 / 50 * e) 0 < 1 / 2 := max_lt (by push_cast; linarith) (by norm_num)
      linarith
    have hc := ProbabilityTheory.measure_ge_le_exp_mul_mgf (μ := ProbabilityTheory.gaussianReal 0 1) (X := id) (t := 24 / 7) (24 / 7 : ℝ) (by norm_num)
      (by simpa using ProbabilityTheory.integrable_exp_mul_gaussianReal (μ := 0) (v := 1) (24 / 7 : ℝ))
    rw [ProbabilityTheory.mgf_gaussianReal (p := ProbabilityTheory.gaussianReal 0 1) (μ := 0) (v := 1) (by rw [Measure.map_id]), ← Real.exp_add] at hc
    have hmono := measureReal_mono (μ := ProbabilityTheory.gaussianReal 0 1) hsub
    have he : Real.exp (-(24 / 7) * (24 / 7) + (0 * (24 / 7) + ((1 : NNReal) : ℝ) * (24 / 7) ^ 2 / 2)) < 1 / 100 := by
      have h5 : Real.exp (-(24 / 7) * (24 / 7) + (0 * (24 / 7) + ((1 : NNReal) : ℝ) * (24 / 7) ^ 2 / 2)) ≤ Real.exp (-5) :=
        Real.exp_le_exp.2 (by push_cast; norm_num)
      have h2 : (2.7 : ℝ) ^ 5 < Real.exp 5 := by
        have := Real.exp_one_gt_d9
        calc (2.7 : ℝ) ^ 5 < (Real.exp 1) ^ 5 := pow_lt_pow_left₀ (by linarith) (by norm_num) (by norm_num)
          _ = Real.exp 5 := by rw [← Real.exp_nat_mul]; norm_num
      have h3 : (100 : ℝ) < Real.exp 5 := lt_trans (by norm_num) h2
      rw [Real.exp_neg] at h5
      have := inv_lt_inv₀ (Real.exp_pos 5) (by norm_num : (0 : ℝ) < 100) |>.2 h3
      linarith
    linarith
  · unfold binPmf; norm_num

/-! ### The caps -/

/-- Poisson with rate 4096: the sampler never returns a count above 2048, but a Poisson(4096) variable is at most 2048 with
probability at most `1/100`. -/
theorem C73_poisson_cap_wrong :
    (∀ k : ℕ, 2048 < k → prob (poissonMax [4096] + 1) (truncSample (poissonPmf 4096) (poissonMax [4096])) k = 0) ∧
    ∑ k ∈ range 2049, poissonPmf 4096 k ≤ 1 / 100 := by
  constructor
  · intro k hk
    refine (C73_truncated_law (poissonPmf_nonneg (by norm_num)) (by unfold poissonPmf; positivity) _).2 _ fun j hj h => ?_
    have : j = k := by exact_mod_cast h
    have : poissonMax [4096] ≤ 2048 := min_le_right _ _
    omega
  · have h1 : ∀ k ∈ range 2049, poissonPmf 4096 k ≤ 2 ^ 2048 * Real.exp (-4096) * (2048 ^ k / k.factorial) := fun k hk => by
      have hk' : k ≤ 2048 := by rw [mem_range] at hk; omega
      unfold poissonPmf
      have e : (4096 : ℝ) ^ k = 2 ^ k * 2048 ^ k := by rw [← mul_pow]; norm_num
      have h2 : (2 : ℝ) ^ k ≤ 2 ^ 2048 := pow_le_pow_right₀ (by norm_num) hk'
      rw [e, mul_div_assoc, mul_div_assoc]
      have h3 : 0 ≤ Real.exp (-4096) * (2048 ^ k / k.factorial : ℝ) := by positivity
      nlinarith
    refine (sum_le_sum h1).trans ?_
    rw [← mul_sum]
    have h2 : ∑ k ∈ range 2049, ((2048 : ℝ) ^ k / k.factorial) ≤ Real.exp 2048 := Real.sum_le_exp_of_nonneg (by norm_num) _
    refine (mul_le_mul_of_nonneg_left h2 (by positivity)).trans ?_
    rw [mul_assoc, ← Real.exp_add, show (-4096 + 2048 : ℝ) = ((2048 : ℕ) : ℝ) * (-1) by norm_num, Real.exp_nat_mul, ← mul_pow]
    have h3 : 2 * Real.exp (-1) ≤ 3 / 4 := by
      have := Real.exp_one_gt_d9
      rw [Real.exp_neg, ← div_eq_mul_inv, div_le_div_iff₀ (Real.exp_pos 1) (by norm_num)]
      linarith
    calc (2 * Real.exp (-1)) ^ 2048 ≤ (3 / 4 : ℝ) ^ 2048 := pow_le_pow_left₀ (by positivity) h3 _
      _ ≤ (3 / 4 : ℝ) ^ 20 := pow_le_pow_of_le_one (by norm_num) (by norm_num) (by norm_num)
      _ ≤ 1 / 100 := by norm_num

/-- Geometric with success probability `10^-6`: the sampler never returns a count above 1024, but the leaf's distribution
does so with probability more than `99/100`. -/
theorem C73_geometric_cap_wrong :
    (∀ k : ℕ, 1024 < k → prob (geomMax [1 / 10 ^ 6] + 1) (truncSample (geomPmf (1 / 10 ^ 6)) (geomMax [1 / 10 ^ 6])) k = 0) ∧
    ∑ k ∈ range 1025, geomPmf (1 / 10 ^ 6) k ≤ 1 / 100 := by
  constructor
  · intro k hk
    refine (C73_truncated_law (fun k => by unfold geomPmf; exact mul_nonneg (pow_nonneg (by norm_num) _) (by norm_num)) (by unfold geomPmf; norm_num) _).2 _ fun j hj h => ?_
    have : j = k := by exact_mod_cast h
    have : geomMax [1 / 10 ^ 6] ≤ 1024 := min_le_right _ _
    omega
  · have h : ∀ k ∈ range 1025, geomPmf (1 / 10 ^ 6) k ≤ 1 / 10 ^ 6 := fun k _ => by
      unfold geomPmf
      exact mul_le_of_le_one_left (by norm_num) (pow_le_one₀ (by norm_num) (by norm_num))
    refine (sum_le_card_nsmul _ _ _ h).trans ?_
    rw [card_range]
    norm_num

/-! ### Examples -/

/-- Three classes, one of them impossible. -/
noncomputable def exL (i : ℕ) : LogV := if i = 0 then 0 else if i = 1 then ⊥ else (Real.log 3 : LogV)

theorem exL_alive : ∃ i < 3, exL i ≠ ⊥ := ⟨0, by norm_num, by simp [exL]⟩

/-- Weights `1 : 0 : 3`; the sampler chooses class 2 with probability 3/4 and class 1 never. -/
theorem C73_example :
    pr 3 (fun u => simple 3 exL 2 false u = .ok (some fun i => if i = 2 then 1 else 0)) = ENNReal.ofReal (3 / 4) ∧
    (∀ u, simple 3 exL 2 false u ≠ .ok (some fun i => if i = 1 then 1 else 0)) ∧
    simple 3 exL 2 true (fun _ => 0) = .ok (some fun i => if i = 2 then 1 else 0) := by
  have hs : ∑ j ∈ range 3, expL (exL j) = 4 := by
    simp only [sum_range_succ, range_zero, sum_empty, exL]
    norm_num [Real.exp_log]
  refine ⟨?_, fun u h => ?_, ?_⟩
  · rw [(C73_law exL_alive (by norm_num) (by norm_num : 2 < 3)).1, softmax_eq, hs]
    simp [exL, Real.exp_log]
  · obtain ⟨j, hj, hne, he⟩ := (C73_one_hot exL_alive false u).1
    rw [he 2 (by norm_num)] at h
    injection h with h; injection h with h
    have : j = 1 := oneHot_injective h
    rw [this] at hne
    exact hne (by simp [exL])
  · obtain ⟨j, hj, he, -, hmax, -⟩ := C73_mpe exL_alive (tau := 2) (by norm_num) fun _ => 0
    rw [he]
    have h2 := hmax 2 (by norm_num)
    have : j = 2 := by
      rcases (by omega : j = 0 ∨ j = 1 ∨ j = 2) with h | h | h
      · rw [h] at h2
        simp only [exL] at h2
        norm_num at h2
        have : Real.log 3 ≤ 0 := by exact_mod_cast h2
        have := Real.log_pos (by norm_num : (1 : ℝ) < 3)
        linarith
      · rw [h] at h2; simp [exL] at h2
      · exact h
    rw [this]

/-- The truncation point is not capped for moderate rates: a Poisson leaf of rate 4 is truncated at 34. -/
theorem C73_poisson_example : poissonMax [1, 4] = 34 := by
  unfold poissonMax truncAt
  have h1 : √(max 1 0) = (1 : ℝ) := by rw [max_eq_left (by norm_num)]; exact Real.sqrt_one
  have h4 : √(max 4 0) = (2 : ℝ) := by rw [max_eq_left (by norm_num), show (4 : ℝ) = 2 ^ 2 by norm_num]; exact Real.sqrt_sq (by norm_num)
  have c1 : ⌈(1 : ℝ) + 10 * 1 + 10⌉ = 21 := by rw [Int.ceil_eq_iff]; norm_num
  have c4 : ⌈(4 : ℝ) + 10 * 2 + 10⌉ = 34 := by rw [Int.ceil_eq_iff]; norm_num
  simp only [List.map_cons, List.map_nil, h1, h4, c1, c4, List.foldl_cons, List.foldl_nil]
  decide

/-- A sampling program that does not raise: a mixture of two Bernoulli values. -/
theorem C73_program_example : ∃ p : Prog ℕ, ¬ p.Fails ∧ p.prob 1 = ENNReal.ofReal (3 / 4) ∧
    (∀ tau : ℝ, 0 < tau → gumbelE tau p (fun b => if b = 1 then 1 else 0) = ENNReal.ofReal (3 / 4)) := by
  have hp : ¬ (Prog.choose 3 exL fun i => .ret (if i = 2 then 1 else 0) : Prog ℕ).Fails := by
    intro h
    cases h with
    | dead h => exact absurd (h 0 (by norm_num)) (by simp [exL])
    | choose hi h => cases h
  have hs : ∑ j ∈ range 3, expL (exL j) = 4 := by
    simp only [sum_range_succ, range_zero, sum_empty, exL]
    norm_num [Real.exp_log]
  have hE : (Prog.choose 3 exL fun i => .ret (if i = 2 then 1 else 0) : Prog ℕ).E (fun b => if b = 1 then 1 else 0) = ENNReal.ofReal (3 / 4) := by
    simp only [Prog.E, sum_range_succ, range_zero, sum_empty, softmax_eq]
    simp only [sum_range_succ, range_zero, sum_empty] at hs
    rw [hs]
    simp [exL, Real.exp_log]
  refine ⟨_, hp, ?_, fun tau ht => (C73_program ht _ hp _).trans hE⟩
  rw [← hE]
  unfold Prog.prob
  congr 1
  funext b
  by_cases h : b = 1
  · rw [if_pos h, if_pos h]
  · rw [if_neg h, if_neg h]

end Verif.Simple

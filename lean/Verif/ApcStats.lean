import Verif.ApcKl
import Verif.WeightedSumProps

/-!
# C74: latent statistics of the routed leaf components
-/

namespace Verif.Apc

open Finset MeasureTheory ProbabilityTheory
open scoped NNReal

/-! ### Leaves and routing -/

/-- A parameter with one number per feature, channel and repetition. -/
def rank3 (F C R : ℕ) (t : ℕ → ℕ → ℕ → ℝ) : Tens := ⟨[F, C, R], fun f c r _ => t f c r⟩

/-- A parameter with `K` numbers per feature, channel and repetition. -/
def rank4 (F C R K : ℕ) (t : ℕ → ℕ → ℕ → ℕ → ℝ) : Tens := ⟨[F, C, R, K], t⟩

/-- `Normal.params()` (normal.py:81-82) with the `log_scale` that the record adds (leaf.py:972-976). -/
noncomputable def normalParams (F C R : ℕ) (m ls : ℕ → ℕ → ℕ → ℝ) : Params :=
  { loc := some (rank3 F C R m), scale := some (rank3 F C R fun f c r => Real.exp (ls f c r)), logScale := some (rank3 F C R ls) }

/-- Parameters of a conditional Normal leaf whose network returns `loc` and `scale` only. -/
def normalScaleParams (F C R : ℕ) (m sc : ℕ → ℕ → ℕ → ℝ) : Params :=
  { loc := some (rank3 F C R m), scale := some (rank3 F C R sc) }

/-- `Bernoulli.params()`, bernoulli.py:101-103. -/
def bernoulliParams (F C R : ℕ) (l : ℕ → ℕ → ℕ → ℝ) : Params := { logits := some (rank3 F C R l) }

/-- `Binomial.params()`, binomial.py:136-138. -/
def binomialParams (F C R : ℕ) (n : ℕ → ℕ → ℕ → ℝ) (l : ℕ → ℕ → ℕ → ℝ) : Params :=
  { count := some (rank3 F C R n), logits := some (rank3 F C R l) }

/-- `Categorical.params()`, categorical.py:121-123. -/
def categoricalParams (F C R K : ℕ) (l : ℕ → ℕ → ℕ → ℕ → ℝ) : Params := { logits := some (rank4 F C R K l) }

/-- The channel and the repetition chosen for every row exist. -/
structure Route (B D C R : ℕ) (ch : ℕ → ℕ → ℕ) (rep : ℕ → ℕ) : Prop where
  chan : ∀ b < B, ∀ j < D, ch b j < C
  reps : ∀ b < B, rep b < R

/-- Record the routed parameters, then compute the statistics: `latent_stats` and `encode(return_latent_stats=True)`. -/
noncomputable def statsOf (eps : ℝ) (kind : Kind) (B D C R : ℕ) (ch : ℕ → ℕ → ℕ) (rep : ℕ → ℕ) (p : Params) : Except Exc Stats :=
  match collect B D C R ch rep p with
  | .error e => .error e
  | .ok q => latentStats eps kind B D q

variable {B D C R : ℕ} {ch : ℕ → ℕ → ℕ} {rep : ℕ → ℕ}

/-- What `select` reads, with broadcasting of size-one axes. -/
def at3 (C R : ℕ) (ch : ℕ → ℕ → ℕ) (rep : ℕ → ℕ) (t : ℕ → ℕ → ℕ → ℝ) (b j : ℕ) : ℝ :=
  t j (if C = 1 then 0 else ch b j) (if R = 1 then 0 else rep b)

theorem at3_eq (h : Route B D C R ch rep) (t : ℕ → ℕ → ℕ → ℝ) {b j : ℕ} (hb : b < B) (hj : j < D) :
    at3 C R ch rep t b j = t j (ch b j) (rep b) := by
  have h1 := h.chan b hb j hj
  have h2 := h.reps b hb
  unfold at3
  congr 1
  · split_ifs with hc
    · rw [hc] at h1; omega
    · rfl
  · split_ifs with hc
    · rw [hc] at h2; omega
    · rfl

theorem select_rank3 (t : ℕ → ℕ → ℕ → ℝ) :
    select B D C R ch rep (rank3 D C R t) = .ok ⟨[B, D], fun b f _ _ => at3 C R ch rep t b f⟩ := by
  simp [select, normalize, rank3, at3]

theorem select_rank4 {K : ℕ} (t : ℕ → ℕ → ℕ → ℕ → ℝ) (hb : ¬ (D = B ∧ C = D)) :
    select B D C R ch rep (rank4 D C R K t) = .ok ⟨[B, D, K], fun b f k _ => at3 C R ch rep (fun f c r => t f c r k) b f⟩ := by
  simp [select, normalize, rank4, at3, hb]

/-! ### Normal -/

theorem kl_normal {m s l : ℝ} (hs : 0 < s) (hl : l = Real.log s) :
    1 / 2 * (m ^ 2 + s - 1 - l) = (InformationTheory.klDiv (gaussianReal m s.toNNReal) (gaussianReal 0 1)).toReal := by
  rw [kl_gaussian m (by rw [Ne, Real.toNNReal_eq_zero]; exact not_le.2 hs), Real.coe_toNNReal _ hs.le, hl]

theorem pdf_max (m : ℝ) (v : ℝ≥0) (x : ℝ) : gaussianPDFReal m v x ≤ gaussianPDFReal m v m := by
  rw [gaussianPDFReal_def]
  beta_reduce
  refine mul_le_mul_of_nonneg_left (Real.exp_le_exp.2 ?_) (by positivity)
  rw [sub_self]
  have : 0 ≤ (x - m) ^ 2 / (2 * (v : ℝ)) := by positivity
  simp only [ne_eq, OfNat.ofNat_ne_zero, not_false_eq_true, zero_pow, neg_zero, zero_div]
  rw [neg_div]
  linarith

/-- **Normal leaves.** For every routing, the statistics exist, and in every row the reported divergence is the sum over the
latent dimensions of the Kullback-Leibler divergence of the routed component `N(m, e^(2 ls))` from the standard Normal
distribution; `mu` and `logvar` are its mean and log-variance, the decoded value has the largest density. -/
theorem C74_normal (eps : ℝ) (h : Route B D C R ch rep) (m ls : ℕ → ℕ → ℕ → ℝ) :
    ∃ s, statsOf eps .normal B D C R ch rep (normalParams D C R m ls) = .ok s ∧ ∀ b < B,
      s.kld b = ∑ j ∈ range D, (InformationTheory.klDiv
        (gaussianReal (m j (ch b j) (rep b)) (Real.exp (ls j (ch b j) (rep b)) ^ 2).toNNReal) (gaussianReal 0 1)).toReal ∧
      ∀ j < D, s.mu b j = ∫ x, x ∂gaussianReal (m j (ch b j) (rep b)) (Real.exp (ls j (ch b j) (rep b)) ^ 2).toNNReal ∧
        Real.exp (s.logvar b j) = Var[id; gaussianReal (m j (ch b j) (rep b)) (Real.exp (ls j (ch b j) (rep b)) ^ 2).toNNReal] ∧
        ∀ x, gaussianPDFReal (m j (ch b j) (rep b)) (Real.exp (ls j (ch b j) (rep b)) ^ 2).toNNReal x ≤
          gaussianPDFReal (m j (ch b j) (rep b)) (Real.exp (ls j (ch b j) (rep b)) ^ 2).toNNReal (s.decode b j) := by
  refine ⟨normalOf D (at3 C R ch rep m) (fun b j => Real.exp (2 * at3 C R ch rep ls b j)) fun b j => 2 * at3 C R ch rep ls b j,
    ?_, fun b hb => ⟨?_, fun j hj => ⟨?_, ?_, fun x => ?_⟩⟩⟩
  · simp [statsOf, collect, selectOpt, normalParams, select_rank3, bind, Except.bind, pure, Except.pure, latentStats, normalStats,
      expectMatrix]
  · show 1 / 2 * ∑ j ∈ range D, _ = _
    rw [mul_sum]
    refine sum_congr rfl fun j hj => ?_
    rw [mem_range] at hj
    beta_reduce
    rw [at3_eq h m hb hj, at3_eq h ls hb hj]
    have he : Real.exp (2 * ls j (ch b j) (rep b)) = Real.exp (ls j (ch b j) (rep b)) ^ 2 := by
      rw [← Real.exp_nat_mul]; norm_num
    rw [he]
    exact kl_normal (by positivity) (by rw [← he, Real.log_exp])
  · rw [integral_id_gaussianReal]
    exact at3_eq h m hb hj
  · rw [variance_id_gaussianReal, Real.coe_toNNReal _ (by positivity)]
    show Real.exp (2 * at3 C R ch rep ls b j) = _
    rw [at3_eq h ls hb hj, ← Real.exp_nat_mul]; norm_num
  · show _ ≤ gaussianPDFReal _ _ (at3 C R ch rep m b j)
    rw [at3_eq h m hb hj]
    exact pdf_max _ _ _

/-- Normal parameters without `log_scale`: the divergence is that of the component with its variance raised to at least `eps`. -/
theorem C74_normal_scale {eps : ℝ} (he : 0 < eps) (h : Route B D C R ch rep) (m sc : ℕ → ℕ → ℕ → ℝ) :
    ∃ s, statsOf eps .normal B D C R ch rep (normalScaleParams D C R m sc) = .ok s ∧ ∀ b < B,
      s.kld b = ∑ j ∈ range D, (InformationTheory.klDiv
        (gaussianReal (m j (ch b j) (rep b)) (max (sc j (ch b j) (rep b) ^ 2) eps).toNNReal) (gaussianReal 0 1)).toReal := by
  refine ⟨normalOf D (at3 C R ch rep m) (fun b j => max (at3 C R ch rep sc b j ^ 2) eps)
    fun b j => Real.log (max (at3 C R ch rep sc b j ^ 2) eps), ?_, fun b hb => ?_⟩
  · simp [statsOf, collect, selectOpt, normalScaleParams, select_rank3, bind, Except.bind, pure, Except.pure, latentStats,
      normalStats, expectMatrix]
  · show 1 / 2 * ∑ j ∈ range D, _ = _
    rw [mul_sum]
    refine sum_congr rfl fun j hj => ?_
    rw [mem_range] at hj
    beta_reduce
    rw [at3_eq h m hb hj, at3_eq h sc hb hj]
    exact kl_normal (lt_max_of_lt_right he) rfl

/-- The latents returned with the statistics of a Normal leaf: every coordinate is distributed as the routed component with its
standard deviation multiplied by the temperature - so it is a sample of that component exactly if the temperature is 1. -/
theorem C74_redraw (s : Stats) (z : ℕ → ℕ → ℝ) {tau : ℝ} (ht : 0 < tau) (b j : ℕ) :
    (gaussianReal 0 1).map (fun e => statsLatent .normal false tau s z (fun _ _ => e) b j) =
        gaussianReal (s.mu b j) (tau ^ 2 * Real.exp (s.logvar b j)).toNNReal ∧
      ((gaussianReal 0 1).map (fun e => statsLatent .normal false tau s z (fun _ _ => e) b j) =
        gaussianReal (s.mu b j) (Real.exp (s.logvar b j)).toNNReal ↔ tau = 1) := by
  have hf : (fun e : ℝ => statsLatent .normal false tau s z (fun _ _ => e) b j) =
      (fun x => x + s.mu b j) ∘ fun e => (tau * Real.exp (1 / 2 * s.logvar b j)) * e := by
    funext e
    simp only [statsLatent, Bool.false_eq_true, if_false, if_true, Function.comp]
    ring
  have h1 : (gaussianReal 0 1).map (fun e => statsLatent .normal false tau s z (fun _ _ => e) b j) =
      gaussianReal (s.mu b j) (tau ^ 2 * Real.exp (s.logvar b j)).toNNReal := by
    rw [hf, ← Measure.map_map (measurable_id'.add_const _) (measurable_id'.const_mul _), gaussianReal_map_const_mul,
      gaussianReal_map_add_const]
    congr 1
    · rw [mul_zero, zero_add]
    · rw [mul_one]
      ext
      rw [Real.coe_toNNReal _ (by positivity)]
      show (tau * Real.exp (1 / 2 * s.logvar b j)) ^ 2 = _
      rw [mul_pow, ← Real.exp_nat_mul]
      congr 2
      push_cast
      ring
  refine ⟨h1, ?_⟩
  rw [h1, gaussianReal_ext_iff]
  constructor
  · rintro ⟨-, h⟩
    have h2 := congrArg (fun x : ℝ≥0 => (x : ℝ)) h
    simp only [Real.coe_toNNReal _ (Real.exp_pos _).le, Real.coe_toNNReal _ (by positivity : 0 ≤ tau ^ 2 * Real.exp (s.logvar b j))] at h2
    have h3 : tau ^ 2 = 1 := by
      have := Real.exp_pos (s.logvar b j)
      field_simp at h2
      exact h2
    nlinarith
  · rintro rfl
    exact ⟨rfl, by rw [one_pow, one_mul]⟩

/-! ### Bernoulli and Binomial -/

theorem clamp_pos {eps x : ℝ} (h0 : 0 < eps) (h1 : eps < 1) : 0 < clamp eps (1 - eps) x ∧ clamp eps (1 - eps) x < 1 :=
  ⟨lt_min (lt_max_of_lt_right h0) (by linarith), lt_of_le_of_lt (min_le_right _ _) (by linarith)⟩

theorem clamp_id {lo hi x : ℝ} (h0 : lo ≤ x) (h1 : x ≤ hi) : clamp lo hi x = x := by
  unfold clamp; rw [max_eq_left h0, min_eq_left h1]

theorem clamp_compl {eps x : ℝ} (h1 : eps ≤ 1 / 2) :
    clamp eps (1 - eps) (1 - clamp eps (1 - eps) x) = 1 - clamp eps (1 - eps) x := by
  have a : eps ≤ clamp eps (1 - eps) x := le_min (le_max_right _ _) (by linarith)
  have b : clamp eps (1 - eps) x ≤ 1 - eps := min_le_right _ _
  exact clamp_id (by linarith) (by linarith)

/-- **Bernoulli leaves.** With `p` the routed success probability, moved into `[eps, 1 - eps]`, the reported divergence is that of
`Bernoulli(p)` from the fair coin, `mu` its mean, `logvar` its log-variance (at least `log eps`), and the decoded value is a most
likely one. -/
theorem C74_bernoulli {eps : ℝ} (h0 : 0 < eps) (h1 : eps ≤ 1 / 2) (h : Route B D C R ch rep) (l : ℕ → ℕ → ℕ → ℝ) :
    ∃ s, statsOf eps .bernoulli B D C R ch rep (bernoulliParams D C R l) = .ok s ∧ ∀ b < B,
      s.kld b = ∑ j ∈ range D, klSum 2 (bern (clamp eps (1 - eps) (Real.sigmoid (l j (ch b j) (rep b))))) (bern (1 / 2)) ∧
      ∀ j < D, s.mu b j = clamp eps (1 - eps) (Real.sigmoid (l j (ch b j) (rep b))) ∧
        Real.exp (s.logvar b j) = max (s.mu b j * (1 - s.mu b j)) eps ∧
        ∃ k : ℕ, k < 2 ∧ s.decode b j = (k : ℝ) ∧ ∀ i < 2, bern (s.mu b j) i ≤ bern (s.mu b j) k := by
  refine ⟨bernOf eps D fun b j => Real.sigmoid (at3 C R ch rep l b j), by
    simp [statsOf, collect, selectOpt, bernoulliParams, select_rank3, bind, Except.bind, pure, Except.pure, latentStats,
      bernoulliStats, probsOf, expectMatrix], fun b hb => ⟨?_, fun j hj => ⟨?_, ?_, ?_⟩⟩⟩
  · show ∑ j ∈ range D, _ = _
    refine sum_congr rfl fun j hj => ?_
    rw [mem_range] at hj
    beta_reduce
    rw [at3_eq h l hb hj, clamp_compl h1, bernKl_eq (clamp_pos h0 (by linarith)).1 (clamp_pos h0 (by linarith)).2]
  · show clamp eps (1 - eps) (Real.sigmoid (at3 C R ch rep l b j)) = _
    rw [at3_eq h l hb hj]
  · show Real.exp (Real.log (max (clamp eps (1 - eps) (Real.sigmoid (at3 C R ch rep l b j)) *
      clamp eps (1 - eps) (1 - clamp eps (1 - eps) (Real.sigmoid (at3 C R ch rep l b j)))) eps)) = _
    rw [clamp_compl h1, Real.exp_log (lt_max_of_lt_right h0)]
    rfl
  · obtain ⟨p, hp⟩ : ∃ p, p = clamp eps (1 - eps) (Real.sigmoid (at3 C R ch rep l b j)) := ⟨_, rfl⟩
    show ∃ k : ℕ, k < 2 ∧ (if 1 / 2 ≤ clamp eps (1 - eps) (Real.sigmoid (at3 C R ch rep l b j)) then (1 : ℝ) else 0) = (k : ℝ) ∧
      ∀ i < 2, bern (clamp eps (1 - eps) (Real.sigmoid (at3 C R ch rep l b j))) i ≤ bern (clamp eps (1 - eps) (Real.sigmoid (at3 C R ch rep l b j))) k
    rw [← hp]
    by_cases hp2 : 1 / 2 ≤ p
    · refine ⟨1, by omega, by rw [if_pos hp2]; norm_num, fun i _ => ?_⟩
      unfold bern
      rw [if_neg one_ne_zero]
      split_ifs <;> linarith
    · refine ⟨0, by omega, by rw [if_neg hp2]; norm_num, fun i _ => ?_⟩
      unfold bern
      rw [if_pos rfl]
      split_ifs <;> linarith

/-- **Binomial leaves** with integer counts `n`: the reported divergence is that of `Binomial(n, p)` from `Binomial(n, 1/2)`; mean,
log-variance and mode likewise. -/
theorem C74_binomial {eps : ℝ} (h0 : 0 < eps) (h1 : eps ≤ 1 / 2) (h : Route B D C R ch rep) (n : ℕ → ℕ → ℕ → ℕ) (l : ℕ → ℕ → ℕ → ℝ) :
    ∃ s, statsOf eps .binomial B D C R ch rep (binomialParams D C R (fun f c r => n f c r) l) = .ok s ∧ ∀ b < B,
      s.kld b = ∑ j ∈ range D, klSum (n j (ch b j) (rep b) + 1)
        (Simple.binPmf (n j (ch b j) (rep b)) (clamp eps (1 - eps) (Real.sigmoid (l j (ch b j) (rep b)))))
        (Simple.binPmf (n j (ch b j) (rep b)) (1 / 2)) ∧
      ∀ j < D,
        s.mu b j = n j (ch b j) (rep b) * clamp eps (1 - eps) (Real.sigmoid (l j (ch b j) (rep b))) ∧
        Real.exp (s.logvar b j) = max (s.mu b j * (1 - clamp eps (1 - eps) (Real.sigmoid (l j (ch b j) (rep b))))) eps ∧
        ∃ k ≤ n j (ch b j) (rep b), s.decode b j = (k : ℝ) ∧ ∀ i ≤ n j (ch b j) (rep b),
          Simple.binPmf (n j (ch b j) (rep b)) (clamp eps (1 - eps) (Real.sigmoid (l j (ch b j) (rep b)))) i ≤
            Simple.binPmf (n j (ch b j) (rep b)) (clamp eps (1 - eps) (Real.sigmoid (l j (ch b j) (rep b)))) k := by
  have hneg : ¬ anyNegative B D fun b j => at3 C R ch rep (fun f c r => (n f c r : ℝ)) b j := by
    rintro ⟨b, _, j, _, hlt⟩
    exact absurd (Nat.cast_nonneg _) (not_le.2 hlt)
  refine ⟨binOf eps D (at3 C R ch rep fun f c r => (n f c r : ℝ)) fun b j => Real.sigmoid (at3 C R ch rep l b j), by
    simp [statsOf, collect, selectOpt, binomialParams, select_rank3, bind, Except.bind, pure, Except.pure, latentStats,
      binomialStats, probsOf, expectMatrix, hneg], fun b hb => ⟨?_, fun j hj => ⟨?_, ?_, ?_⟩⟩⟩
  · show ∑ j ∈ range D, _ = _
    refine sum_congr rfl fun j hj => ?_
    rw [mem_range] at hj
    beta_reduce
    rw [at3_eq h l hb hj, at3_eq h (fun f c r => (n f c r : ℝ)) hb hj, clamp_compl h1,
      binomial_kl (clamp_pos h0 (by linarith)).1 (clamp_pos h0 (by linarith)).2]
  · show at3 C R ch rep (fun f c r => (n f c r : ℝ)) b j * clamp eps (1 - eps) (Real.sigmoid (at3 C R ch rep l b j)) = _
    rw [at3_eq h l hb hj, at3_eq h (fun f c r => (n f c r : ℝ)) hb hj]
  · show Real.exp (Real.log (max (at3 C R ch rep (fun f c r => (n f c r : ℝ)) b j * clamp eps (1 - eps) (Real.sigmoid (at3 C R ch rep l b j)) *
      clamp eps (1 - eps) (1 - clamp eps (1 - eps) (Real.sigmoid (at3 C R ch rep l b j)))) eps)) =
      max (at3 C R ch rep (fun f c r => (n f c r : ℝ)) b j * clamp eps (1 - eps) (Real.sigmoid (at3 C R ch rep l b j)) * _) eps
    rw [clamp_compl h1, Real.exp_log (lt_max_of_lt_right h0), at3_eq h l hb hj]
  · show ∃ k ≤ n j (ch b j) (rep b), min (max (⌊(at3 C R ch rep (fun f c r => (n f c r : ℝ)) b j + 1) *
      clamp eps (1 - eps) (Real.sigmoid (at3 C R ch rep l b j))⌋ : ℝ) 0) (at3 C R ch rep (fun f c r => (n f c r : ℝ)) b j) = (k : ℝ) ∧ _
    rw [at3_eq h l hb hj, at3_eq h (fun f c r => (n f c r : ℝ)) hb hj]
    obtain ⟨N, hN⟩ : ∃ N, N = n j (ch b j) (rep b) := ⟨_, rfl⟩
    obtain ⟨p, hp⟩ : ∃ p, p = clamp eps (1 - eps) (Real.sigmoid (l j (ch b j) (rep b))) := ⟨_, rfl⟩
    obtain ⟨p0, p1⟩ : 0 < p ∧ p < 1 := by rw [hp]; exact clamp_pos h0 (by linarith)
    rw [← hN, ← hp]
    have hx : 0 ≤ ((N : ℝ) + 1) * p := by positivity
    have hle : ((N : ℝ) + 1) * p < N + 1 := by nlinarith
    have hfl : (⌊((N : ℝ) + 1) * p⌋ : ℝ) = (⌊((N : ℝ) + 1) * p⌋₊ : ℝ) := by
      rw [← Int.natCast_floor_eq_floor hx]; rfl
    have hk : ⌊((N : ℝ) + 1) * p⌋₊ ≤ N := by
      have : ⌊((N : ℝ) + 1) * p⌋₊ < N + 1 := (Nat.floor_lt hx).2 (by exact_mod_cast hle)
      omega
    refine ⟨⌊((N : ℝ) + 1) * p⌋₊, hk, ?_, fun i hi => binPmf_mode p0 p1 (Nat.floor_le hx) (Nat.lt_floor_add_one _) hk hi⟩
    rw [hfl, max_eq_left (Nat.cast_nonneg _), min_eq_left (by exact_mod_cast hk)]

/-! ### Categorical -/

theorem argmaxR_spec {K : ℕ} (hK : 0 < K) (p : ℕ → ℝ) :
    argmaxR K p < K ∧ (∀ i < K, p i ≤ p (argmaxR K p)) ∧ ∀ i < argmaxR K p, p i < p (argmaxR K p) := by
  obtain ⟨a, b, c⟩ := WSum.C62_mpe p (K - 1)
  unfold argmaxR
  exact ⟨by omega, fun i hi => b i (by omega), c⟩

/-- Moving every probability up to at least `eps` and normalising. -/
noncomputable def lift (eps : ℝ) (K : ℕ) (p : ℕ → ℝ) (k : ℕ) : ℝ := max (p k) eps / ∑ i ∈ range K, max (p i) eps

theorem lift_id {eps : ℝ} {K : ℕ} {p : ℕ → ℝ} (hs : ∑ k ∈ range K, p k = 1) (hp : ∀ k < K, eps ≤ p k) {k : ℕ} (hk : k < K) :
    lift eps K p k = p k := by
  unfold lift
  rw [sum_congr rfl fun i hi => max_eq_left (hp i (mem_range.1 hi)), hs, div_one, max_eq_left (hp k hk)]

/-- **Categorical leaves.** If the batch size, the latent dimension and the number of channels are not all equal: with `p` the
routed class probabilities, moved up to at least `eps` and normalised, the reported divergence is that of `p` from the uniform
distribution on the classes; mean, log-variance and mode likewise. -/
theorem C74_categorical {eps : ℝ} (h0 : 0 < eps) (h1 : eps ≤ 1) (h : Route B D C R ch rep) {K : ℕ} (hK : 0 < K) (hb : ¬ (D = B ∧ C = D))
    (l : ℕ → ℕ → ℕ → ℕ → ℝ) :
    ∃ s, statsOf eps .categorical B D C R ch rep (categoricalParams D C R K l) = .ok s ∧ ∀ b < B,
      ∃ p : ℕ → ℕ → ℝ, (∀ j < D, ∀ k < K, p j k = lift eps K (softmax K fun k => ((l j (ch b j) (rep b) k : ℝ) : LogV)) k) ∧
        s.kld b = ∑ j ∈ range D, klSum K (p j) (fun _ => 1 / K) ∧
        ∀ j < D, s.mu b j = ∑ k ∈ range K, p j k * k ∧
          Real.exp (s.logvar b j) = max (∑ k ∈ range K, p j k * ((k : ℝ) - s.mu b j) ^ 2) eps ∧
          ∃ k : ℕ, k < K ∧ s.decode b j = (k : ℝ) ∧ ∀ i < K, p j i ≤ p j k := by
  obtain ⟨q, hq⟩ : ∃ q : ℕ → ℕ → ℕ → ℝ, q = fun b j k => softmax K (fun k => ((at3 C R ch rep (fun f c r => l f c r k) b j : ℝ) : LogV)) k :=
    ⟨_, rfl⟩
  have hsm : ∀ b j, ∀ k < K, q b j k ≤ 1 := fun b j k hk => by
    rw [hq]
    beta_reduce
    rw [softmax_eq]
    exact div_le_one_of_le₀ (single_le_sum (f := fun i => expL ((at3 C R ch rep (fun f c r => l f c r i) b j : ℝ) : LogV))
      (fun i _ => expL_nonneg _) (mem_range.2 hk)) (sum_nonneg fun i _ => expL_nonneg _)
  have hcl : ∀ b j, ∀ k < K, clamp eps 1 (q b j k) = max (q b j k) eps := fun b j k hk => by
    unfold clamp; exact min_eq_left (max_le (hsm b j k hk) h1)
  have hrn : ∀ b j, ∀ k < K, renorm eps K (fun k => clamp eps 1 (q b j k)) k = lift eps K (q b j) k := fun b j k hk => by
    unfold renorm lift
    have hs : ∑ i ∈ range K, clamp eps 1 (q b j i) = ∑ i ∈ range K, max (q b j i) eps :=
      sum_congr rfl fun i hi => hcl b j i (mem_range.1 hi)
    have hge : eps ≤ ∑ i ∈ range K, max (q b j i) eps :=
      (le_max_right (q b j k) eps).trans (single_le_sum (f := fun i => max (q b j i) eps) (fun i _ => h0.le.trans (le_max_right _ _)) (mem_range.2 hk))
    rw [hs, max_eq_left hge]
    beta_reduce
    rw [hcl b j k hk]
  have hpos : ∀ b j, ∀ k < K, 0 < lift eps K (q b j) k := fun b j k hk => by
    unfold lift
    refine div_pos (lt_max_of_lt_right h0) (sum_pos (fun i _ => lt_max_of_lt_right h0) ⟨k, mem_range.2 hk⟩)
  have hsum : ∀ b j, ∑ k ∈ range K, lift eps K (q b j) k = 1 := fun b j => by
    unfold lift
    rw [← sum_div]
    exact div_self (sum_pos (fun i _ => lt_max_of_lt_right h0) ⟨0, mem_range.2 hK⟩).ne'
  have hk0 : (0 : ℝ) < K := by exact_mod_cast hK
  have hmu : ∀ b j, (catOf eps D K q).mu b j = ∑ k ∈ range K, lift eps K (q b j) k * k := fun b j => by
    show ∑ k ∈ range K, _ = _
    exact sum_congr rfl fun k hk => by beta_reduce; rw [hrn b j k (mem_range.1 hk)]
  refine ⟨catOf eps D K q, ?_, fun b hb => ⟨fun j => lift eps K (q b j), fun j hj k _ => ?_, ?_, fun j hj => ⟨hmu b j, ?_, ?_⟩⟩⟩
  · rw [hq]
    simp [statsOf, collect, selectOpt, categoricalParams, select_rank4 _ hb, bind, Except.bind, pure, Except.pure, latentStats,
      categoricalStats, classProbs, hK.ne']
  · rw [hq]
    beta_reduce
    simp only [at3_eq h _ hb hj]
  · show ∑ j ∈ range D, _ = _
    refine sum_congr rfl fun j _ => sum_congr rfl fun k hk => ?_
    beta_reduce
    rw [hrn b j k (mem_range.1 hk), Real.log_div (hpos b j k (mem_range.1 hk)).ne' (by positivity), Real.log_div one_ne_zero hk0.ne',
      Real.log_one]
    ring
  · show Real.exp (Real.log (max (∑ k ∈ range K, _ - (catOf eps D K q).mu b j ^ 2) eps)) = _
    rw [Real.exp_log (lt_max_of_lt_right h0)]
    congr 1
    obtain ⟨m, hm⟩ : ∃ m, m = (catOf eps D K q).mu b j := ⟨_, rfl⟩
    rw [← hm]
    have e1 : ∀ k ∈ range K, lift eps K (q b j) k * ((k : ℝ) - m) ^ 2 =
        lift eps K (q b j) k * (k : ℝ) ^ 2 - 2 * m * (lift eps K (q b j) k * k) + m ^ 2 * lift eps K (q b j) k := fun k _ => by ring
    rw [sum_congr rfl e1, sum_add_distrib, sum_sub_distrib, ← mul_sum, ← mul_sum, hsum, ← hmu b j, ← hm,
      sum_congr rfl fun k hk => by beta_reduce; rw [hrn b j k (mem_range.1 hk)]]
    ring
  · obtain ⟨a1, a2, -⟩ := argmaxR_spec hK (renorm eps K fun k => clamp eps 1 (q b j k))
    refine ⟨_, a1, rfl, fun i hi => ?_⟩
    have := a2 i hi
    rw [hrn b j i hi, hrn b j _ a1] at this
    exact this

/-- If no class probability is below `eps`, the probabilities `p` of `C74_categorical` are those of the leaf. -/
theorem C74_categorical_exact {eps : ℝ} {K : ℕ} (hK : 0 < K) (l : ℕ → ℝ)
    (hp : ∀ k < K, eps ≤ softmax K (fun k => ((l k : ℝ) : LogV)) k) {k : ℕ} (hk : k < K) :
    lift eps K (softmax K fun k => ((l k : ℝ) : LogV)) k = softmax K (fun k => ((l k : ℝ) : LogV)) k :=
  lift_id (sum_softmax ⟨0, hK, by simp⟩) hp hk

/-- C74 is FALSE for Categorical leaves when the batch size happens to equal the latent dimension and the number of channels: the
parameter tensor `(D, C, R, K)` is taken for one with a batch axis, and whatever the parameters, routing, repetitions and
classes, the statistics cannot be computed (ShapeError). -/
theorem C74_categorical_batch_size (eps : ℝ) (D R K : ℕ) (ch : ℕ → ℕ → ℕ) (rep : ℕ → ℕ) (l : ℕ → ℕ → ℕ → ℕ → ℝ) :
    statsOf eps .categorical D D D R ch rep (categoricalParams D D R K l) = .error .shapeError := by
  have hsel : select D D D R ch rep (rank4 D D R K l) = .error .shapeError ∨
      ∃ t, select D D D R ch rep (rank4 D D R K l) = .ok ⟨[D, D], t⟩ := by
    simp only [select, normalize, rank4]
    split_ifs <;> simp_all
  rcases hsel with hsel | ⟨t, hsel⟩
  · simp [statsOf, collect, selectOpt, categoricalParams, hsel, bind, Except.bind]
  · simp [statsOf, collect, selectOpt, categoricalParams, hsel, bind, Except.bind, pure, Except.pure, latentStats,
      categoricalStats, classProbs]

/-- With one more row the statistics of the same leaf exist. -/
theorem C74_categorical_other_batch {eps : ℝ} (h0 : 0 < eps) (h1 : eps ≤ 1) {D R K : ℕ} (hK : 0 < K) (l : ℕ → ℕ → ℕ → ℕ → ℝ)
    {ch : ℕ → ℕ → ℕ} {rep : ℕ → ℕ} (h : Route (D + 1) D D R ch rep) :
    ∃ s, statsOf eps .categorical (D + 1) D D R ch rep (categoricalParams D D R K l) = .ok s := by
  obtain ⟨s, hs, -⟩ := C74_categorical h0 h1 h hK (by omega) l
  exact ⟨s, hs⟩

/-! ### Records -/

/-- The record of the latent leaf is found exactly if the leaf has exactly one record with the expected columns, and that record
covers every row and latent dimension; otherwise ShapeError, or UnsupportedOperationError when some cell was not sampled. -/
theorem C74_record (rs : List Rec) (leafId : ℕ) (cols : List ℕ) (B D : ℕ) :
    (∀ r, findRecord rs leafId cols B D = .ok r ↔
      (rs.filter fun r => r.leafId = leafId ∧ r.cols = cols) = [r] ∧ r.maskShape = [B, D] ∧ ∀ b < B, ∀ j < D, r.mask b j = true) ∧
    ∀ e, findRecord rs leafId cols B D = .error e → e = .shapeError ∨ e = .unsupported := by
  have hf : ((rs.filter fun r => r.leafId = leafId).filter fun r => r.cols = cols) = rs.filter fun r => r.leafId = leafId ∧ r.cols = cols := by
    rw [List.filter_filter]
    congr 1
    funext r
    by_cases h1 : r.leafId = leafId <;> by_cases h2 : r.cols = cols <;> simp [h1, h2]
  unfold findRecord
  rw [hf]
  obtain ⟨L, hL⟩ : ∃ L, L = rs.filter fun r => r.leafId = leafId ∧ r.cols = cols := ⟨_, rfl⟩
  rw [← hL]
  have hact : ∀ r : Rec, allActive r B D = true ↔ ∀ b < B, ∀ j < D, r.mask b j = true := fun r => by
    simp [allActive, List.all_eq_true]
  match L with
  | [] => exact ⟨fun r => by simp, fun e he => by simp at he; exact .inl he.symm⟩
  | [r'] =>
    simp only
    constructor
    · intro r
      constructor
      · intro h
        split_ifs at h with h1 h2 h3
        cases h
        exact ⟨rfl, not_not.1 h2, (hact r').1 h3⟩
      · rintro ⟨h, h2, h3⟩
        obtain rfl : r' = r := by simpa using h
        rw [if_neg (by rw [h2]; simp), if_neg (by simp [h2]), if_pos ((hact r').2 h3)]
    · intro e h
      split_ifs at h <;> cases h <;> simp
  | _ :: _ :: _ => exact ⟨fun r => by simp, fun e he => by simp at he; exact .inl he.symm⟩

/-- A leaf of another type, a leaf without its parameters: UnsupportedOperationError; a negative total count: ShapeError. -/
theorem C74_rejects (eps : ℝ) (B D : ℕ) (p : Params) :
    latentStats eps .other B D p = .error .unsupported ∧
    (p.loc = none → latentStats eps .normal B D p = .error .unsupported) ∧
    (p.logits = none → p.probs = none → latentStats eps .bernoulli B D p = .error .unsupported ∧
      latentStats eps .categorical B D p = .error .unsupported) ∧
    (p.count = none → latentStats eps .binomial B D p = .error .unsupported) ∧
    ∀ n q, p.count = some ⟨[B, D], n⟩ → p.logits = some ⟨[B, D], q⟩ → (∃ b < B, ∃ j < D, n b j 0 0 < 0) →
      latentStats eps .binomial B D p = .error .shapeError := by
  refine ⟨rfl, fun h => by simp [latentStats, normalStats, h], fun h1 h2 => ⟨by simp [latentStats, bernoulliStats, probsOf, h1, h2],
    by simp [latentStats, categoricalStats, classProbs, h1, h2]⟩, fun h => by simp [latentStats, binomialStats, h], ?_⟩
  intro n q h1 h2 h3
  have : anyNegative B D fun b j => n b j 0 0 := h3
  simp [latentStats, binomialStats, probsOf, expectMatrix, h1, h2, this]

end Verif.Apc

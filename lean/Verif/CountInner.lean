import Verif.InnerLeaves
import Mathlib.Data.Nat.Choose.Vandermonde

/-!
# C90: hypergeometric and negative binomial leaves, and their inner and triple products

spflow/modules/leaves/hypergeometric.py, negative_binomial.py and the two families' branches of
spflow/utils/inner_product_core.py.  Exact reals.
-/

namespace Verif
namespace Count

open Verif.Inner

/-! ## Model: hypergeometric leaves -/

/-- Parameters of one cell: success states, population, draws. -/
structure Hyp where
  K : ℕ
  N : ℕ
  n : ℕ

/-- What the constructor demands of every cell, hypergeometric.py:311-334. -/
def Hyp.Valid (h : Hyp) : Prop := h.K ≤ h.N ∧ h.n ≤ h.N

/-- Bounds of the support, hypergeometric.py:69-70: `max(0, n + K - N)` and `min(n, K)`. -/
def Hyp.lo (h : Hyp) : ℕ := h.n + h.K - h.N
def Hyp.hi (h : Hyp) : ℕ := min h.n h.K

/-- `log_prob` before the support mask, hypergeometric.py:110-151, term by term. -/
noncomputable def Hyp.logProb (h : Hyp) (k : ℕ) : ℝ :=
  let K : ℝ := h.K
  let N : ℝ := h.N
  let n : ℝ := h.n
  lgamma (K + 1) + lgamma 1 - lgamma (K + 2) + lgamma ((N - K) + 1) + lgamma 1 - lgamma ((N - K) + 2)
    + lgamma (N - n + 1) + lgamma (n + 1) - lgamma (N + 2) - lgamma (k + 1) - lgamma (K - k + 1) + lgamma (K + 2)
    - lgamma ((n - k) + 1) - lgamma ((N - K) - n + k + 1) + lgamma ((N - K) + 2) - lgamma (N + 1) - lgamma 1
    + lgamma (N + 2)

/-- The likelihood of the count `k`: `exp` of `log_prob`, zero (`-inf`) where the support mask is false,
hypergeometric.py:151 (with `validate_args` such a count raises `ValueError` instead). -/
noncomputable def Hyp.lik (h : Hyp) (k : ℕ) : ℝ := if h.lo ≤ k ∧ k ≤ h.hi then Real.exp (h.logProb k) else 0

/-- `_hypergeo_logpmf`, inner_product_core.py:70-77. -/
noncomputable def hyperLogpmf (k K N n : ℕ) : ℝ :=
  (lgamma (K + 1) - lgamma (k + 1) - lgamma ((K : ℝ) - k + 1))
    + (lgamma (((N : ℝ) - K) + 1) - lgamma (((n : ℝ) - k) + 1) - lgamma (((N : ℝ) - K) - ((n : ℝ) - k) + 1))
    - (lgamma (N + 1) - lgamma (n + 1) - lgamma ((N : ℝ) - n + 1))

/-- The mask of one factor, inner_product_core.py:280-284: the bounds of `h` with the population `N` of the first leaf. -/
def Hyp.mask (N : ℕ) (h : Hyp) (k : ℕ) : Prop := h.n + h.K - N ≤ k ∧ k ≤ min h.n h.K

/-- The parameters of a leaf with `F` features, `C` channels and `R` repetitions. -/
abbrev HLeaf := ℕ → ℕ → ℕ → Hyp

/-- `max_k`, inner_product_core.py:269, over all features, channels and repetitions. -/
def maxK2 (F C1 C2 R : ℕ) (a b : HLeaf) : ℕ :=
  (Finset.range F).sup fun f => (Finset.range C1).sup fun i => (Finset.range C2).sup fun j => (Finset.range R).sup fun r =>
    min (min (a f i r).n (a f i r).K) (min (b f j r).n (b f j r).K)

/-- `max_k` of the triple product, inner_product_core.py:786-792. -/
def maxK3 (F C1 C2 C3 R : ℕ) (a b c : HLeaf) : ℕ :=
  (Finset.range F).sup fun f => (Finset.range C1).sup fun i => (Finset.range C2).sup fun j => (Finset.range C3).sup fun l =>
    (Finset.range R).sup fun r =>
      min (min (a f i r).n (a f i r).K) (min (min (b f j r).n (b f j r).K) (min (c f l r).n (c f l r).K))

open Classical in
/-- The hypergeometric branch of `leaf_inner_product`, inner_product_core.py:259-284, for two leaves of the same features and
repetitions (112-119 raise otherwise). -/
noncomputable def hyperIp (F C1 C2 R : ℕ) (a b : HLeaf) : Except Exc (ℕ → ℕ → ℕ → ℕ → ℝ) :=
  if ∀ f < F, ∀ i < C1, ∀ j < C2, ∀ r < R, isClose (a f i r).N (b f j r).N then
    .ok fun f i j r => ∑ k ∈ Finset.range (maxK2 F C1 C2 R a b + 1),
      if (a f i r).mask (a f i r).N k ∧ (b f j r).mask (a f i r).N k then
        Real.exp (hyperLogpmf k (a f i r).K (a f i r).N (a f i r).n + hyperLogpmf k (b f j r).K (a f i r).N (b f j r).n)
      else 0
  else .error .shapeError

open Classical in
/-- The hypergeometric branch of `triple_product_tensor`, inner_product_core.py:771-822. -/
noncomputable def hyperTp (F C1 C2 C3 R : ℕ) (a b c : HLeaf) : Except Exc (ℕ → ℕ → ℕ → ℕ → ℕ → ℝ) :=
  if (∀ f < F, ∀ i < C1, ∀ j < C2, ∀ r < R, isClose (a f i r).N (b f j r).N) ∧
      ∀ f < F, ∀ i < C1, ∀ l < C3, ∀ r < R, isClose (a f i r).N (c f l r).N then
    .ok fun f i j l r => ∑ k ∈ Finset.range (maxK3 F C1 C2 C3 R a b c + 1),
      if (a f i r).mask (a f i r).N k ∧ (b f j r).mask (a f i r).N k ∧ (c f l r).mask (a f i r).N k then
        Real.exp (hyperLogpmf k (a f i r).K (a f i r).N (a f i r).n + hyperLogpmf k (b f j r).K (a f i r).N (b f j r).n +
          hyperLogpmf k (c f l r).K (a f i r).N (c f l r).n)
      else 0
  else .error .shapeError

/-! ## Specification -/

/-- The hypergeometric distribution: the probability that `n` draws without replacement from `N` objects, `K` of which are
marked, contain exactly `k` marked ones. -/
noncomputable def hyperPmf (h : Hyp) (k : ℕ) : ℝ :=
  if k ≤ h.n then (h.K.choose k * (h.N - h.K).choose (h.n - k) : ℝ) / h.N.choose h.n else 0

/-! ## Proofs -/

theorem lgamma_nat (n : ℕ) : lgamma (n + 1) = Real.log n.factorial := by
  unfold lgamma; rw [Real.Gamma_nat_eq_factorial]

theorem log_choose {n k : ℕ} (h : k ≤ n) :
    Real.log (n.choose k) = Real.log n.factorial - Real.log k.factorial - Real.log (n - k).factorial := by
  rw [Nat.cast_choose ℝ h, Real.log_div (by positivity) (by positivity), Real.log_mul (by positivity) (by positivity)]
  ring

/-- The three inequalities behind every `lgamma` argument. -/
theorem mask_bounds {h : Hyp} (hv : h.Valid) {k : ℕ} (hk : h.lo ≤ k ∧ k ≤ h.hi) :
    k ≤ h.K ∧ k ≤ h.n ∧ h.n - k ≤ h.N - h.K ∧ h.K ≤ h.N ∧ h.n ≤ h.N := by
  obtain ⟨h1, h2⟩ := hk
  obtain ⟨v1, v2⟩ := hv
  unfold Hyp.lo at h1
  unfold Hyp.hi at h2
  have := (le_min_iff.1 h2)
  omega

theorem hyperPmf_off {h : Hyp} (hv : h.Valid) {k : ℕ} (hk : ¬(h.lo ≤ k ∧ k ≤ h.hi)) : hyperPmf h k = 0 := by
  unfold hyperPmf
  split_ifs with h0
  · obtain ⟨v1, v2⟩ := hv
    unfold Hyp.lo Hyp.hi at hk
    by_cases h1 : k ≤ h.K
    · rw [Nat.choose_eq_zero_of_lt (n := h.N - h.K) (k := h.n - k)]
      · simp
      · have : k ≤ min h.n h.K := le_min h0 h1
        have : ¬ (h.n + h.K - h.N ≤ k) := fun e => hk ⟨e, this⟩
        omega
    · rw [Nat.choose_eq_zero_of_lt (n := h.K) (k := k) (not_le.1 h1)]
      simp
  · rfl

theorem hyperPmf_on {h : Hyp} (hv : h.Valid) {k : ℕ} (hk : h.lo ≤ k ∧ k ≤ h.hi) :
    hyperPmf h k = Real.exp (Real.log (h.K.choose k) + Real.log ((h.N - h.K).choose (h.n - k)) - Real.log (h.N.choose h.n)) := by
  obtain ⟨b1, b2, b3, b4, b5⟩ := mask_bounds hv hk
  have c1 : (0 : ℝ) < h.K.choose k := by exact_mod_cast Nat.choose_pos b1
  have c2 : (0 : ℝ) < (h.N - h.K).choose (h.n - k) := by exact_mod_cast Nat.choose_pos b3
  have c3 : (0 : ℝ) < h.N.choose h.n := by exact_mod_cast Nat.choose_pos b5
  unfold hyperPmf
  rw [if_pos b2, Real.exp_sub, Real.exp_add, Real.exp_log c1, Real.exp_log c2, Real.exp_log c3]

theorem hyperLogpmf_eq {h : Hyp} (hv : h.Valid) {k : ℕ} (hk : h.lo ≤ k ∧ k ≤ h.hi) :
    Real.exp (hyperLogpmf k h.K h.N h.n) = hyperPmf h k := by
  obtain ⟨b1, b2, b3, b4, b5⟩ := mask_bounds hv hk
  rw [hyperPmf_on hv hk, log_choose b1, log_choose b3, log_choose b5]
  unfold hyperLogpmf
  rw [← Nat.cast_sub b1, ← Nat.cast_sub b2, ← Nat.cast_sub b4, ← Nat.cast_sub b3, ← Nat.cast_sub b5]
  simp only [lgamma_nat]

/-- **C90.** The likelihood of a hypergeometric leaf is the probability of drawing exactly `k` marked objects. -/
theorem C90_hyper_lik {h : Hyp} (hv : h.Valid) (k : ℕ) : h.lik k = hyperPmf h k := by
  unfold Hyp.lik
  split_ifs with hk
  · obtain ⟨b1, b2, b3, b4, b5⟩ := mask_bounds hv hk
    rw [hyperPmf_on hv hk, log_choose b1, log_choose b3, log_choose b5]
    unfold Hyp.logProb
    dsimp only
    have e : (h.N : ℝ) - h.K - h.n + k + 1 = ((h.N - h.K - (h.n - k) : ℕ) : ℝ) + 1 := by
      rw [Nat.cast_sub b3, Nat.cast_sub b4, Nat.cast_sub b2]; ring
    have e1 : lgamma 1 = 0 := by
      have := lgamma_nat 0
      simpa using this
    rw [e, ← Nat.cast_sub b1, ← Nat.cast_sub b2, ← Nat.cast_sub b4, ← Nat.cast_sub b5]
    simp only [lgamma_nat, e1]
    congr 1
    ring
  · rw [hyperPmf_off hv hk]

/-- **C90.** The likelihoods of a hypergeometric leaf add up to one. -/
theorem C90_hyper_normalised {h : Hyp} (hv : h.Valid) : HasSum (fun k : ℕ => h.lik k) 1 := by
  have e : (fun k : ℕ => h.lik k) = hyperPmf h := funext (C90_hyper_lik hv)
  rw [e]
  have h1 : ∑ k ∈ Finset.range (h.n + 1), hyperPmf h k = 1 := by
    have c3 : (0 : ℝ) < h.N.choose h.n := by exact_mod_cast Nat.choose_pos hv.2
    have : ∀ k ∈ Finset.range (h.n + 1), hyperPmf h k =
        ((h.K.choose k * (h.N - h.K).choose (h.n - k) : ℕ) : ℝ) / h.N.choose h.n := fun k hk => by
      unfold hyperPmf
      rw [if_pos (by have := Finset.mem_range.1 hk; omega)]
      push_cast
      rfl
    rw [Finset.sum_congr rfl this, ← Finset.sum_div, ← Nat.cast_sum]
    have hvd := Nat.add_choose_eq h.K (h.N - h.K) h.n
    rw [Finset.Nat.sum_antidiagonal_eq_sum_range_succ (fun i j => h.K.choose i * (h.N - h.K).choose j)] at hvd
    rw [Nat.succ_eq_add_one] at hvd
    rw [← hvd, Nat.add_sub_cancel' hv.1, div_self c3.ne']
  rw [← h1]
  refine hasSum_sum_of_ne_finset_zero fun k hk => ?_
  unfold hyperPmf
  rw [if_neg (by have := Finset.mem_range.not.1 hk; omega)]

theorem mask_iff {N : ℕ} {h : Hyp} (e : h.N = N) (k : ℕ) : h.mask N k ↔ h.lo ≤ k ∧ k ≤ h.hi := by
  subst e; rfl

theorem le_maxK2 {F C1 C2 R : ℕ} {a b : HLeaf} {f i j r : ℕ} (hf : f < F) (hi : i < C1) (hj : j < C2) (hr : r < R) :
    min (min (a f i r).n (a f i r).K) (min (b f j r).n (b f j r).K) ≤ maxK2 F C1 C2 R a b := by
  refine le_trans ?_ (Finset.le_sup (Finset.mem_range.2 hf))
  refine le_trans ?_ (Finset.le_sup (Finset.mem_range.2 hi))
  refine le_trans ?_ (Finset.le_sup (Finset.mem_range.2 hj))
  exact Finset.le_sup (f := fun r => min (min (a f i r).n (a f i r).K) (min (b f j r).n (b f j r).K)) (Finset.mem_range.2 hr)

theorem le_maxK3 {F C1 C2 C3 R : ℕ} {a b c : HLeaf} {f i j l r : ℕ} (hf : f < F) (hi : i < C1) (hj : j < C2) (hl : l < C3)
    (hr : r < R) : min (min (a f i r).n (a f i r).K) (min (min (b f j r).n (b f j r).K) (min (c f l r).n (c f l r).K)) ≤
      maxK3 F C1 C2 C3 R a b c := by
  refine le_trans ?_ (Finset.le_sup (Finset.mem_range.2 hf))
  refine le_trans ?_ (Finset.le_sup (Finset.mem_range.2 hi))
  refine le_trans ?_ (Finset.le_sup (Finset.mem_range.2 hj))
  refine le_trans ?_ (Finset.le_sup (Finset.mem_range.2 hl))
  exact Finset.le_sup (f := fun r => min (min (a f i r).n (a f i r).K) (min (min (b f j r).n (b f j r).K)
    (min (c f l r).n (c f l r).K))) (Finset.mem_range.2 hr)

theorem isClose_self (x : ℝ) : isClose x x := by
  unfold isClose
  rw [sub_self, abs_zero]
  positivity

open Classical in
/-- **C90.** For leaves whose cells all have the population size `N`, the inner product of two cells is the sum over all
counts of the product of their likelihoods. -/
theorem C90_hyper_inner {F C1 C2 R N : ℕ} {a b : HLeaf} (ha : ∀ f < F, ∀ i < C1, ∀ r < R, (a f i r).Valid ∧ (a f i r).N = N)
    (hb : ∀ f < F, ∀ j < C2, ∀ r < R, (b f j r).Valid ∧ (b f j r).N = N) :
    ∃ m, hyperIp F C1 C2 R a b = .ok m ∧ ∀ f < F, ∀ i < C1, ∀ j < C2, ∀ r < R,
      HasSum (fun k => (a f i r).lik k * (b f j r).lik k) (m f i j r) := by
  refine ⟨_, if_pos fun f hf i hi j hj r hr => ?_, fun f hf i hi j hj r hr => ?_⟩
  · rw [(ha f hf i hi r hr).2, (hb f hf j hj r hr).2]; exact isClose_self _
  · obtain ⟨va, ea⟩ := ha f hf i hi r hr
    obtain ⟨vb, eb⟩ := hb f hf j hj r hr
    have hmx := le_maxK2 (a := a) (b := b) hf hi hj hr
    have key : ∀ k, (if (a f i r).mask (a f i r).N k ∧ (b f j r).mask (a f i r).N k then
        Real.exp (hyperLogpmf k (a f i r).K (a f i r).N (a f i r).n + hyperLogpmf k (b f j r).K (a f i r).N (b f j r).n)
        else 0) = (a f i r).lik k * (b f j r).lik k := by
      intro k
      rw [mask_iff rfl, mask_iff (eb.trans ea.symm), C90_hyper_lik va, C90_hyper_lik vb]
      split_ifs with h
      · rw [Real.exp_add, hyperLogpmf_eq va h.1, ea, ← eb, hyperLogpmf_eq vb h.2]
      · rcases not_and_or.1 h with h | h
        · rw [hyperPmf_off va h, zero_mul]
        · rw [hyperPmf_off vb h, mul_zero]
    simp only [key]
    refine hasSum_sum_of_ne_finset_zero fun k hk => ?_
    have hk' := Finset.mem_range.not.1 hk
    rw [← key, if_neg]
    rintro ⟨h1, h2⟩
    have := le_min h1.2 h2.2
    omega

open Classical in
/-- **C90.** The same for triple products. -/
theorem C90_hyper_triple {F C1 C2 C3 R N : ℕ} {a b c : HLeaf}
    (ha : ∀ f < F, ∀ i < C1, ∀ r < R, (a f i r).Valid ∧ (a f i r).N = N)
    (hb : ∀ f < F, ∀ j < C2, ∀ r < R, (b f j r).Valid ∧ (b f j r).N = N)
    (hc : ∀ f < F, ∀ l < C3, ∀ r < R, (c f l r).Valid ∧ (c f l r).N = N) :
    ∃ m, hyperTp F C1 C2 C3 R a b c = .ok m ∧ ∀ f < F, ∀ i < C1, ∀ j < C2, ∀ l < C3, ∀ r < R,
      HasSum (fun k => (a f i r).lik k * (b f j r).lik k * (c f l r).lik k) (m f i j l r) := by
  have h1 : ∀ f < F, ∀ i < C1, ∀ j < C2, ∀ r < R, isClose (a f i r).N (b f j r).N := fun f hf i hi j hj r hr => by
    rw [(ha f hf i hi r hr).2, (hb f hf j hj r hr).2]; exact isClose_self _
  have h2 : ∀ f < F, ∀ i < C1, ∀ l < C3, ∀ r < R, isClose (a f i r).N (c f l r).N := fun f hf i hi l hl r hr => by
    rw [(ha f hf i hi r hr).2, (hc f hf l hl r hr).2]; exact isClose_self _
  refine ⟨_, if_pos ⟨h1, h2⟩, fun f hf i hi j hj l hl r hr => ?_⟩
  · obtain ⟨va, ea⟩ := ha f hf i hi r hr
    obtain ⟨vb, eb⟩ := hb f hf j hj r hr
    obtain ⟨vc, ec⟩ := hc f hf l hl r hr
    have hmx := le_maxK3 (a := a) (b := b) (c := c) hf hi hj hl hr
    have key : ∀ k, (if (a f i r).mask (a f i r).N k ∧ (b f j r).mask (a f i r).N k ∧ (c f l r).mask (a f i r).N k then
        Real.exp (hyperLogpmf k (a f i r).K (a f i r).N (a f i r).n + hyperLogpmf k (b f j r).K (a f i r).N (b f j r).n +
          hyperLogpmf k (c f l r).K (a f i r).N (c f l r).n)
        else 0) = (a f i r).lik k * (b f j r).lik k * (c f l r).lik k := by
      intro k
      rw [mask_iff rfl, mask_iff (eb.trans ea.symm), mask_iff (ec.trans ea.symm), C90_hyper_lik va, C90_hyper_lik vb,
        C90_hyper_lik vc]
      split_ifs with h
      · rw [Real.exp_add, Real.exp_add, hyperLogpmf_eq va h.1, ea]
        nth_rewrite 1 [← eb]
        rw [hyperLogpmf_eq vb h.2.1, ← ec, hyperLogpmf_eq vc h.2.2]
      · rcases not_and_or.1 h with h | h
        · rw [hyperPmf_off va h, zero_mul, zero_mul]
        · rcases not_and_or.1 h with h | h
          · rw [hyperPmf_off vb h, mul_zero, zero_mul]
          · rw [hyperPmf_off vc h, mul_zero]
    simp only [key]
    refine hasSum_sum_of_ne_finset_zero fun k hk => ?_
    have hk' := Finset.mem_range.not.1 hk
    rw [← key, if_neg]
    rintro ⟨h1, h2, h3⟩
    have := le_min h1.2 (le_min h2.2 h3.2)
    omega

/-- **False of the code.** A leaf two of whose channels have clearly different population sizes is accepted (the constructor
only asks for equal sizes over the features) and has a likelihood, but its inner product with itself raises. -/
theorem C90_hyper_self_raises {F C R : ℕ} {a : HLeaf} {f i j r : ℕ} (hf : f < F) (hi : i < C) (hj : j < C) (hr : r < R)
    (h : ¬isClose (a f i r).N (a f j r).N) : hyperIp F C C R a a = .error .shapeError :=
  if_neg fun H => h (H f hf i hi j hj r hr)

namespace Wit

/-- Two channels: 2 draws from 10 or from 20 objects, 3 of them marked. -/
def two : HLeaf := fun _ c _ => ⟨3, if c = 0 then 10 else 20, 2⟩

/-- The hypotheses of `C90_hyper_self_raises` are met by a leaf the constructor accepts. -/
theorem C90_example_raises : (∀ f c r, (two f c r).Valid) ∧ hyperIp 1 2 2 1 two two = .error .shapeError := by
  refine ⟨fun f c r => ?_, C90_hyper_self_raises (f := 0) (i := 0) (j := 1) (r := 0) (by norm_num) (by norm_num) (by norm_num)
    (by norm_num) ?_⟩
  · unfold two Hyp.Valid
    dsimp only
    split_ifs <;> omega
  · unfold isClose two
    norm_num

/-- **False of the code.** Population sizes within the tolerance `1e-5` count as equal and the size of the first leaf is used
for both: for two leaves that always give the count 1 (one draw, all objects marked; 100000 and 100001 objects) the inner
product is 1, but 0 is returned. -/
theorem C90_hyper_close_is_wrong :
    (⟨100000, 100000, 1⟩ : Hyp).Valid ∧ (⟨100001, 100001, 1⟩ : Hyp).Valid ∧
    HasSum (fun k => (⟨100000, 100000, 1⟩ : Hyp).lik k * (⟨100001, 100001, 1⟩ : Hyp).lik k) 1 ∧
    ∃ m, hyperIp 1 1 1 1 (fun _ _ _ => ⟨100000, 100000, 1⟩) (fun _ _ _ => ⟨100001, 100001, 1⟩) = .ok m ∧ m 0 0 0 0 = 0 := by
  have v1 : (⟨100000, 100000, 1⟩ : Hyp).Valid := ⟨le_rfl, by norm_num⟩
  have v2 : (⟨100001, 100001, 1⟩ : Hyp).Valid := ⟨le_rfl, by norm_num⟩
  refine ⟨v1, v2, ?_, _, if_pos fun f _ i _ j _ r _ => ?_, ?_⟩
  · have e : ∀ M : ℕ, 0 < M → ∀ k, hyperPmf ⟨M, M, 1⟩ k = if k = 1 then 1 else 0 := by
      intro M hM k
      unfold hyperPmf
      dsimp only
      by_cases h1 : k = 1
      · subst h1
        have : (M : ℝ) ≠ 0 := by exact_mod_cast hM.ne'
        simp [this]
      · by_cases h0 : k = 0
        · subst h0; simp
        · rw [if_neg (by omega), if_neg h1]
    simp only [C90_hyper_lik v1, C90_hyper_lik v2, e 100000 (by norm_num), e 100001 (by norm_num)]
    convert hasSum_ite_eq (1 : ℕ) (1 : ℝ) using 2
    split_ifs <;> norm_num
  · unfold isClose
    norm_num
  · refine Finset.sum_eq_zero fun k _ => if_neg ?_
    rintro ⟨-, h⟩
    unfold Hyp.mask at h
    simp at h
    omega

/-- The hypotheses of `C90_hyper_inner` and `C90_hyper_triple` are met: 3 or 5 marked objects among 10, 4 draws; the value is
not trivial: the probability of the count 4 is positive for the second channel only. -/
theorem C90_example :
    (⟨3, 10, 4⟩ : Hyp).Valid ∧ (⟨5, 10, 4⟩ : Hyp).Valid ∧ (⟨3, 10, 4⟩ : Hyp).lik 4 = 0 ∧ (⟨5, 10, 4⟩ : Hyp).lik 4 = 1 / 42 := by
  have v1 : (⟨3, 10, 4⟩ : Hyp).Valid := ⟨by norm_num, by norm_num⟩
  have v2 : (⟨5, 10, 4⟩ : Hyp).Valid := ⟨by norm_num, by norm_num⟩
  refine ⟨v1, v2, ?_, ?_⟩
  · rw [C90_hyper_lik v1]; norm_num [hyperPmf, Nat.choose]
  · rw [C90_hyper_lik v2]; norm_num [hyperPmf, Nat.choose]

end Wit

end Count
end Verif

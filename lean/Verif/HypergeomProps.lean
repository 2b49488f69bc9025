import Verif.Hypergeom
import Mathlib.Data.Nat.Choose.Vandermonde
import Mathlib.Data.List.Perm.Basic
import Mathlib.Data.Nat.Cast.Order.Field
import Mathlib.Data.Nat.Choose.Sum
import Mathlib.Algebra.BigOperators.Field
import Mathlib.Tactic.FieldSimp
import Mathlib.Tactic.Linarith
import Mathlib.Tactic.NormNum
/-
C47: Hypergeometric samples and support.
-/
namespace Verif.Hyp

theorem filter_range_lt (K N : ℕ) (h : K ≤ N) : ((List.range N).filter (· < K)).length = K := by
  induction N generalizing K with
  | zero => simp; omega
  | succ N ih =>
    rw [List.range_succ, List.filter_append, List.length_append]
    rcases Nat.lt_or_ge N K with hlt | hge
    · have hK : K = N + 1 := by omega
      subst hK
      have h1 : (List.range N).filter (· < N + 1) = List.range N := by
        rw [List.filter_eq_self]
        intro a ha
        simp at ha
        simp; omega
      rw [h1]; simp
    · rw [ih K hge]
      have : ¬ N < K := by omega
      simp [this]

theorem foldl_max_eq {l : List ℕ} {m b : ℕ} (h : ∀ x ∈ l, x = m) (hb : b ≤ m) (hne : l ≠ []) :
    l.foldl max b = m := by
  induction l generalizing b with
  | nil => exact absurd rfl hne
  | cons x l ih =>
    have hx : x = m := h x (by simp)
    subst hx
    simp only [List.foldl_cons]
    rw [max_eq_right hb]
    by_cases hl : l = []
    · subst hl; rfl
    · exact ih (fun y hy => h y (by simp [hy])) le_rfl hl

/-- **C47, upper bound.** A sample never exceeds min(n, K), for every mixture of channel parameters
and every permutation drawn. -/
theorem C47_upper_bound (ps : List Par) (perm : List ℕ) (p : Par) (hp : p ∈ ps) (hv : p.Valid)
    (hN : p.N ≤ maxN ps) (hperm : perm.Perm (List.range (maxN ps))) :
    sample ps perm p ≤ p.hi := by
  unfold sample Par.hi
  have h1 : ((perm.take (maxn ps)).filter (· < p.K)).length ≤ p.K := by
    have hsub : ((perm.take (maxn ps)).filter (· < p.K)).length ≤ (perm.filter (· < p.K)).length :=
      ((List.take_sublist _ _).filter _).length_le
    rw [(hperm.filter _).length_eq, filter_range_lt _ _ (hv.1.trans hN)] at hsub
    exact hsub
  omega

/-- **C47, the part that holds.** If all channels of the leaf share N and n (K may differ), every
sample lies in the leaf's support. -/
theorem C47_in_support_partial (ps : List Par) (perm : List ℕ) (p : Par) (hp : p ∈ ps)
    (hv : p.Valid) (hN : ∀ q ∈ ps, q.N = p.N) (hn : ∀ q ∈ ps, q.n = p.n)
    (hperm : perm.Perm (List.range (maxN ps))) :
    p.lo ≤ sample ps perm p ∧ sample ps perm p ≤ p.hi := by
  have hne : ps ≠ [] := fun h => by subst h; simp at hp
  have hmN : maxN ps = p.N := by
    apply foldl_max_eq _ (Nat.zero_le _) (by simpa using hne)
    intro x hx
    obtain ⟨q, hq, rfl⟩ := List.mem_map.mp hx
    exact hN q hq
  have hmn : maxn ps = p.n := by
    apply foldl_max_eq _ (Nat.zero_le _) (by simpa using hne)
    intro x hx
    obtain ⟨q, hq, rfl⟩ := List.mem_map.mp hx
    exact hn q hq
  refine ⟨?_, C47_upper_bound ps perm p hp hv hmN.ge hperm⟩
  unfold sample Par.lo
  rw [hmN] at hperm
  rw [hmn]
  have htot : (perm.filter (· < p.K)).length = p.K := by
    rw [(hperm.filter _).length_eq, filter_range_lt _ _ hv.1]
  have hsplit : ((perm.take p.n).filter (· < p.K)).length + ((perm.drop p.n).filter (· < p.K)).length
      = p.K := by
    rw [← List.length_append, ← List.filter_append, List.take_append_drop, htot]
  have hdrop : ((perm.drop p.n).filter (· < p.K)).length ≤ p.N - p.n := by
    refine (List.length_filter_le _ _).trans ?_
    rw [List.length_drop, hperm.length_eq, List.length_range]
  have h1 := hv.1
  have h2 := hv.2
  omega

/-- **C47 is false in general**: a leaf with two channels over one variable, Hypergeometric(K=1, N=1,
n=1) (always 1) and Hypergeometric(K=1, N=2, n=1). The accepted leaf can draw 0 for channel 0, which
is outside its support, and scoring that value raises. -/
theorem C47_out_of_support :
    ∃ (ps : List Par) (p : Par) (perm : List ℕ), p ∈ ps ∧ (∀ q ∈ ps, q.Valid) ∧
      perm.Perm (List.range (maxN ps)) ∧ sample ps perm p < p.lo ∧
      logProb p (sample ps perm p) = .error .valueError := by
  refine ⟨[⟨1, 1, 1⟩, ⟨1, 2, 1⟩], ⟨1, 1, 1⟩, [1, 0], by simp, ?_, ?_, by decide, ?_⟩
  · intro q hq
    simp only [List.mem_cons, List.not_mem_nil, or_false] at hq
    rcases hq with rfl | rfl <;> exact ⟨by decide, by decide⟩
  · show [1, 0].Perm [0, 1]
    exact List.Perm.swap 0 1 []
  · have h : sample [⟨1, 1, 1⟩, ⟨1, 2, 1⟩] [1, 0] ⟨1, 1, 1⟩ = 0 := by decide
    rw [h]
    unfold logProb
    rw [if_neg (by simp [Par.lo])]

theorem exp_lgamma1 (m : ℕ) : Real.exp (lgamma1 m) = m.factorial :=
  Real.exp_log (by exact_mod_cast Nat.factorial_pos m)

/-- **C47, density.** On the support `log_prob` is the hypergeometric pmf
C(K,k) C(N-K,n-k) / C(N,n). -/
theorem C47_log_prob (p : Par) (hv : p.Valid) (k : ℕ) (hk : p.lo ≤ k ∧ k ≤ p.hi) :
    ∃ l, logProb p k = .ok l ∧
      Real.exp l = (p.K.choose k * (p.N - p.K).choose (p.n - k) : ℕ) / (p.N.choose p.n : ℕ) := by
  refine ⟨logProbIn p k, by simp [logProb, hk], ?_⟩
  unfold Par.lo Par.hi at hk
  obtain ⟨hKN, hnN⟩ := hv
  have hkK : k ≤ p.K := by omega
  have hkn : p.n - k ≤ p.N - p.K := by omega
  have e1 : logProbIn p k = (lgamma1 p.K - lgamma1 k - lgamma1 (p.K - k))
      + (lgamma1 (p.N - p.K) - lgamma1 (p.n - k) - lgamma1 (p.N - p.K - (p.n - k)))
      - (lgamma1 p.N - lgamma1 p.n - lgamma1 (p.N - p.n)) := by
    have h0 : lgamma1 0 = 0 := by simp [lgamma1]
    simp only [logProbIn, h0]
    ring
  have hch : ∀ a b : ℕ, b ≤ a →
      Real.exp (lgamma1 a - lgamma1 b - lgamma1 (a - b)) = (a.choose b : ℕ) := by
    intro a b hab
    rw [Real.exp_sub, Real.exp_sub, exp_lgamma1, exp_lgamma1, exp_lgamma1]
    have h1 := Nat.choose_mul_factorial_mul_factorial hab
    have hb : (b.factorial : ℝ) ≠ 0 := by exact_mod_cast (Nat.factorial_pos b).ne'
    have hab' : ((a - b).factorial : ℝ) ≠ 0 := by exact_mod_cast (Nat.factorial_pos _).ne'
    have h2 : ((a.choose b : ℕ) : ℝ) * b.factorial * (a - b).factorial = a.factorial := by
      exact_mod_cast h1
    rw [← h2]
    field_simp
  rw [e1, Real.exp_sub, Real.exp_add, hch _ _ hkK, hch _ _ hkn, hch _ _ hnN]
  push_cast
  ring

/-- **C47, normalisation.** The probabilities over the support sum to one (Vandermonde). -/
theorem C47_normalised (p : Par) (hv : p.Valid) :
    ∑ k ∈ Finset.Icc p.lo p.hi, Real.exp (logProbIn p k) = 1 := by
  have hval : ∀ k ∈ Finset.Icc p.lo p.hi, Real.exp (logProbIn p k)
      = ((p.K.choose k * (p.N - p.K).choose (p.n - k) : ℕ) : ℝ) / (p.N.choose p.n : ℕ) := by
    intro k hk
    obtain ⟨l, hl, he⟩ := C47_log_prob p hv k (Finset.mem_Icc.mp hk)
    have : l = logProbIn p k := by
      unfold logProb at hl
      rw [if_pos (Finset.mem_Icc.mp hk)] at hl
      exact (Except.ok.inj hl).symm
    rw [← this, he]
  rw [Finset.sum_congr rfl hval, ← Finset.sum_div, div_eq_one_iff_eq]
  · obtain ⟨hKN, hnN⟩ := hv
    have hvan := Nat.add_choose_eq p.K (p.N - p.K) p.n
    rw [Nat.add_sub_cancel' hKN] at hvan
    rw [hvan, Finset.Nat.sum_antidiagonal_eq_sum_range_succ_mk]
    rw [← Nat.cast_sum]
    congr 1
    apply Finset.sum_subset
    · intro k hk
      simp only [Finset.mem_Icc, Par.lo, Par.hi, Finset.mem_range] at hk ⊢
      omega
    · intro k hk hnk
      simp only [Finset.mem_Icc, Par.lo, Par.hi, Finset.mem_range, not_and, not_le] at hk hnk
      by_cases h1 : p.K < k
      · rw [Nat.choose_eq_zero_of_lt h1, zero_mul]
      · have h2 : p.N - p.K < p.n - k := by
          by_contra hcon
          have := hnk (by omega)
          omega
        rw [Nat.choose_eq_zero_of_lt h2, mul_zero]
  · have := Nat.choose_pos hv.2
    positivity

/-- non-vacuity: Hypergeometric(K=5, N=10, n=7) has support 2..5; the permutation 9,8,...,0 gives 2 -/
example : (⟨5, 10, 7⟩ : Par).Valid ∧ (⟨5, 10, 7⟩ : Par).lo = 2 ∧ (⟨5, 10, 7⟩ : Par).hi = 5 ∧
    sample [⟨5, 10, 7⟩] [9, 8, 7, 6, 5, 4, 3, 2, 1, 0] ⟨5, 10, 7⟩ = 2 :=
  ⟨⟨by decide, by decide⟩, by decide, by decide, by decide⟩

end Verif.Hyp

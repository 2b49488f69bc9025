import Verif.Scope
import Verif.LogSpace
import Mathlib.Data.Nat.Factorial.Basic
import Mathlib.Data.Nat.Choose.Basic
/-
Model of `spflow.modules.leaves.hypergeometric` (C47).
-/
namespace Verif.Hyp

/-- Parameters of one channel (one entry of the buffers K, N, n). -/
structure Par where
  K : ℕ
  N : ℕ
  n : ℕ
deriving DecidableEq, Repr

/-- `check_inputs` (hypergeometric.py:253-297) for one entry; that features of one leaf agree is
also checked there, channels may differ. -/
def Par.Valid (p : Par) : Prop := p.K ≤ p.N ∧ p.n ≤ p.N

/-- Bounds of the support (hypergeometric.py:55-69): `max(0, n+K-N) ≤ x ≤ min(n, K)`. -/
def Par.lo (p : Par) : ℕ := p.n + p.K - p.N
def Par.hi (p : Par) : ℕ := min p.n p.K

/-- `self.N.max()` and `n_expanded.max()` over all channels (hypergeometric.py:168, 182). -/
def maxN (ps : List Par) : ℕ := (ps.map Par.N).foldl max 0
def maxn (ps : List Par) : ℕ := (ps.map Par.n).foldl max 0

/-- `sample` (hypergeometric.py:147-190) for channel parameters `p` of a leaf with channels `ps`:
`perm` is the row of `rand_indices` (an argsort: a permutation of `0..N.max()-1`) for this cell;
count the indices below K among the first `n.max()`, and cap at n. -/
def sample (ps : List Par) (perm : List ℕ) (p : Par) : ℕ :=
  min (((perm.take (maxn ps)).filter (· < p.K)).length) p.n

/-- `torch.lgamma` at `m + 1` for a natural number `m`: `log m!`. -/
noncomputable def lgamma1 (m : ℕ) : ℝ := Real.log (m.factorial : ℝ)

/-- `log_prob` at a value in the support (hypergeometric.py:107-141), term by term, with
`lgamma_1 = lgamma(1) = 0`. -/
noncomputable def logProbIn (p : Par) (k : ℕ) : ℝ :=
  let lgamma_1 := lgamma1 0
  let lgamma_K_p_2 := lgamma1 (p.K + 1)
  let lgamma_N_p_2 := lgamma1 (p.N + 1)
  let lgamma_NmK_p_2 := lgamma1 (p.N - p.K + 1)
  lgamma1 p.K + lgamma_1 - lgamma_K_p_2 + lgamma1 (p.N - p.K) + lgamma_1 - lgamma_NmK_p_2
    + lgamma1 (p.N - p.n) + lgamma1 p.n - lgamma_N_p_2
    - lgamma1 k - lgamma1 (p.K - k) + lgamma_K_p_2
    - lgamma1 (p.n - k) - lgamma1 (p.N - p.K - (p.n - k)) + lgamma_NmK_p_2
    - lgamma1 p.N - lgamma_1 + lgamma_N_p_2

/-- `log_prob` with argument validation: a value outside the support raises ValueError
(hypergeometric.py:89-92, 103). -/
noncomputable def logProb (p : Par) (k : ℕ) : Except Exc ℝ :=
  if p.lo ≤ k ∧ k ≤ p.hi then .ok (logProbIn p k) else .error .valueError

end Verif.Hyp

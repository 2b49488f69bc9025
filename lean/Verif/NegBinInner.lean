import Verif.CountInner
import Mathlib.Analysis.SpecificLimits.Normed

/-!
# C90: inner and triple products of negative binomial leaves (truncated series)

spflow/utils/inner_product_core.py: `_series_logsumexp` and the two `NegativeBinomial` branches.
-/

namespace Verif
namespace Count

open Verif.Inner Filter Topology

/-! ## Model -/

/-- Parameters of one cell: total count and probability. -/
structure NB where
  r : ℝ
  p : ℝ

/-- `clamp_min(1e-30).clamp_max(1.0)`, inner_product_core.py:289-290, 831-845. -/
noncomputable def clampP (p : ℝ) : ℝ := min (clampMin p) 1

/-- `log_term`, inner_product_core.py:293-305 (two cells) and 848-865 (three cells), for the list of cells whose product is
summed: `Σ (lgamma(r + k) - lgamma(r)) - len·lgamma(k + 1) + k·log(Π p) + Σ r·log(1 - p)`. -/
noncomputable def nbTerm (cs : List NB) (k : ℕ) : ℝ :=
  (cs.map fun c => lgamma (c.r + k) - lgamma c.r).sum - cs.length * lgamma ((k : ℝ) + 1)
    + k * Real.log (clampMin (cs.map fun c => clampP c.p).prod)
    + (cs.map fun c => c.r * Real.log (clampMin (1 - clampP c.p))).sum

/-- `exp logS` after the terms `0..k`: the exact value of the repeated `logaddexp`, inner_product_core.py:101-104. -/
noncomputable def partialSum (t : ℕ → ℝ) (M : ℕ) : ℝ := ∑ k ∈ Finset.range M, Real.exp (t k)

/-- The test for leaving the loop after term `k`, inner_product_core.py:105-108: from `k = 32` on, when for every entry of
the tensor `lt - logS < log(1e-12)`. -/
def stops (ts : List (ℕ → ℝ)) (k : ℕ) : Prop :=
  32 ≤ k ∧ ∀ t ∈ ts, t k - Real.log (partialSum t (k + 1)) < Real.log (10 ^ (-12 : ℤ))

open Classical in
/-- The loop of `_series_logsumexp`, inner_product_core.py:92-109: the number of terms that are added, with `fuel` values of
`k` left. -/
noncomputable def seriesGo (ts : List (ℕ → ℝ)) : ℕ → ℕ → ℕ
  | 0, k => k
  | fuel + 1, k => if stops ts k then k + 1 else seriesGo ts fuel (k + 1)

/-- The number of terms for `max_k = 4096` (both callers). -/
noncomputable def seriesLen (ts : List (ℕ → ℝ)) : ℕ := seriesGo ts 4097 0

/-- All entries of the tensor that `leaf_inner_product` or the leaf branch of `triple_product_tensor` returns, for the list of
cell pairs or triples: the loop is left for all entries at the same time. -/
noncomputable def nbProducts (entries : List (List NB)) : List ℝ :=
  entries.map fun cs => partialSum (nbTerm cs) (seriesLen (entries.map nbTerm))

/-! ## Specification -/

/-- `torch.distributions.NegativeBinomial`: the likelihood of `k` successes before `r` failures. -/
noncomputable def nbPmf (c : NB) (k : ℕ) : ℝ :=
  Real.Gamma (c.r + k) / (k.factorial * Real.Gamma c.r) * c.p ^ k * (1 - c.p) ^ c.r

/-- The product of the likelihoods of several cells. -/
noncomputable def nbProd (cs : List NB) (k : ℕ) : ℝ := (cs.map fun c => nbPmf c k).prod

/-- Cells on which none of the clamps acts. -/
structure Tame (cs : List NB) : Prop where
  r : ∀ c ∈ cs, 0 < c.r
  p : ∀ c ∈ cs, 10 ^ (-30 : ℤ) ≤ c.p
  q : ∀ c ∈ cs, 10 ^ (-30 : ℤ) ≤ 1 - c.p
  prod : 10 ^ (-30 : ℤ) ≤ (cs.map fun c => c.p).prod

/-! ## Proofs -/

theorem seriesGo_spec (ts : List (ℕ → ℝ)) : ∀ fuel k, ∃ M, seriesGo ts fuel k = M ∧ k ≤ M ∧ M ≤ k + fuel ∧
    (M = k + fuel ∨ ∃ j, M = j + 1 ∧ stops ts j)
  | 0, k => ⟨k, rfl, le_rfl, le_rfl, .inl rfl⟩
  | fuel + 1, k => by
    unfold seriesGo
    split_ifs with h
    · exact ⟨k + 1, rfl, by omega, by omega, .inr ⟨k, rfl, h⟩⟩
    · obtain ⟨M, h1, h2, h3, h4⟩ := seriesGo_spec ts fuel (k + 1)
      refine ⟨M, h1, by omega, by omega, ?_⟩
      rcases h4 with h4 | h4
      · exact .inl (by omega)
      · exact .inr h4

theorem exp_nbTerm {cs : List NB} (h : Tame cs) (k : ℕ) : Real.exp (nbTerm cs k) = nbProd cs k := by
  have e1 : ∀ c ∈ cs, clampP c.p = c.p := fun c hc => by
    unfold clampP
    rw [clampMin_of_le (h.p c hc), min_eq_left]
    have := h.q c hc
    have := tiny_pos
    linarith
  have ep : (cs.map fun c => clampP c.p) = cs.map fun c => c.p := List.map_congr_left e1
  have eq' : (cs.map fun c => c.r * Real.log (clampMin (1 - clampP c.p))) = cs.map fun c => c.r * Real.log (1 - c.p) :=
    List.map_congr_left fun c hc => by rw [e1 c hc, clampMin_of_le (h.q c hc)]
  have hk := lgamma_nat k
  unfold nbTerm nbProd
  rw [ep, eq', clampMin_of_le h.prod, hk]
  have hr := h.r
  have hp : ∀ c ∈ cs, 0 < c.p := fun c hc => tiny_pos.trans_le (h.p c hc)
  have hq : ∀ c ∈ cs, 0 < 1 - c.p := fun c hc => tiny_pos.trans_le (h.q c hc)
  clear ep eq' e1 h hk
  induction cs with
  | nil => simp
  | cons c cs ih =>
    have hr0 := hr c (by simp)
    have hp0 := hp c (by simp)
    have hq0 := hq c (by simp)
    have ih := ih (fun c hc => hr c (by simp [hc])) (fun c hc => hp c (by simp [hc])) (fun c hc => hq c (by simp [hc]))
    have hP : 0 < (cs.map fun c => c.p).prod := List.prod_pos fun x hx => by
      obtain ⟨c, hc, rfl⟩ := List.mem_map.1 hx
      exact hp c (by simp [hc])
    simp only [List.map_cons, List.sum_cons, List.prod_cons, List.length_cons]
    rw [← ih, Real.log_mul hp0.ne' hP.ne']
    have hg1 : 0 < Real.Gamma (c.r + k) := Real.Gamma_pos_of_pos (by positivity)
    have hg2 : 0 < Real.Gamma c.r := Real.Gamma_pos_of_pos hr0
    have e : nbPmf c k = Real.exp (lgamma (c.r + k) - lgamma c.r - Real.log k.factorial + k * Real.log c.p +
        c.r * Real.log (1 - c.p)) := by
      unfold nbPmf lgamma
      rw [Real.exp_add, Real.exp_add, Real.exp_sub, Real.exp_sub, Real.exp_log hg1, Real.exp_log hg2,
        Real.exp_log (by positivity), ← Real.log_pow, Real.exp_log (by positivity), mul_comm c.r, ← Real.rpow_def_of_pos hq0]
      field_simp
    rw [e, ← Real.exp_add]
    congr 1
    push_cast
    ring

/-- **C90.** What the code returns for negative binomial cells: for all entries together there is one number `M` between 33
and 4097, and every entry is the sum of the first `M` terms of the series of the product of the likelihoods; either `M = 4097`
or the last term added is below `1e-12` times the sum for every entry. -/
theorem C90_nb_truncated {entries : List (List NB)} (h : ∀ cs ∈ entries, Tame cs) :
    ∃ M, 33 ≤ M ∧ M ≤ 4097 ∧
      nbProducts entries = (entries.map fun cs => ∑ k ∈ Finset.range M, nbProd cs k) ∧
      (M = 4097 ∨ ∀ cs ∈ entries, nbProd cs (M - 1) < 10 ^ (-12 : ℤ) * ∑ k ∈ Finset.range M, nbProd cs k) := by
  obtain ⟨M, h1, -, h3, h4⟩ := seriesGo_spec (entries.map nbTerm) 4097 0
  have hs : ∀ cs ∈ entries, ∀ M, partialSum (nbTerm cs) M = ∑ k ∈ Finset.range M, nbProd cs k := fun cs hc M =>
    Finset.sum_congr rfl fun k _ => exp_nbTerm (h cs hc) k
  refine ⟨M, ?_, by omega, ?_, ?_⟩
  · rcases h4 with h4 | ⟨j, h4, h5, -⟩ <;> omega
  · unfold nbProducts seriesLen
    rw [h1]
    exact List.map_congr_left fun cs hc => hs cs hc M
  · rcases h4 with h4 | ⟨j, rfl, -, h5⟩
    · exact .inl (by omega)
    · refine .inr fun cs hc => ?_
      have h6 := h5 _ (List.mem_map_of_mem hc)
      rw [hs cs hc] at h6
      have hpos : ∀ k, 0 < nbProd cs k := fun k => by rw [← exp_nbTerm (h cs hc)]; exact Real.exp_pos _
      have hS : 0 < ∑ k ∈ Finset.range (j + 1), nbProd cs k := Finset.sum_pos (fun k _ => hpos k) ⟨0, by simp⟩
      have h7 : nbTerm cs j < Real.log (10 ^ (-12 : ℤ) * ∑ k ∈ Finset.range (j + 1), nbProd cs k) := by
        rw [Real.log_mul (by positivity) hS.ne']
        linarith
      rw [Nat.add_sub_cancel, ← exp_nbTerm (h cs hc)]
      exact (Real.lt_log_iff_exp_lt (by positivity)).1 h7

theorem nbProd_pos {cs : List NB} (h : Tame cs) (k : ℕ) : 0 < nbProd cs k := by
  rw [← exp_nbTerm h]; exact Real.exp_pos _

theorem nbPmf_succ {c : NB} (hr : 0 < c.r) (k : ℕ) : nbPmf c (k + 1) = nbPmf c k * ((c.r + k) / (k + 1) * c.p) := by
  unfold nbPmf
  have e : c.r + ((k + 1 : ℕ) : ℝ) = (c.r + k) + 1 := by push_cast; ring
  have hk : (0 : ℝ) < c.r + k := by positivity
  rw [e, Real.Gamma_add_one hk.ne', Nat.factorial_succ, pow_succ]
  have := (Real.Gamma_pos_of_pos hr).ne'
  push_cast
  field_simp

theorem tendsto_ratio (r : ℝ) : Tendsto (fun k : ℕ => (r + k) / ((k : ℝ) + 1)) atTop (𝓝 1) := by
  have h0 : Tendsto (fun k : ℕ => ((k : ℝ) + 1)⁻¹) atTop (𝓝 0) :=
    tendsto_inv_atTop_zero.comp (tendsto_atTop_add_const_right _ _ tendsto_natCast_atTop_atTop)
  have h1 : Tendsto (fun k : ℕ => 1 + (r - 1) * ((k : ℝ) + 1)⁻¹) atTop (𝓝 (1 + (r - 1) * 0)) :=
    tendsto_const_nhds.add (tendsto_const_nhds.mul h0)
  rw [mul_zero, add_zero] at h1
  refine h1.congr fun k => ?_
  have : (k : ℝ) + 1 ≠ 0 := by positivity
  field_simp
  ring

/-- The series of the product converges. -/
theorem nbProd_summable {cs : List NB} (hne : cs ≠ []) (h : Tame cs) : Summable (nbProd cs) := by
  have hr1 : ∀ cs : List NB, (∀ c ∈ cs, 0 < c.r) → ∀ k, nbProd cs (k + 1) =
      nbProd cs k * (cs.map fun c => (c.r + k) / ((k : ℝ) + 1) * c.p).prod := by
    intro cs hcs k
    unfold nbProd
    induction cs with
    | nil => simp
    | cons c cs ih =>
      simp only [List.map_cons, List.prod_cons]
      rw [ih fun c hc => hcs c (by simp [hc]), nbPmf_succ (hcs c (by simp))]
      ring
  have ht : ∀ cs : List NB, Tendsto (fun k : ℕ => (cs.map fun c => (c.r + k) / ((k : ℝ) + 1) * c.p).prod) atTop
      (𝓝 (cs.map fun c => c.p).prod) := by
    intro cs
    induction cs with
    | nil => simp
    | cons c cs ih =>
      simp only [List.map_cons, List.prod_cons]
      have := (tendsto_ratio c.r).mul_const c.p
      rw [one_mul] at this
      exact this.mul ih
  have hlt : ∀ cs : List NB, cs ≠ [] → (∀ c ∈ cs, 0 < c.p ∧ c.p < 1) → 0 ≤ (cs.map fun c => c.p).prod ∧
      (cs.map fun c => c.p).prod < 1 := by
    intro cs
    induction cs with
    | nil => intro h; exact absurd rfl h
    | cons c cs ih =>
      intro _ hc
      simp only [List.map_cons, List.prod_cons]
      have h0 := hc c (by simp)
      by_cases hcs : cs = []
      · subst hcs; simp; exact ⟨h0.1.le, h0.2⟩
      · have h1 := ih hcs fun c hc' => hc c (by simp [hc'])
        exact ⟨mul_nonneg h0.1.le h1.1, by nlinarith [h1.1, h1.2, h0.1, h0.2]⟩
  refine summable_of_ratio_test_tendsto_lt_one (hlt cs hne fun c hc => ⟨tiny_pos.trans_le (h.p c hc), ?_⟩).2
    (Eventually.of_forall fun k => (nbProd_pos h k).ne') ((ht cs).congr fun k => ?_)
  · have := h.q c hc
    have := tiny_pos
    linarith
  · rw [Real.norm_of_nonneg (nbProd_pos h _).le, Real.norm_of_nonneg (nbProd_pos h _).le, hr1 cs h.r,
      mul_div_cancel_left₀ _ (nbProd_pos h k).ne']

/-- **False of the code.** Every product of negative binomial cells is strictly below the exact value: the sum over all counts
of the product of the likelihoods. -/
theorem C90_nb_underestimates {entries : List (List NB)} (h : ∀ cs ∈ entries, cs ≠ [] ∧ Tame cs) (e : ℕ)
    (he : e < entries.length) :
    ∃ v, (nbProducts entries)[e]? = some v ∧ 0 < v ∧ v < ∑' k, nbProd entries[e] k := by
  obtain ⟨M, h1, -, h3, -⟩ := C90_nb_truncated fun cs hc => (h cs hc).2
  obtain ⟨hne, ht⟩ := h _ (List.getElem_mem he)
  have hs := nbProd_summable hne ht
  refine ⟨_, by rw [h3, List.getElem?_map, List.getElem?_eq_getElem he]; rfl, ?_, ?_⟩
  · exact Finset.sum_pos (fun k _ => nbProd_pos ht k) ⟨0, by simp; omega⟩
  · have := hs.sum_le_tsum (Finset.range (M + 1)) fun k _ => (nbProd_pos ht k).le
    rw [Finset.sum_range_succ] at this
    linarith [nbProd_pos ht M]

/-- **C90.** The error once the terms decrease: if from the last added term on every term is at most `ρ < 1` times the
one before it, and the loop was left before its limit, the error is below `1e-12·ρ/(1-ρ)` times the returned value. -/
theorem C90_nb_error {entries : List (List NB)} (h : ∀ cs ∈ entries, cs ≠ [] ∧ Tame cs) :
    ∃ M, 33 ≤ M ∧ M ≤ 4097 ∧ ∀ cs ∈ entries, ∀ ρ : ℝ, 0 ≤ ρ → ρ < 1 →
      (∀ k, M ≤ k + 1 → nbProd cs (k + 1) ≤ ρ * nbProd cs k) → M < 4097 →
      ∃ v ∈ nbProducts entries, v = ∑ k ∈ Finset.range M, nbProd cs k ∧
        ∑' k, nbProd cs k - v ≤ 10 ^ (-12 : ℤ) * (ρ / (1 - ρ)) * v := by
  obtain ⟨M, h1, h2, h3, h4⟩ := C90_nb_truncated fun cs hc => (h cs hc).2
  refine ⟨M, h1, h2, fun cs hc ρ r0 r1 hr hM => ⟨_, ?_, rfl, ?_⟩⟩
  · rw [h3]; exact List.mem_map_of_mem (f := fun cs => ∑ k ∈ Finset.range M, nbProd cs k) hc
  · obtain ⟨hne, ht⟩ := h cs hc
    have hs := nbProd_summable hne ht
    have h5 := (h4.resolve_left (by omega)) cs hc
    have h6 : ∀ i, nbProd cs (i + M) ≤ nbProd cs (M - 1) * ρ * ρ ^ i := by
      intro i
      induction i with
      | zero =>
        have := hr (M - 1) (by omega)
        rw [Nat.sub_add_cancel (by omega)] at this
        simp only [zero_add, pow_zero, mul_one]
        linarith
      | succ i ih =>
        have := hr (i + M) (by omega)
        rw [show i + 1 + M = i + M + 1 by ring, pow_succ]
        nlinarith [mul_le_mul_of_nonneg_left ih r0]
    have h7 := hs.sum_add_tsum_nat_add M
    have h8 : ∑' i, nbProd cs (i + M) ≤ ∑' i : ℕ, nbProd cs (M - 1) * ρ * ρ ^ i :=
      Summable.tsum_le_tsum h6 ((summable_nat_add_iff M).2 hs) ((summable_geometric_of_lt_one r0 r1).mul_left _)
    rw [tsum_mul_left, tsum_geometric_of_lt_one r0 r1] at h8
    have h9 : nbProd cs (M - 1) * ρ * (1 - ρ)⁻¹ ≤
        10 ^ (-12 : ℤ) * (ρ / (1 - ρ)) * ∑ k ∈ Finset.range M, nbProd cs k := by
      have : 0 ≤ ρ * (1 - ρ)⁻¹ := mul_nonneg r0 (inv_nonneg.2 (by linarith))
      have := mul_le_mul_of_nonneg_right h5.le this
      calc _ = nbProd cs (M - 1) * (ρ * (1 - ρ)⁻¹) := by ring
        _ ≤ _ := this
        _ = _ := by rw [div_eq_mul_inv]; ring
    linarith

/-- **C90.** For a whole number of failures the likelihoods of a negative binomial cell add up to one. -/
theorem C90_nb_normalised (m : ℕ) {p : ℝ} (h0 : 0 ≤ p) (h1 : p < 1) : HasSum (fun k => nbPmf ⟨(m : ℝ) + 1, p⟩ k) 1 := by
  have hq : (1 - p) ≠ 0 := by linarith
  have h := (hasSum_choose_mul_geometric_of_norm_lt_one m (r := p) (by rwa [Real.norm_of_nonneg h0])).mul_right
    ((1 - p) ^ (m + 1))
  rw [one_div, inv_mul_cancel₀ (pow_ne_zero _ hq)] at h
  refine h.congr_fun fun k => ?_
  unfold nbPmf
  dsimp only
  have e : (m : ℝ) + 1 + k = ((k + m : ℕ) : ℝ) + 1 := by push_cast; ring
  rw [e, Real.Gamma_nat_eq_factorial, Real.Gamma_nat_eq_factorial,
    show (k + m).choose m = (k + m).choose k from Nat.choose_symm_add.symm, Nat.cast_add_choose ℝ (a := k) (b := m),
    show (m : ℝ) + 1 = ((m + 1 : ℕ) : ℝ) by push_cast; ring, Real.rpow_natCast]
namespace Wit

/-- **False of the code.** One failure, success probability `p` with `p² ≥ 1 - 1/8194` (for example `p = 0.99995`): the inner
product of the cell with itself is at most half of the exact value, so the squared density normalised with it has total mass
at least two. -/
theorem C90_nb_half {p : ℝ} (h0 : 10 ^ (-30 : ℤ) ≤ p) (h1 : 10 ^ (-30 : ℤ) ≤ 1 - p) (h2 : 1 - 1 / 8194 ≤ p ^ 2) :
    ∃ v, nbProducts [[⟨1, p⟩, ⟨1, p⟩]] = [v] ∧ 0 < v ∧ 2 * v ≤ ∑' k, nbPmf ⟨1, p⟩ k * nbPmf ⟨1, p⟩ k ∧
      2 ≤ ∑' k, nbPmf ⟨1, p⟩ k * nbPmf ⟨1, p⟩ k / v := by
  have p0 := tiny_pos.trans_le h0
  have q0 := tiny_pos.trans_le h1
  have ht : Tame [⟨1, p⟩, ⟨1, p⟩] := ⟨by simp, by simpa using h0, by simpa using h1, by
    simp only [List.map_cons, List.map_nil, List.prod_cons, List.prod_nil, mul_one]
    have : (10 : ℝ) ^ (-30 : ℤ) ≤ 1 - 1 / 8194 := by norm_num
    nlinarith⟩
  obtain ⟨M, hM1, hM, h3, -⟩ := C90_nb_truncated (entries := [[⟨1, p⟩, ⟨1, p⟩]]) (by simpa using ht)
  have e : ∀ k, nbProd [⟨1, p⟩, ⟨1, p⟩] k = (1 - p) ^ 2 * (p ^ 2) ^ k := by
    intro k
    unfold nbProd nbPmf
    simp only [List.map_cons, List.map_nil, List.prod_cons, List.prod_nil, mul_one]
    rw [add_comm (1 : ℝ) k, Real.Gamma_nat_eq_factorial, Real.Gamma_one, Real.rpow_one]
    have : (k.factorial : ℝ) ≠ 0 := by positivity
    field_simp
    rw [← pow_mul, ← pow_mul, mul_comm]
  have e' : ∀ k, nbPmf ⟨1, p⟩ k * nbPmf ⟨1, p⟩ k = (1 - p) ^ 2 * (p ^ 2) ^ k := fun k => by
    rw [← e]; simp [nbProd]
  have hq1 : p ^ 2 < 1 := by nlinarith
  have hsum : ∑' k, nbPmf ⟨1, p⟩ k * nbPmf ⟨1, p⟩ k = (1 - p) ^ 2 * (1 - p ^ 2)⁻¹ := by
    simp only [e']
    rw [tsum_mul_left, tsum_geometric_of_lt_one (by positivity) hq1]
  have hv : ∑ k ∈ Finset.range M, nbProd [⟨1, p⟩, ⟨1, p⟩] k = (1 - p) ^ 2 * ((1 - (p ^ 2) ^ M) * (1 - p ^ 2)⁻¹) := by
    simp only [e]
    rw [← Finset.mul_sum, geom_sum_eq hq1.ne]
    congr 1
    have : p ^ 2 - 1 ≠ 0 := by linarith
    have : 1 - p ^ 2 ≠ 0 := by linarith
    rw [← div_eq_mul_inv, div_eq_div_iff (by assumption) (by assumption)]
    ring
  have hpow : 1 / 2 ≤ (p ^ 2) ^ M := by
    have hb := one_add_mul_le_pow (a := p ^ 2 - 1) (by nlinarith) M
    rw [add_sub_cancel] at hb
    have hMr : (M : ℝ) ≤ 4097 := by exact_mod_cast hM
    have hM0 : (0 : ℝ) ≤ M := by positivity
    nlinarith
  have hi : 0 < (1 - p ^ 2)⁻¹ := inv_pos.2 (by linarith)
  have hvpos : 0 < ∑ k ∈ Finset.range M, nbProd [⟨1, p⟩, ⟨1, p⟩] k :=
    Finset.sum_pos (fun k _ => nbProd_pos ht k) ⟨0, by simp; omega⟩
  have h2v : 2 * ∑ k ∈ Finset.range M, nbProd [⟨1, p⟩, ⟨1, p⟩] k ≤ ∑' k, nbPmf ⟨1, p⟩ k * nbPmf ⟨1, p⟩ k := by
    rw [hv, hsum]
    have : 0 ≤ (1 - p) ^ 2 * (1 - p ^ 2)⁻¹ := by positivity
    nlinarith
  refine ⟨_, h3, hvpos, h2v, ?_⟩
  rw [tsum_div_const, le_div_iff₀ hvpos]
  exact h2v

/-- The hypotheses of `C90_nb_half` are met by `p = 0.99995`. -/
example : (10 : ℝ) ^ (-30 : ℤ) ≤ 0.99995 ∧ (10 : ℝ) ^ (-30 : ℤ) ≤ 1 - 0.99995 ∧ (1 - 1 / 8194 : ℝ) ≤ 0.99995 ^ 2 := by
  norm_num

/-- The hypotheses of the theorems about negative binomial cells are met by a pair and a triple of different cells. -/
theorem C90_nb_example : ([⟨2, 1 / 2⟩, ⟨1 / 2, 1 / 3⟩] : List NB) ≠ [] ∧ Tame [⟨2, 1 / 2⟩, ⟨1 / 2, 1 / 3⟩] ∧
    Tame [⟨2, 1 / 2⟩, ⟨1 / 2, 1 / 3⟩, ⟨5, 3 / 4⟩] := by
  refine ⟨by simp, ⟨?_, ?_, ?_, ?_⟩, ⟨?_, ?_, ?_, ?_⟩⟩ <;> norm_num

end Wit

end Count
end Verif

import Verif.Sklearn
import Verif.IntervalProps
import Verif.SamplingProps

/-!
# C81: `SPFlowDensityEstimator` scores and samples
-/

open MeasureTheory Verif.Circ

namespace Verif
namespace Sk

/-! ## Specification -/

/-- A reduction is usable on an axis of size `n`: one of the three names, or nothing to reduce. -/
def Known (m : String) (n : ℕ) : Prop := n = 1 ∨ m = "first" ∨ m = "logsumexp" ∨ m = "logmeanexp"

/-- What a reduction does to the probabilities on an axis: the first one, their sum, or their mean. -/
noncomputable def agg (m : String) (n : ℕ) (g : ℕ → ℝ) : ℝ :=
  if n = 1 ∨ m = "first" then g 0
  else if m = "logsumexp" then ∑ i ∈ Finset.range n, g i
  else (∑ i ∈ Finset.range n, g i) / n

/-- The density behind `score_samples`: the features multiplied, the repetitions reduced, then the channels. -/
noncomputable def density (p : Params) (c : Circ) (R : ℕ) (x : Row) : ℝ :=
  agg p.chAgg (C c) fun ch => agg p.repAgg R fun r => ∏ f ∈ Finset.range (F c), expL (featAt (den c) f x r ch)

/-- The total mass a reduction of `n` normalised entries has. -/
noncomputable def mass (m : String) (n : ℕ) : ℝ := if m = "logsumexp" then n else 1

/-! ## Reductions -/

theorem reducer_known {m : String} {n : ℕ} (hn : 1 ≤ n) (h : Known m n) :
    ∃ g, reducer m n = .ok g ∧ ∀ t, expL (g t) = agg m n fun i => expL (t i) := by
  unfold reducer agg
  by_cases h1 : n = 1
  · exact ⟨_, if_pos h1, fun t => by rw [if_pos (.inl h1)]⟩
  rw [if_neg h1]
  by_cases h2 : m = "first"
  · rw [if_pos h2, if_neg (by omega)]
    exact ⟨_, rfl, fun t => by rw [if_pos (.inr h2)]⟩
  rw [if_neg h2]
  by_cases h3 : m = "logsumexp"
  · rw [if_pos h3]
    refine ⟨_, rfl, fun t => ?_⟩
    rw [if_neg (by tauto), if_pos h3, expL_lse]
  rw [if_neg h3]
  by_cases h4 : m = "logmeanexp"
  · rw [if_pos h4, if_neg (by omega)]
    refine ⟨_, rfl, fun t => ?_⟩
    rw [if_neg (by tauto), if_neg h3, expL_add, expL_lse]
    have : (0 : ℝ) < n := by exact_mod_cast hn
    simp only [expL_coe, Real.exp_neg, Real.exp_log this]
    rw [div_eq_mul_inv]
  · exact absurd h (by unfold Known; tauto)

theorem reducer_unknown {m : String} {n : ℕ} (h : ¬ Known m n) : reducer m n = .error .invalidParameter := by
  unfold Known at h
  push Not at h
  unfold reducer
  rw [if_neg h.1, if_neg h.2.1, if_neg h.2.2.1, if_neg h.2.2.2]

theorem agg_const {m : String} {n : ℕ} (hn : 1 ≤ n) (h : Known m n) (a : ℝ) : agg m n (fun _ => a) = mass m n * a := by
  have h0 : (n : ℝ) ≠ 0 := by exact_mod_cast (by omega : n ≠ 0)
  unfold agg mass
  by_cases h1 : n = 1
  · subst h1; simp
  by_cases h2 : m = "first"
  · rw [if_pos (.inr h2), if_neg (by rw [h2]; decide), one_mul]
  rw [if_neg (by tauto)]
  split_ifs
  · simp
  · simp only [Finset.sum_const, Finset.card_range, nsmul_eq_mul]
    field_simp

/-- A reduction is a combination with nonnegative coefficients. -/
theorem agg_weights (m : String) {n : ℕ} (hn : 1 ≤ n) :
    ∃ w : ℕ → ℝ, (∀ i, 0 ≤ w i) ∧ ∀ g, agg m n g = ∑ i ∈ Finset.range n, w i * g i := by
  unfold agg
  by_cases h : n = 1 ∨ m = "first"
  · refine ⟨fun i => if i = 0 then 1 else 0, fun i => by dsimp only; split_ifs <;> norm_num, fun g => ?_⟩
    rw [if_pos h, Finset.sum_eq_single_of_mem 0 (Finset.mem_range.2 hn) (fun i _ hi => by simp [hi])]
    simp
  by_cases h2 : m = "logsumexp"
  · exact ⟨fun _ => 1, fun _ => zero_le_one, fun g => by rw [if_neg h, if_pos h2]; simp⟩
  · refine ⟨fun _ => 1 / n, fun _ => by positivity, fun g => ?_⟩
    rw [if_neg h, if_neg h2, ← Finset.mul_sum, div_eq_mul_inv, mul_comm, one_div]

/-! ## Scores -/

theorem reduceLL_ok {chAgg repAgg : String} {t : Tens} {B F C R : ℕ} (hs : dims4 t.shape = .ok (B, F, C, R)) (hC : 1 ≤ C)
    (hR : 1 ≤ R) (hc : Known chAgg C) (hr : Known repAgg R) :
    ∃ l, reduceLL chAgg repAgg t = .ok l ∧ l.length = B ∧ ∀ b (h : b < l.length), expL l[b] =
      agg chAgg C fun c => agg repAgg R fun r => ∏ f ∈ Finset.range F, expL (t.at4 b f c r) := by
  obtain ⟨g, hg, hge⟩ := reducer_known hR hr
  obtain ⟨k, hk, hke⟩ := reducer_known hC hc
  simp only [reduceLL, hs]
  by_cases hB : B = 0
  · rw [if_pos hB]
    exact ⟨[], rfl, hB.symm, fun b h => absurd h (by simp)⟩
  rw [if_neg hB]
  simp only [hg, hk]
  refine ⟨_, rfl, by simp, fun b h => ?_⟩
  rw [List.getElem_map, List.getElem_range, hke]
  simp only [hge, expL_sum]

/-- C81: `_reduce_log_likelihood` accepts tensors with two, three or four axes and nothing else. -/
theorem C81_shapes (chAgg repAgg : String) (t : Tens) :
    (¬ (t.shape.length = 2 ∨ t.shape.length = 3 ∨ t.shape.length = 4) → reduceLL chAgg repAgg t = .error .invalidParameter) ∧
    (∀ b f, t.shape = [b, f] → ∃ l, reduceLL chAgg repAgg t = .ok l ∧ l.length = b ∧
      ∀ i (h : i < l.length), expL l[i] = ∏ j ∈ Finset.range f, expL (t.val [i, j])) := by
  refine ⟨fun h => ?_, fun b f h => ?_⟩
  · have : dims4 t.shape = .error .invalidParameter := by
      unfold dims4
      split <;> simp_all
    simp only [reduceLL, this]
  · obtain ⟨l, h1, h2, h3⟩ := reduceLL_ok (chAgg := chAgg) (repAgg := repAgg) (t := t) (by rw [h]; rfl) le_rfl le_rfl (.inl rfl)
      (.inl rfl)
    refine ⟨l, h1, h2, fun i hi => ?_⟩
    rw [h3 i hi]
    simp [agg, Tens.at4, h]

/-- C81: `score_samples` returns one number per row; it is the logarithm of the density that the row's features, repetitions and
channels give, and nothing of the other rows enters. -/
theorem C81_score {p : Params} {e : Est} {c : Circ} (he : e.model = some c) {R : ℕ} (hR : tensorR c = some R) (hR1 : 1 ≤ R)
    (hC : 1 ≤ C c) (hc : Known p.chAgg (C c)) (hr : Known p.repAgg R) (X : Arr) {n m : ℕ} (hX : dims2 X.shape = .ok (n, m))
    (hcols : ∀ v ∈ (scope c).query, v < (m : ℤ)) :
    ∃ l, score p e X = .ok l ∧ l.length = n ∧ ∀ i (h : i < l.length), expL l[i] = density p c R (X.row i) := by
  have hnot : ¬ ∃ v ∈ (scope c).query, (m : ℤ) ≤ v := fun ⟨v, hv, h⟩ => absurd (hcols v hv) (not_lt.2 h)
  simp only [score, he, hX, llTensor, if_neg hnot, hR]
  obtain ⟨l, h1, h2, h3⟩ := reduceLL_ok (chAgg := p.chAgg) (repAgg := p.repAgg)
    (t := ⟨[n, F c, C c, R], fun i => featAt (den c) (i.getD 1 0) (X.row (i.getD 0 0)) (i.getD 3 0) (i.getD 2 0)⟩) rfl hC hR1 hc hr
  exact ⟨l, h1, h2, fun i hi => (h3 i hi).trans rfl⟩

/-- C81: if the model has a single channel and a single repetition, the score is the model's own log-likelihood, whatever
reductions are configured (even unknown ones). -/
theorem C81_single (p : Params) {c : Circ} (hC : C c = 1) (x : Row) :
    density p c 1 x = ∏ f ∈ Finset.range (F c), expL (featAt (den c) f x 0 0) := by
  simp [density, agg, hC]

/-- C81: an unknown reduction is rejected exactly if there is more than one entry to reduce and the batch is not empty. -/
theorem C81_unknown_reduction {p : Params} {e : Est} {c : Circ} (he : e.model = some c) {R : ℕ} (hR : tensorR c = some R)
    (X : Arr) {n m : ℕ} (hX : dims2 X.shape = .ok (n, m)) (hcols : ∀ v ∈ (scope c).query, v < (m : ℤ)) :
    (n = 0 → score p e X = .ok []) ∧
    (n ≠ 0 → ¬ Known p.repAgg R → score p e X = .error .invalidParameter) ∧
    (n ≠ 0 → Known p.repAgg R → 1 ≤ R → ¬ Known p.chAgg (C c) → score p e X = .error .invalidParameter) := by
  have hnot : ¬ ∃ v ∈ (scope c).query, (m : ℤ) ≤ v := fun ⟨v, hv, h⟩ => absurd (hcols v hv) (not_lt.2 h)
  simp only [score, he, hX, llTensor, if_neg hnot, hR, reduceLL, dims4]
  refine ⟨fun h => by rw [if_pos h], fun h hk => ?_, fun h hk hR1 hc => ?_⟩
  · rw [if_neg h, reducer_unknown hk]
  · obtain ⟨g, hg, _⟩ := reducer_known hR1 hk
    rw [if_neg h, reducer_unknown hc, hg]

/-! ## Normalisation -/

section
variable {μ : Var → Measure ℝ} [∀ v, SigmaFinite (μ v)]

theorem scope_prod {c : Circ} (h : Accepted c) : fscope (prod c) 0 = (scope c).query.toFinset := by
  ext v
  have h1 := mem_scope_iff (c := prod c) h v
  rw [List.mem_toFinset, show (scope c).query = (scope (prod c)).query from rfl, h1]
  constructor
  · exact fun hv => ⟨0, Nat.one_pos, hv⟩
  · rintro ⟨f, hf, hv⟩
    have : f = 0 := by have : f < 1 := hf; omega
    exact this ▸ hv

theorem ofReal_wsum (s : Finset ℕ) {w g : ℕ → ℝ} (hw : ∀ i, 0 ≤ w i) (hg : ∀ i ∈ s, 0 ≤ g i) :
    ENNReal.ofReal (∑ i ∈ s, w i * g i) = ∑ i ∈ s, ENNReal.ofReal (w i) * ENNReal.ofReal (g i) := by
  rw [ENNReal.ofReal_sum_of_nonneg fun i hi => mul_nonneg (hw i) (hg i hi)]
  exact Finset.sum_congr rfl fun i _ => ENNReal.ofReal_mul (hw i)

/-- C81: a NaN cell integrates the variable out of the scored density: for every set of variables of the model, the score of the
row with those cells missing is the logarithm of the integral. -/
theorem C81_missing {p : Params} {c : Circ} (h : Accepted c) (hal : Aligned c) (hl : LeafOk μ c) {R : ℕ}
    (hR : tensorR c = some R) (hR1 : 1 ≤ R) (hC : 1 ≤ C c) (S : Finset Var) (hS : S ⊆ (scope c).query.toFinset)
    (x : Var → ℝ) :
    (∫⋯∫⁻_S, (fun y => ENNReal.ofReal (density p c R fun v => some (y v))) ∂μ) x =
      ENNReal.ofReal (density p c R (maskRow S x)) := by
  obtain ⟨w, hw, hwe⟩ := agg_weights p.chAgg hC
  obtain ⟨u, hu, hue⟩ := agg_weights p.repAgg hR1
  have hp0 : ∀ (x : Row) (r ch : ℕ), 0 ≤ expL (featAt (den (prod c)) 0 x r ch) := fun _ _ _ => expL_nonneg _
  have e : ∀ x : Row, ENNReal.ofReal (density p c R x) = ∑ ch ∈ Finset.range (C c), ENNReal.ofReal (w ch) *
      ∑ r ∈ Finset.range R, ENNReal.ofReal (u r) * ENNReal.ofReal (expL (featAt (den (prod c)) 0 x r ch)) := by
    intro x
    unfold density
    simp only [← expL_featAt_prod]
    rw [hwe, ofReal_wsum _ hw fun ch _ => by rw [hue]; exact Finset.sum_nonneg fun r _ => mul_nonneg (hu r) (hp0 _ _ _)]
    refine Finset.sum_congr rfl fun ch _ => ?_
    rw [hue, ofReal_wsum _ hu fun r _ => hp0 _ _ _]
  have hm : ∀ r < R, ∀ ch < C c, Measurable fun y : Var → ℝ =>
      ENNReal.ofReal (expL (featAt (den (prod c)) 0 (fun v => some (y v)) r ch)) := by
    intro r hr ch hch
    refine ENNReal.measurable_ofReal.comp (featAt_measurable (c := prod c) (μ := μ) (Φ := fun y : Var → ℝ => fun v => some (y v)) ?_
      h (repIn_of_tensorR (c := prod c) hR (.inr hr)) hl Nat.one_pos hch)
    intro v; exact .inl ⟨fun y => y v, measurable_pi_apply v, fun _ => rfl⟩
  simp only [e]
  rw [Interval.lmarginal_wsum S (Finset.range (C c)) (fun ch => ENNReal.ofReal (w ch)) (fun ch hch =>
    Finset.measurable_sum _ fun r hr => (hm r (Finset.mem_range.1 hr) ch (Finset.mem_range.1 hch)).const_mul _)]
  refine Finset.sum_congr rfl fun ch hch => ?_
  rw [Interval.lmarginal_wsum S (Finset.range R) (fun r => ENNReal.ofReal (u r))
    (fun r hr => hm r (Finset.mem_range.1 hr) ch (Finset.mem_range.1 hch))]
  congr 1
  refine Finset.sum_congr rfl fun r hr => ?_
  rw [lmarginal_featAt (c := prod c) h hal (repIn_of_tensorR (c := prod c) hR (.inr (Finset.mem_range.1 hr))) hl Nat.one_pos
    (Finset.mem_range.1 hch) S (by rw [scope_prod h]; exact hS) x]

/-- C81: the scored density integrates to one for `first` and `logmeanexp`; every axis reduced by `logsumexp` multiplies the
integral by its size. -/
theorem C81_normalised_partial {p : Params} {c : Circ} (h : Accepted c) (hal : Aligned c) (hl : LeafOk μ c) {R : ℕ}
    (hR : tensorR c = some R) (hR1 : 1 ≤ R) (hC : 1 ≤ C c) (hc : Known p.chAgg (C c)) (hr : Known p.repAgg R) (x : Var → ℝ) :
    (∫⋯∫⁻_((scope c).query.toFinset), (fun y => ENNReal.ofReal (density p c R fun v => some (y v))) ∂μ) x =
      ENNReal.ofReal (mass p.chAgg (C c) * mass p.repAgg R) := by
  rw [C81_missing h hal hl hR hR1 hC _ subset_rfl x]
  congr 1
  have e : ∀ ch < C c, ∀ r < R,
      ∏ f ∈ Finset.range (F c), expL (featAt (den c) f (maskRow (scope c).query.toFinset x) r ch) = 1 := by
    intro ch hch r hr'
    rw [← expL_featAt_prod]
    exact expL_featAt_missing (c := prod c) h hal (repIn_of_tensorR (c := prod c) hR (.inr hr')) Nat.one_pos hch fun v hv => by
      rw [scope_prod h] at hv
      simp only [maskRow, if_pos hv]
  unfold density
  obtain ⟨w, _, hwe⟩ := agg_weights p.chAgg hC
  obtain ⟨u, _, hue⟩ := agg_weights p.repAgg hR1
  have e2 : ∀ ch < C c, agg p.repAgg R (fun r => ∏ f ∈ Finset.range (F c),
      expL (featAt (den c) f (maskRow (scope c).query.toFinset x) r ch)) = mass p.repAgg R := by
    intro ch hch
    rw [← mul_one (mass _ _), ← agg_const hR1 hr, hue, hue]
    exact Finset.sum_congr rfl fun r hr' => by rw [e ch hch r (Finset.mem_range.1 hr')]
  rw [← agg_const hC hc, hwe, hwe]
  exact Finset.sum_congr rfl fun ch hch => by rw [e2 ch (Finset.mem_range.1 hch)]

end

end Sk
end Verif

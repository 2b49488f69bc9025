import Verif.Simple

/-!
# C73: the Gumbel-max trick
-/

namespace Verif.Simple

open Finset MeasureTheory

instance : IsProbabilityMeasure unif := ⟨by simp [unif]⟩

instance (n : ℕ) : IsProbabilityMeasure (noise n) := by unfold noise; infer_instance

theorem expL_gumbel {u : ℝ} (h0 : 0 < u) (h1 : u < 1) : expL (gumbel u : LogV) = (-Real.log u)⁻¹ := by
  have : 0 < -Real.log u := by have := Real.log_neg h0 h1; linarith
  rw [expL_coe, gumbel, Real.exp_neg, Real.exp_log this]

/-- `u_i` loses against `u_j`. -/
theorem perturb_lt_iff {l : ℕ → LogV} {u : ℕ → ℝ} {i j : ℕ} (hi0 : 0 < u i) (hi1 : u i < 1) (hj0 : 0 < u j) (hj1 : u j < 1)
    (hj : l j ≠ ⊥) :
    expL (perturb l u i) < expL (perturb l u j) ↔ u i < u j ^ (expL (l i) / expL (l j)) := by
  have hwj : 0 < expL (l j) := (expL_pos_iff _).2 hj
  have hwi := expL_nonneg (l i)
  have ha : 0 < -Real.log (u i) := by have := Real.log_neg hi0 hi1; linarith
  have hb : 0 < -Real.log (u j) := by have := Real.log_neg hj0 hj1; linarith
  unfold perturb
  rw [expL_add, expL_add, expL_gumbel hi0 hi1, expL_gumbel hj0 hj1, ← div_eq_mul_inv, ← div_eq_mul_inv,
    div_lt_div_iff₀ ha hb, Real.lt_rpow_iff_log_lt hi0 hj0, div_mul_eq_mul_div, lt_div_iff₀ hwj]
  constructor <;> intro h <;> nlinarith

/-- The draws with which class `j` wins. -/
def Win (n : ℕ) (l : ℕ → LogV) (j : Fin n) : Set (Fin n → ℝ) :=
  {u | (∀ i, 0 < u i ∧ u i < 1) ∧ ∀ i, i ≠ j → u i < u j ^ (expL (l i) / expL (l j))}

theorem win_measurable (n : ℕ) (l : ℕ → LogV) (j : Fin n) : MeasurableSet (Win n l j) := by
  have : Win n l j = (⋂ i, {u | 0 < u i ∧ u i < 1}) ∩ ⋂ i, {u | i ≠ j → u i < u j ^ (expL (l i) / expL (l j))} := by
    ext u; simp [Win]
  rw [this]
  refine MeasurableSet.inter (MeasurableSet.iInter fun i => ?_) (MeasurableSet.iInter fun i => ?_)
  · exact (measurableSet_lt measurable_const (measurable_pi_apply i)).inter
      (measurableSet_lt (measurable_pi_apply i) measurable_const)
  · by_cases h : i = j
    · simp [h]
    · simp only [ne_eq, h, not_false_eq_true, forall_const]
      exact measurableSet_lt (measurable_pi_apply i) ((measurable_pi_apply j).pow_const _)

theorem unif_Ioo {b : ℝ} (h1 : b ≤ 1) : unif (Set.Ioo 0 b) = ENNReal.ofReal b := by
  unfold unif
  rw [Measure.restrict_apply measurableSet_Ioo, Set.inter_eq_left.2 (Set.Ioo_subset_Ioo_right h1), Real.volume_Ioo, sub_zero]

theorem noise_win {n : ℕ} {l : ℕ → LogV} {j : Fin n} (hj : l j ≠ ⊥) : noise n (Win n l j) = ENNReal.ofReal (softmax n l j) := by
  obtain ⟨n, rfl⟩ : ∃ m, n = m + 1 := ⟨n - 1, by have := j.2; omega⟩
  have hwj : 0 < expL (l j) := (expL_pos_iff _).2 hj
  have hmp := (measurePreserving_piFinSuccAbove (fun _ : Fin (n + 1) => unif) j).symm
  rw [noise, ← hmp.measure_preimage (win_measurable _ l j).nullMeasurableSet,
    Measure.prod_apply (hmp.measurable (win_measurable _ l j))]
  obtain ⟨e, he⟩ : ∃ e : Fin n → ℝ, e = fun i => expL (l (j.succAbove i)) / expL (l j) := ⟨_, rfl⟩
  have he0 : ∀ i, 0 ≤ e i := fun i => by rw [he]; exact div_nonneg (expL_nonneg _) hwj.le
  have hs : ∑ i, e i + 1 = (∑ k ∈ range (n + 1), expL (l k)) / expL (l j) := by
    rw [sum_range fun k => expL (l k), Fin.sum_univ_succAbove _ j, add_div, div_self hwj.ne', he, ← sum_div, add_comm]
  have key : ∀ t ∈ Set.Ioo (0 : ℝ) 1,
      Measure.pi (fun _ : Fin n => unif) (Prod.mk t ⁻¹' ((MeasurableEquiv.piFinSuccAbove (fun _ => ℝ) j).symm ⁻¹' Win (n + 1) l j))
        = ENNReal.ofReal (t ^ (∑ i, e i)) := by
    intro t ht
    have hset : Prod.mk t ⁻¹' ((MeasurableEquiv.piFinSuccAbove (fun _ => ℝ) j).symm ⁻¹' Win (n + 1) l j)
        = Set.univ.pi fun i => Set.Ioo 0 (t ^ e i) := by
      ext u
      simp only [Set.mem_preimage, Win, Set.mem_ofPred_eq, MeasurableEquiv.piFinSuccAbove_symm_apply, Set.mem_pi, Set.mem_univ,
        Set.mem_Ioo, forall_const]
      constructor
      · rintro ⟨h1, h2⟩ i
        have a := h1 (j.succAbove i)
        have b := h2 (j.succAbove i) (Fin.succAbove_ne j i)
        simp only [Fin.insertNthEquiv_apply, Fin.insertNth_apply_succAbove, Fin.insertNth_apply_same] at a b
        rw [he]
        exact ⟨a.1, b⟩
      · intro h
        have h1 : ∀ i, t ^ e i ≤ 1 := fun i => Real.rpow_le_one ht.1.le ht.2.le (he0 i)
        refine ⟨fun i => ?_, fun i hi => ?_⟩
        · rcases Fin.eq_self_or_eq_succAbove j i with rfl | ⟨k, rfl⟩
          · simpa using ht
          · have := h k
            simp only [Fin.insertNthEquiv_apply, Fin.insertNth_apply_succAbove]
            exact ⟨this.1, this.2.trans_le (h1 k)⟩
        · rcases Fin.eq_self_or_eq_succAbove j i with rfl | ⟨k, rfl⟩
          · exact absurd rfl hi
          · have := (h k).2
            simp only [Fin.insertNthEquiv_apply, Fin.insertNth_apply_succAbove, Fin.insertNth_apply_same]
            rw [he] at this
            exact this
    rw [hset, Measure.pi_pi]
    have : ∀ i ∈ (univ : Finset (Fin n)), unif (Set.Ioo 0 (t ^ e i)) = ENNReal.ofReal (t ^ e i) := fun i _ =>
      unif_Ioo (Real.rpow_le_one ht.1.le ht.2.le (he0 i))
    rw [prod_congr rfl this, ← ENNReal.ofReal_prod_of_nonneg fun i _ => (Real.rpow_pos_of_pos ht.1 _).le,
      Real.rpow_sum_of_nonneg ht.1.le fun i _ => he0 i]
  have hS : 0 ≤ ∑ i, e i := sum_nonneg fun i _ => he0 i
  rw [show (∫⁻ x, Measure.pi (fun _ : Fin n => unif) (Prod.mk x ⁻¹' ((MeasurableEquiv.piFinSuccAbove (fun _ => ℝ) j).symm ⁻¹'
    Win (n + 1) l j)) ∂unif) = ∫⁻ x in Set.Ioo (0 : ℝ) 1, ENNReal.ofReal (x ^ (∑ i, e i)) from
    setLIntegral_congr_fun measurableSet_Ioo key]
  have hint : IntervalIntegrable (fun x : ℝ => x ^ (∑ i, e i)) volume 0 1 := intervalIntegral.intervalIntegrable_rpow' (by linarith)
  rw [setLIntegral_congr Ioo_ae_eq_Ioc, ← ofReal_integral_eq_lintegral_ofReal ((intervalIntegrable_iff_integrableOn_Ioc_of_le
    zero_le_one).1 hint) ((ae_restrict_mem measurableSet_Ioc).mono fun x hx => Real.rpow_nonneg hx.1.le _),
    ← intervalIntegral.integral_of_le zero_le_one, integral_rpow (Or.inl (by linarith)), softmax_eq]
  congr 1
  rw [Real.one_rpow, Real.zero_rpow (by linarith), sub_zero, hs, one_div_div]

/-! ### The chosen class -/

theorem noise_inside (n : ℕ) : ∀ᵐ u ∂noise n, ∀ i : Fin n, 0 < u i ∧ u i < 1 := by
  refine ae_all_iff.2 fun i => ?_
  have h : ∀ᵐ t ∂unif, 0 < t ∧ t < 1 := ae_restrict_mem measurableSet_Ioo
  exact (measurePreserving_eval (fun _ : Fin n => unif) i).quasiMeasurePreserving.ae h

theorem index_lt {n : ℕ} (hn : n ≠ 0) (l : ℕ → LogV) (mpe : Bool) (u : ℕ → ℝ) : index n l mpe u < n := by
  have := (WSum.C62_mpe (softmax n (if mpe then l else perturb l u)) (n - 1)).1
  unfold index; omega

theorem perturb_bot {l : ℕ → LogV} {u : ℕ → ℝ} {i : ℕ} : perturb l u i = ⊥ ↔ l i = ⊥ := by
  unfold perturb
  induction l i using WithBot.recBotCoe with
  | bot => simp
  | coe a => exact ⟨fun h => absurd h (by rw [← WithBot.coe_add]; exact WithBot.coe_ne_bot), fun h => absurd h WithBot.coe_ne_bot⟩

/-- The chosen class has maximal perturbed logit, and is the first such. -/
theorem index_max {n : ℕ} {l : ℕ → LogV} (hl : ∃ i < n, l i ≠ ⊥) (mpe : Bool) (u : ℕ → ℝ) :
    (∀ i < n, expL ((if mpe then l else perturb l u) i) ≤ expL ((if mpe then l else perturb l u) (index n l mpe u))) ∧
    (∀ i < index n l mpe u, expL ((if mpe then l else perturb l u) i) < expL ((if mpe then l else perturb l u) (index n l mpe u))) := by
  obtain ⟨b, hb⟩ : ∃ b, b = (if mpe then l else perturb l u) := ⟨_, rfl⟩
  have hb' : ∃ i < n, b i ≠ ⊥ := by
    obtain ⟨i, hi, h⟩ := hl
    refine ⟨i, hi, ?_⟩
    rw [hb]
    cases mpe
    · exact fun h' => h (perturb_bot.1 h')
    · exact h
  have hS := sum_expL_pos hb'
  have h := WSum.C62_mpe (softmax n b) (n - 1)
  unfold index
  rw [← hb]
  refine ⟨fun i hi => ?_, fun i hi => ?_⟩
  · have := h.2.1 i (by omega)
    rw [softmax_eq, softmax_eq] at this
    exact (div_le_div_iff_of_pos_right hS).1 this
  · have := h.2.2 i hi
    rw [softmax_eq, softmax_eq] at this
    exact (div_lt_div_iff_of_pos_right hS).1 this

/-- The chosen class is never one with logit `-inf`. -/
theorem index_alive {n : ℕ} {l : ℕ → LogV} (hl : ∃ i < n, l i ≠ ⊥) (mpe : Bool) (u : ℕ → ℝ) : l (index n l mpe u) ≠ ⊥ := by
  have h := (index_max hl mpe u).1
  obtain ⟨i, hi, h0⟩ := hl
  have := h i hi
  intro hbot
  cases mpe
  · simp only [Bool.false_eq_true, if_false] at this
    rw [perturb_bot.2 hbot, expL_bot] at this
    exact absurd ((expL_pos_iff _).2 fun h' => h0 (perturb_bot.1 h')) (not_lt.2 this)
  · simp only [if_true] at this
    rw [hbot, expL_bot] at this
    exact absurd ((expL_pos_iff _).2 h0) (not_lt.2 this)

theorem index_of_win {n : ℕ} {l : ℕ → LogV} {j : Fin n} (hj : l j ≠ ⊥) {u : Fin n → ℝ} (h : u ∈ Win n l j) :
    index n l false (ext u) = j := by
  have hlt := index_lt (by have := j.2; omega : n ≠ 0) l false (ext u)
  have hm := (index_max ⟨j, j.2, hj⟩ false (ext u)).1 j j.2
  simp only [Bool.false_eq_true, if_false] at hm
  by_contra hne
  have hu : ∀ i (hi : i < n), ext u i = u ⟨i, hi⟩ := fun i hi => by unfold ext; rw [dif_pos hi]
  have h2 := h.2 ⟨_, hlt⟩ fun h' => hne (congrArg Fin.val h')
  have := (perturb_lt_iff (l := l) (u := ext u) (i := index n l false (ext u)) (j := j) (by rw [hu _ hlt]; exact (h.1 _).1)
    (by rw [hu _ hlt]; exact (h.1 _).2) (by rw [hu _ j.2]; exact (h.1 _).1) (by rw [hu _ j.2]; exact (h.1 _).2) hj).2
    (by rw [hu _ hlt, hu _ j.2]; exact h2)
  exact absurd hm (not_le.2 this)

/-- The draws split, up to a null set, into the sets on which the individual classes are chosen. -/
theorem parts {n : ℕ} {l : ℕ → LogV} (hl : ∃ i < n, l i ≠ ⊥) :
    ∃ W : Fin n → Set (Fin n → ℝ), (∀ j, MeasurableSet (W j)) ∧ (∀ j, ∀ u ∈ W j, index n l false (ext u) = j) ∧
      (∀ j, noise n (W j) = ENNReal.ofReal (softmax n l j)) ∧ Pairwise (Function.onFun Disjoint W) ∧
      (⋃ j, W j) =ᵐ[noise n] Set.univ := by
  classical
  obtain ⟨W, hW⟩ : ∃ W : Fin n → Set (Fin n → ℝ), W = fun j : Fin n => if l j = ⊥ then ∅ else Win n l j := ⟨_, rfl⟩
  have hWm : ∀ j, MeasurableSet (W j) := fun j => by
    rw [hW]; beta_reduce; by_cases h : l j = ⊥
    · rw [if_pos h]; exact MeasurableSet.empty
    · rw [if_neg h]; exact win_measurable n l j
  have hWi : ∀ j, ∀ u ∈ W j, index n l false (ext u) = j := fun j u hu => by
    rw [hW] at hu; beta_reduce at hu; by_cases h : l j = ⊥
    · rw [if_pos h] at hu; exact absurd hu (Set.notMem_empty _)
    · rw [if_neg h] at hu; exact index_of_win h hu
  have hWp : ∀ j, noise n (W j) = ENNReal.ofReal (softmax n l j) := fun j => by
    rw [hW]; beta_reduce; by_cases h : l j = ⊥
    · rw [if_pos h, softmax_eq, h, expL_bot, zero_div, ENNReal.ofReal_zero, measure_empty]
    · rw [if_neg h]; exact noise_win h
  have hdis : Pairwise (Function.onFun Disjoint W) := fun i j hij => Set.disjoint_left.2 fun u hi hj =>
    hij (Fin.ext ((hWi i u hi).symm.trans (hWi j u hj)))
  refine ⟨W, hWm, hWi, hWp, hdis, ?_⟩
  have hm : MeasurableSet (⋃ j, W j) := MeasurableSet.iUnion hWm
  rw [ae_eq_univ, prob_compl_eq_zero_iff hm, measure_iUnion hdis hWm, tsum_fintype, sum_congr rfl fun j _ => hWp j,
    ← ENNReal.ofReal_sum_of_nonneg fun j _ => softmax_nonneg _ _ _, ← sum_range fun j => softmax n l j, sum_softmax hl,
    ENNReal.ofReal_one]

/-- **Gumbel-max.** The expected value of any function of the chosen class. -/
theorem lintegral_index {n : ℕ} {l : ℕ → LogV} (hl : ∃ i < n, l i ≠ ⊥) (f : ℕ → ENNReal) :
    ∫⁻ u, f (index n l false (ext u)) ∂noise n = ∑ j ∈ range n, ENNReal.ofReal (softmax n l j) * f j := by
  obtain ⟨W, hWm, hWi, hWp, hdis, hae⟩ := parts hl
  rw [← setLIntegral_univ, ← setLIntegral_congr hae, lintegral_iUnion hWm hdis, tsum_fintype, sum_range]
  refine sum_congr rfl fun j _ => ?_
  rw [setLIntegral_congr_fun (hWm j) (g := fun _ => f j) fun u hu => by beta_reduce; rw [hWi j u hu], setLIntegral_const, hWp, mul_comm]

open Classical in
/-- The probability of any property of the chosen class. -/
theorem pr_index {n : ℕ} {l : ℕ → LogV} (hl : ∃ i < n, l i ≠ ⊥) (P : ℕ → Prop) :
    pr n (fun u => P (index n l false u)) = ∑ j ∈ range n with P j, ENNReal.ofReal (softmax n l j) := by
  obtain ⟨W, hWm, hWi, hWp, hdis, hae⟩ := parts hl
  have h : {u : Fin n → ℝ | P (index n l false (ext u))} =ᵐ[noise n] ⋃ j : {j : Fin n // P j}, W j := by
    refine Filter.eventuallyEq_set.2 ((Filter.eventuallyEq_set.1 hae).mono fun u hu => ?_)
    obtain ⟨j, hj⟩ := Set.mem_iUnion.1 (hu.2 (Set.mem_univ u))
    refine ⟨fun h => ?_, fun h => ?_⟩
    · exact Set.mem_iUnion.2 ⟨⟨j, by rw [← hWi j u hj]; exact h⟩, hj⟩
    · obtain ⟨⟨k, hk⟩, hk'⟩ := Set.mem_iUnion.1 h
      show P (index n l false (ext u))
      rw [hWi k u hk']; exact hk
  unfold pr
  rw [measure_congr h, measure_iUnion (f := fun j : {j : Fin n // P j} => W j) (fun a b hab => hdis fun h => hab (Subtype.ext h)) fun j => hWm j, tsum_fintype,
    show ∑ b : {j : Fin n // P j}, noise n (W b) = ∑ b : {j : Fin n // P j}, ENNReal.ofReal (softmax n l (b : Fin n)) from
      sum_congr rfl fun j _ => hWp j, sum_filter, sum_range, ← sum_filter,
    ← Finset.sum_subtype (univ.filter fun j : Fin n => P j) (fun j => by simp) fun j : Fin n => ENNReal.ofReal (softmax n l j)]

/-! ### The sampler -/

/-- The one-hot vector of `j`. -/
def oneHot (j i : ℕ) : ℝ := if i = j then 1 else 0

theorem oneHot_injective {j k : ℕ} (h : oneHot j = oneHot k) : j = k := by
  have := congrFun h j
  unfold oneHot at this
  rw [if_pos rfl] at this
  by_contra hne
  rw [if_neg hne] at this
  exact one_ne_zero this

theorem simple_eq {n : ℕ} {l : ℕ → LogV} (hl : ∃ i < n, l i ≠ ⊥) {tau : ℝ} (ht : 0 < tau) (mpe : Bool) (u : ℕ → ℝ) :
    simple n l tau mpe u = .ok (some (oneHot (index n l mpe u))) := by
  unfold simple
  have hn : n ≠ 0 := by obtain ⟨i, hi, _⟩ := hl; omega
  have hd : ¬ ∀ i < n, l i = ⊥ := fun h => by obtain ⟨i, hi, h'⟩ := hl; exact h' (h i hi)
  rw [if_neg (not_le.2 ht), if_neg hn, if_neg hd]
  congr 2
  funext i
  unfold oneHot
  ring

theorem rsample_eq {n : ℕ} {l : ℕ → LogV} (hl : ∃ i < n, l i ≠ ⊥) (v u : ℕ → ℝ) :
    rsample n l v u = .ok (some (v (index n l false u))) := by
  have hlt : index n l false u < n := index_lt (by obtain ⟨i, hi, _⟩ := hl; omega) _ _ _
  unfold rsample
  rw [simple_eq hl one_pos]
  show Except.ok (some _) = _
  congr 2
  unfold oneHot
  beta_reduce
  rw [sum_eq_single_of_mem _ (mem_range.2 hlt) fun i _ hi => by rw [if_neg hi, zero_mul], if_pos rfl, one_mul]

variable {n : ℕ} {l : ℕ → LogV}

/-- For every noise the result is the one-hot vector of a class whose logit is not `-inf`; it does not depend on the
temperature. A temperature that is not positive is rejected. -/
theorem C73_one_hot (hl : ∃ i < n, l i ≠ ⊥) (mpe : Bool) (u : ℕ → ℝ) :
    (∃ j < n, l j ≠ ⊥ ∧ ∀ tau : ℝ, 0 < tau → simple n l tau mpe u = .ok (some fun i => if i = j then 1 else 0)) ∧
    ∀ tau : ℝ, tau ≤ 0 → simple n l tau mpe u = .error .invalidParameter := by
  refine ⟨⟨index n l mpe u, index_lt (by obtain ⟨i, hi, _⟩ := hl; omega) _ _ _, index_alive hl _ _, fun tau ht => simple_eq hl ht mpe u⟩,
    fun tau ht => ?_⟩
  unfold simple; rw [if_pos ht]

/-- **Gumbel-max**: differentiable sampling chooses class `j` with probability `softmax(logits)_j`, which is the probability
with which ordinary sampling (`Categorical(logits)`) chooses it — whatever the temperature. -/
theorem C73_law (hl : ∃ i < n, l i ≠ ⊥) {tau : ℝ} (ht : 0 < tau) {j : ℕ} (hj : j < n) :
    pr n (fun u => simple n l tau false u = .ok (some fun i => if i = j then 1 else 0)) = ENNReal.ofReal (softmax n l j) ∧
    (plain n l false).prob j = ENNReal.ofReal (softmax n l j) := by
  classical
  constructor
  · have : (fun u => simple n l tau false u = .ok (some fun i => if i = j then 1 else 0)) = fun u => index n l false u = j := by
      funext u
      rw [simple_eq hl ht]
      refine propext ⟨fun h => ?_, fun h => ?_⟩
      · injection h with h; injection h with h; exact oneHot_injective h
      · rw [h]; rfl
    rw [this, pr_index hl fun i => i = j, sum_filter]
    exact (sum_eq_single_of_mem j (mem_range.2 hj) fun i _ hi => if_neg hi).trans (if_pos rfl)
  · unfold plain Prog.prob
    rw [if_neg Bool.false_ne_true]
    simp only [Prog.E]
    rw [sum_eq_single_of_mem j (mem_range.2 hj) fun i _ hi => by rw [if_neg hi, mul_zero], if_pos rfl, mul_one]

/-- In MPE mode no noise is used, and the class chosen is the one ordinary MPE chooses: the first with the largest logit. -/
theorem C73_mpe (hl : ∃ i < n, l i ≠ ⊥) {tau : ℝ} (ht : 0 < tau) (u : ℕ → ℝ) :
    ∃ j < n, simple n l tau true u = .ok (some fun i => if i = j then 1 else 0) ∧ plain n l true = .ret j ∧
      (∀ i < n, l i ≤ l j) ∧ ∀ i < j, l i < l j := by
  have hm := index_max hl true u
  simp only [if_true] at hm
  have hmono : ∀ a b : LogV, expL a ≤ expL b → a ≤ b := fun a b h => by
    induction a using WithBot.recBotCoe with
    | bot => exact bot_le
    | coe a =>
      induction b using WithBot.recBotCoe with
      | bot => rw [expL_coe, expL_bot] at h; exact absurd (Real.exp_pos a) (not_lt.2 h)
      | coe b => exact WithBot.coe_le_coe.2 (Real.exp_le_exp.1 h)
  refine ⟨index n l true u, index_lt (by obtain ⟨i, hi, _⟩ := hl; omega) _ _ _, simple_eq hl ht true u, rfl,
    fun i hi => hmono _ _ (hm.1 i hi), fun i hi => lt_of_le_of_ne (hmono _ _ (hm.2 i hi).le) fun h => ?_⟩
  have := hm.2 i hi
  rw [h] at this
  exact lt_irrefl _ this

/-- If every logit is `-inf`, ordinary sampling raises but differentiable sampling returns a tensor of NaN. -/
theorem C73_dead_is_nan (hn : n ≠ 0) (hl : ∀ i < n, l i = ⊥) {tau : ℝ} (ht : 0 < tau) (mpe : Bool) (u : ℕ → ℝ) :
    simple n l tau mpe u = .ok none ∧ (plain n l false).Fails := by
  constructor
  · unfold simple; rw [if_neg (not_le.2 ht), if_neg hn, if_pos hl]
  · exact .dead hl

open Classical in
/-- A leaf value drawn through SIMPLE: `v_i` with probability `softmax(logits)_i`. -/
theorem C73_value_law (hl : ∃ i < n, l i ≠ ⊥) (v : ℕ → ℝ) (B : Set ℝ) :
    pr n (fun u => ∃ t ∈ B, rsample n l v u = .ok (some t)) = ∑ i ∈ range n with v i ∈ B, ENNReal.ofReal (softmax n l i) := by
  have : (fun u => ∃ t ∈ B, rsample n l v u = .ok (some t)) = fun u => v (index n l false u) ∈ B := by
    funext u
    rw [rsample_eq hl]
    refine propext ⟨?_, fun h => ⟨_, h, rfl⟩⟩
    rintro ⟨t, ht, h⟩
    injection h with h; injection h with h
    rwa [h]
  rw [this, pr_index hl fun i => v i ∈ B]

/-! ### Whole programs -/

/-- The expected value of `h` at the result of a sampling program whose categorical choices are made by SIMPLE: every
choice takes fresh uniform noise; leaf values are drawn as before. -/
noncomputable def gumbelE {α : Type} (tau : ℝ) : Prog α → (α → ENNReal) → ENNReal
  | .ret a, h => h a
  | .fail _, _ => 0
  | .choose n l k, h => ∫⁻ u, (match simple n l tau false (ext u) with
      | .ok (some y) => ∑ i ∈ range n, ENNReal.ofReal (y i) * gumbelE tau (k i) h
      | _ => 0) ∂noise n
  | .draw d k, h => ∑' t, ENNReal.ofReal (expL (d t)) * gumbelE tau (k t) h

/-- **Differentiable sampling of a whole circuit follows the same law as ordinary sampling**: for every sampling program
that does not raise, and every temperature. (The one-hot decision is used to select the continuation, as `index_one_hot`
does.) -/
theorem C73_program {α : Type} {tau : ℝ} (ht : 0 < tau) (p : Prog α) (hp : ¬ p.Fails) (h : α → ENNReal) :
    gumbelE tau p h = p.E h := by
  induction p with
  | ret a => rfl
  | fail e => exact absurd .fail hp
  | choose n l k ih =>
    have hl : ∃ i < n, l i ≠ ⊥ := by
      by_contra hc
      push Not at hc
      exact hp (.dead hc)
    rw [gumbelE, Prog.E, ← lintegral_index hl fun i => (k i).E h]
    refine lintegral_congr fun u => ?_
    rw [simple_eq hl ht]
    have hlt : index n l false (ext u) < n := index_lt (by obtain ⟨i, hi, _⟩ := hl; omega) _ _ _
    show ∑ i ∈ range n, ENNReal.ofReal (oneHot (index n l false (ext u)) i) * gumbelE tau (k i) h = _
    unfold oneHot
    rw [sum_eq_single_of_mem _ (mem_range.2 hlt) fun i _ hi => by rw [if_neg hi, ENNReal.ofReal_zero, zero_mul], if_pos rfl,
      ENNReal.ofReal_one, one_mul, ih _ fun hf => hp (.choose hlt hf)]
  | draw d k ih =>
    rw [gumbelE, Prog.E]
    exact tsum_congr fun t => by rw [ih _ fun hf => hp (.draw hf)]

end Verif.Simple

import Verif.NaiveBayesProps

/-!
# NaiveBayes: fitting with class labels (C60)
-/

namespace Verif.NB

open Verif Verif.LeafFit

/-! ## Estimators that ignore observations of weight zero -/

open Classical in
/-- Observations of weight zero removed. -/
noncomputable def active (l : List (ℝ × ℝ)) : List (ℝ × ℝ) := l.filter fun z => decide (z.2 ≠ 0)

theorem wsum_active (g : ℝ → ℝ) (l : List (ℝ × ℝ)) : wsum g (active l) = wsum g l := by
  induction l with
  | nil => rfl
  | cons z l ih =>
    unfold active at *
    rw [List.filter_cons]
    by_cases h : z.2 = 0
    · rw [if_neg (by simpa using h), ih, wsum_cons, h]; ring
    · rw [if_pos (by simpa using h), wsum_cons, wsum_cons, ih]

theorem nTot_active (l : List (ℝ × ℝ)) : nTot (active l) = nTot l := by
  have := wsum_active (fun _ => 1) l
  rwa [wsum_const, wsum_const, one_mul, one_mul] at this

/-- The estimate does not depend on observations of weight zero. -/
def IgnoresZero {β : Type} (est : List (ℝ × ℝ) → β) : Prop := ∀ l, est (active l) = est l

theorem wmean_active (l : List (ℝ × ℝ)) : wmean (active l) = wmean l := by
  unfold wmean; rw [wsum_active, nTot_active]

theorem bernoulli_iz : IgnoresZero bernoulliEst := fun l => by unfold bernoulliEst; rw [wsum_active, nTot_active]

theorem poisson_iz : IgnoresZero poissonEst := fun l => by unfold poissonEst; rw [wsum_active, nTot_active]

theorem categorical_iz (K : ℕ) : IgnoresZero (categoricalEst K) := fun l => by
  funext k; unfold categoricalEst freq; simp only [wsum_active, nTot_active]

theorem binomial_iz (n : ℕ) : IgnoresZero (binomialEst n) := fun l => by
  have e : ∀ l, binomialEst n l = edgeLbUb (fdiv ((nTot l)⁻¹ * wsum id l) ((nTot l)⁻¹ * nTot l * n)) := by
    intro l
    unfold binomialEst
    simp only [div_eq_mul_inv]
    rw [wsum_scale, nTot_scale]
  rw [e, e, wsum_active, nTot_active]

theorem geometric_iz (b : Bool) : IgnoresZero (geometricEst b) := fun l => by
  unfold geometricEst; rw [wsum_active, nTot_active]

theorem negBinomial_iz (n : ℕ) (b : Bool) : IgnoresZero (negBinomialEst n b) := fun l => by
  unfold negBinomialEst; rw [wsum_active, nTot_active]

theorem exponential_iz (b : Bool) : IgnoresZero (exponentialEst b) := fun l => by
  unfold exponentialEst; rw [wsum_active, nTot_active]

theorem normal_iz (b : Bool) : IgnoresZero (normalEst b) := fun l => by
  unfold normalEst; rw [wmean_active, wsum_active, nTot_active]

theorem logNormal_iz (b : Bool) : IgnoresZero (logNormalEst b) := fun l => by
  unfold logNormalEst
  have : (active l).map (fun z => (Real.log z.1, z.2)) = active (l.map fun z => (Real.log z.1, z.2)) := by
    unfold active
    rw [List.filter_map]
    rfl
  rw [this]
  exact normal_iz b _

/-! ## Fitting -/

/-- The rows of class `k`, with unit weights: what the user would pass to a leaf to fit it on this class alone. -/
def classRows (vals : List (ℕ → Option ℝ)) (ts : List ℕ) (k : ℕ) : List LeafFit.Row :=
  ((vals.zip ts).filter fun z => z.2 = k).map fun z => ⟨z.1, defaultW⟩

/-- Every entry the leaf sees is a number. -/
def Complete (F : ℕ) (vals : List (ℕ → Option ℝ)) : Prop := ∀ v ∈ vals, ∀ f < F, v f ≠ none

theorem fit_complete {β : Type} (est : List (ℝ × ℝ) → β) (ignore : Bool) {F C R : ℕ}
    {rows : List LeafFit.Row} (hF : 0 < F) (hne : rows ≠ []) (hc : ∀ row ∈ rows, ∀ f < F, row.val f ≠ none)
    (hT : totalW F C R rows = rows.length * F) (f c r : ℕ) :
    fit est ignore F C R rows f c r = .ok (est ((cell f c r rows).map fun z => (z.1, z.2 * (1 / F)))) := by
  have h1 : allNan F rows = false := by
    obtain ⟨row, rs, rfl⟩ := List.exists_cons_of_ne_nil hne
    rw [← Bool.not_eq_true]
    unfold allNan
    intro h
    have := List.all_eq_true.1 (List.all_eq_true.1 h row (by simp)) 0 (List.mem_range.2 hF)
    exact hc row (by simp) 0 hF (Option.isNone_iff_eq_none.1 this)
  have h2 : rows.all (complete F) = true := by
    rw [List.all_eq_true]
    intro row hrow
    unfold complete
    rw [List.all_eq_true]
    intro f hf
    exact Option.isSome_iff_ne_none.2 (hc row hrow f (List.mem_range.1 hf))
  unfold fit prepare
  rw [h1, h2]
  simp only [Bool.false_eq_true, if_false, if_true, Except.ok.injEq]
  have hκ : (rows.length : ℝ) / totalW F C R rows = 1 / F := by
    have : (rows.length : ℝ) ≠ 0 := by
      have := List.length_pos_of_ne_nil hne
      exact_mod_cast this.ne'
    rw [hT]
    field_simp
  unfold cell rescale
  rw [List.map_map, List.map_map, hκ]
  rfl

theorem active_scale (l : List (ℝ × ℝ)) {κ : ℝ} (h : κ ≠ 0) :
    active (l.map fun z => (z.1, z.2 * κ)) = (active l).map fun z => (z.1, z.2 * κ) := by
  unfold active
  rw [List.filter_map]
  congr 1
  refine List.filter_congr fun z _ => ?_
  simp [h]

theorem cell_eq (vals : List (ℕ → Option ℝ)) (ts : List ℕ) (f k : ℕ) :
    active (cell f k 0 (oneHotRows vals ts)) = cell f 0 0 (classRows vals ts k) := by
  unfold active cell oneHotRows classRows
  rw [List.map_map, List.map_map]
  induction vals.zip ts with
  | nil => rfl
  | cons z l ih =>
    by_cases h : z.2 = k
    · rw [List.filter_cons_of_pos (a := z) (by simpa using h), List.map_cons, List.map_cons,
        List.filter_cons_of_pos (by simp [h]), ih]
      simp [h, defaultW]
    · rw [List.filter_cons_of_neg (a := z) (by simpa using h), List.map_cons,
        List.filter_cons_of_neg (by simp [h]), ih]

/-- Fitting with class labels is, for class `k`, fitting on the rows of class `k` alone, if the estimator ignores rows of
weight zero whose values occur in the data. -/
theorem fit_is_per_class_on {β : Type} {est : List (ℝ × ℝ) → β} (ignore : Bool) {F n : ℕ} (hF : 0 < F)
    {vals : List (ℕ → Option ℝ)} {ts : List ℕ} (hlen : ts.length = vals.length) (hc : Complete F vals)
    (hts : ∀ t ∈ ts, t < n) {k : ℕ} (hk : k ∈ ts) (f : ℕ)
    (he : ∀ l : List (ℝ × ℝ), (∀ z ∈ l, 0 ≤ z.2 ∧ ∃ v ∈ vals, z.1 = (v f).getD 0) → est (active l) = est l) :
    fitCell est ignore F n vals ts f k = fit est ignore F 1 1 (classRows vals ts k) f 0 0 := by
  have hzip : ∀ z ∈ vals.zip ts, z.1 ∈ vals ∧ z.2 ∈ ts := fun z hz =>
    ⟨(List.of_mem_zip (a := z.1) (b := z.2) hz).1, (List.of_mem_zip (a := z.1) (b := z.2) hz).2⟩
  obtain ⟨v, hv⟩ : ∃ v, (v, k) ∈ vals.zip ts := by
    obtain ⟨i, hi, rfl⟩ := List.getElem_of_mem hk
    exact ⟨vals[i], by
      rw [List.mem_iff_getElem]
      exact ⟨i, by simp; omega, by simp⟩⟩
  have hrow : (⟨v, fun _ c _ => if k = c then 1 else 0⟩ : LeafFit.Row) ∈ oneHotRows vals ts :=
    List.mem_map.2 ⟨(v, k), hv, rfl⟩
  have hconst : ∀ (rows : List LeafFit.Row) (C R : ℕ), (∀ row ∈ rows, ∀ f,
      ∑ c ∈ Finset.range C, ∑ r ∈ Finset.range R, row.w f c r = 1) → totalW F C R rows = rows.length * F := by
    intro rows C R h
    unfold totalW
    rw [List.map_congr_left (g := fun _ => (F : ℝ))]
    · simp
    · intro row hr
      rw [Finset.sum_congr rfl fun f _ => h row hr f]
      simp
  have hL := fit_complete est ignore (C := n) (R := 1) hF (List.ne_nil_of_mem hrow)
    (fun row hrow f hf => by
      obtain ⟨z, hz, rfl⟩ := List.mem_map.1 hrow
      exact hc _ (hzip z hz).1 f hf)
    (hconst _ n 1 fun row hrow f => by
      obtain ⟨z, hz, rfl⟩ := List.mem_map.1 hrow
      have := hts _ (hzip z hz).2
      simp [this]) f k 0
  have hrow' : (⟨v, defaultW⟩ : LeafFit.Row) ∈ classRows vals ts k :=
    List.mem_map.2 ⟨(v, k), List.mem_filter.2 ⟨hv, by simp⟩, rfl⟩
  have hR := fit_complete est ignore (C := 1) (R := 1) hF (List.ne_nil_of_mem hrow')
    (fun row hrow f hf => by
      obtain ⟨z, hz, rfl⟩ := List.mem_map.1 hrow
      exact hc _ (hzip z (List.mem_filter.1 hz).1).1 f hf)
    (hconst _ 1 1 fun row hrow f => by
      obtain ⟨z, hz, rfl⟩ := List.mem_map.1 hrow
      simp [defaultW]) f 0 0
  have hFr : (1 / (F : ℝ)) ≠ 0 := by
    have : (F : ℝ) ≠ 0 := by exact_mod_cast hF.ne'
    positivity
  unfold fitCell
  rw [hL, hR]
  congr 1
  rw [← he, active_scale _ hFr, cell_eq]
  intro z hz
  obtain ⟨y, hy, rfl⟩ := List.mem_map.1 hz
  obtain ⟨row, hrow, rfl⟩ := List.mem_map.1 hy
  obtain ⟨u, hu, rfl⟩ := List.mem_map.1 hrow
  refine ⟨?_, u.1, (hzip u hu).1, rfl⟩
  dsimp only
  split_ifs <;> positivity

/-- Fitting with class labels is, for class `k`, fitting on the rows of class `k` alone. -/
theorem fit_is_per_class {β : Type} {est : List (ℝ × ℝ) → β} (he : IgnoresZero est) (ignore : Bool) {F n : ℕ} (hF : 0 < F)
    {vals : List (ℕ → Option ℝ)} {ts : List ℕ} (hlen : ts.length = vals.length) (hc : Complete F vals)
    (hts : ∀ t ∈ ts, t < n) {k : ℕ} (hk : k ∈ ts) (f : ℕ) :
    fitCell est ignore F n vals ts f k = fit est ignore F 1 1 (classRows vals ts k) f 0 0 :=
  fit_is_per_class_on ignore hF hlen hc hts hk f fun l _ => he l

/-- C60, fitting: after `maximum_likelihood_estimation(data, targets)` on complete data, the parameters of every class that
occurs are exactly those obtained by fitting the same leaf on the rows of that class alone (with C48/C58: its maximum
likelihood estimates) - whatever the other rows are, for both settings of `bias_correction`.
Proved for Bernoulli, Categorical, Binomial, Geometric, NegativeBinomial, Poisson, Exponential, Normal and LogNormal
leaves.  Missing: Laplace, where it is false (`C60_laplace_mixes_classes`); data with NaN. -/
theorem C60_fit_per_class_partial (ignore bias : Bool) {F n : ℕ} (hF : 0 < F) {vals : List (ℕ → Option ℝ)} {ts : List ℕ}
    (hlen : ts.length = vals.length) (hc : Complete F vals) (hts : ∀ t ∈ ts, t < n) {k : ℕ} (hk : k ∈ ts) (f K : ℕ) :
    fitCell bernoulliEst ignore F n vals ts f k = fit bernoulliEst ignore F 1 1 (classRows vals ts k) f 0 0 ∧
    fitCell (categoricalEst K) ignore F n vals ts f k = fit (categoricalEst K) ignore F 1 1 (classRows vals ts k) f 0 0 ∧
    fitCell (binomialEst K) ignore F n vals ts f k = fit (binomialEst K) ignore F 1 1 (classRows vals ts k) f 0 0 ∧
    fitCell (geometricEst bias) ignore F n vals ts f k = fit (geometricEst bias) ignore F 1 1 (classRows vals ts k) f 0 0 ∧
    fitCell (negBinomialEst K bias) ignore F n vals ts f k =
      fit (negBinomialEst K bias) ignore F 1 1 (classRows vals ts k) f 0 0 ∧
    fitCell poissonEst ignore F n vals ts f k = fit poissonEst ignore F 1 1 (classRows vals ts k) f 0 0 ∧
    fitCell (exponentialEst bias) ignore F n vals ts f k =
      fit (exponentialEst bias) ignore F 1 1 (classRows vals ts k) f 0 0 ∧
    fitCell (normalEst bias) ignore F n vals ts f k = fit (normalEst bias) ignore F 1 1 (classRows vals ts k) f 0 0 ∧
    fitCell (logNormalEst bias) ignore F n vals ts f k =
      fit (logNormalEst bias) ignore F 1 1 (classRows vals ts k) f 0 0 :=
  ⟨fit_is_per_class bernoulli_iz ignore hF hlen hc hts hk f, fit_is_per_class (categorical_iz K) ignore hF hlen hc hts hk f,
    fit_is_per_class (binomial_iz K) ignore hF hlen hc hts hk f, fit_is_per_class (geometric_iz bias) ignore hF hlen hc hts hk f,
    fit_is_per_class (negBinomial_iz K bias) ignore hF hlen hc hts hk f, fit_is_per_class poisson_iz ignore hF hlen hc hts hk f,
    fit_is_per_class (exponential_iz bias) ignore hF hlen hc hts hk f, fit_is_per_class (normal_iz bias) ignore hF hlen hc hts hk f,
    fit_is_per_class (logNormal_iz bias) ignore hF hlen hc hts hk f⟩

/-- The data of the Laplace witness: class 0 has the value 0, class 1 the values 10 and 11. -/
def lapVals : List (ℕ → Option ℝ) := [fun _ => some 0, fun _ => some 10, fun _ => some 11]

/-- A Laplace leaf estimates the location of *every* class by the median of *all* rows: with class 0 = {0} and
class 1 = {10, 11} the location of class 0 becomes 10 (the median of 0, 10, 11), although fitting class 0 alone gives 0. -/
theorem C60_laplace_mixes_classes :
    (∀ m, IsMedian (cell 0 0 0 (oneHotRows lapVals [0, 1, 1])) m → m = 10) ∧
      IsMedian (cell 0 0 0 (oneHotRows lapVals [0, 1, 1])) 10 ∧
      IsMedian (cell 0 0 0 (classRows lapVals [0, 1, 1] 0)) 0 := by
  have e : cell 0 0 0 (oneHotRows lapVals [0, 1, 1]) = [(0, 1), (10, 0), (11, 0)] := by
    simp [cell, oneHotRows, lapVals]
  have e' : cell 0 0 0 (classRows lapVals [0, 1, 1] 0) = [(0, 1)] := by
    simp [cell, classRows, lapVals, defaultW]
  rw [e, e']
  refine ⟨fun m h => ?_, ?_, ?_⟩
  · obtain ⟨h1, h2⟩ := h
    simp only [List.filter_cons, List.filter_nil] at h1 h2
    by_cases a : m ≤ 10
    · by_contra hne
      have hlt : m < 10 := lt_of_le_of_ne a hne
      have b1 : ¬ (10 ≤ m) := not_le.2 hlt
      have b2 : ¬ (11 ≤ m) := by linarith
      by_cases c : 0 ≤ m <;> simp [b1, b2, c] at h2
    · have a' := not_le.1 a
      have c : (0:ℝ) < m := by linarith
      simp only [a', c, decide_true, if_true] at h1
      split_ifs at h1 <;> simp at h1
  · constructor <;> norm_num [List.filter_cons]
  · constructor <;> norm_num [List.filter_cons]

/-! ## The fitted prior -/

theorem sum_counts {n : ℕ} : ∀ {ts : List ℕ}, (∀ t ∈ ts, t < n) → ∑ k ∈ Finset.range n, classCount ts k = ts.length := by
  intro ts
  induction ts with
  | nil => intro _; simp [classCount]
  | cons t ts ih =>
    intro h
    have := ih fun s hs => h s (by simp [hs])
    unfold classCount at *
    simp only [List.count_cons, Finset.sum_add_distrib, this, List.length_cons]
    simp [h t (by simp)]

theorem floatEps_pos : 0 < floatEps := by unfold floatEps; positivity

/-- C60, prior: with a learnable prior and valid labels, the setter accepts the fitted prior, it is what the getter returns,
it sums to one, and it differs from the class frequency N_k / N by less than n·2⁻²³/N.  Without `learnable_prior` the prior stays as it
was. -/
theorem C60_prior {c : Circ} {n : ℕ} (hn : 1 < n) (hF : Circ.F c = 1) (hC : Circ.C c = n) {ts : List ℕ} (hne : ts ≠ [])
    (hts : ∀ t ∈ ts, t < n) (old : ℕ → ℝ) :
    (∃ θ, Circ.mkSum [c] (priorW n (fitPrior true n ts old)) = .ok (.sum c 1 1 θ) ∧
      ∀ k < n, Circ.weight c θ 0 k 0 0 = fitPrior true n ts old k) ∧
    ∑ k ∈ Finset.range n, fitPrior true n ts old k = 1 ∧
    (∀ k < n, |fitPrior true n ts old k - (classCount ts k : ℝ) / ts.length| ≤ n * floatEps / ts.length) ∧
    fitPrior false n ts old = old := by
  have hN : 0 < (ts.length : ℝ) := by exact_mod_cast List.length_pos_of_ne_nil hne
  have hn' : (0 : ℝ) < n := by exact_mod_cast (by omega : 0 < n)
  have hS : ∑ j ∈ Finset.range n, ((classCount ts j : ℝ) + floatEps) = ts.length + n * floatEps := by
    rw [Finset.sum_add_distrib, ← Nat.cast_sum, sum_counts hts]
    simp
  have he := floatEps_pos
  have hSp : 0 < (ts.length : ℝ) + n * floatEps := by positivity
  have hval : ∀ k, fitPrior true n ts old k = ((classCount ts k : ℝ) + floatEps) / (ts.length + n * floatEps) := by
    intro k
    unfold fitPrior empiricalPrior
    rw [if_pos rfl, hS]
  have hpos : ∀ k < n, 0 < fitPrior true n ts old k := fun k _ => by rw [hval]; positivity
  have hsum : ∑ k ∈ Finset.range n, fitPrior true n ts old k = 1 := by
    simp only [hval]
    rw [← Finset.sum_div, hS]
    exact div_self hSp.ne'
  refine ⟨?_, hsum, fun k hk => ?_, rfl⟩
  · obtain ⟨θ, h1, -, h2⟩ := mkSum_single hF hC hpos hsum
    exact ⟨θ, h1, h2⟩
  · have hle : (classCount ts k : ℝ) ≤ ts.length := by
      exact_mod_cast List.count_le_length
    have hnn : (0 : ℝ) ≤ classCount ts k := Nat.cast_nonneg _
    rw [hval, div_sub_div _ _ hSp.ne' hN.ne', abs_div, abs_of_pos (mul_pos hSp hN), div_le_div_iff₀ (mul_pos hSp hN) hN]
    have e : (classCount ts k + floatEps) * (ts.length : ℝ) - (ts.length + n * floatEps) * classCount ts k =
        floatEps * (ts.length - n * classCount ts k) := by ring
    rw [e, abs_mul, abs_of_pos he]
    have hab : |(ts.length : ℝ) - n * classCount ts k| ≤ n * ts.length := by
      rw [abs_le]
      have h1n : (1 : ℝ) ≤ n := by exact_mod_cast (by omega : 1 ≤ n)
      constructor <;> nlinarith
    nlinarith [mul_le_mul_of_nonneg_left hab he.le, mul_pos (mul_pos hn' he) (mul_pos hn' he), mul_pos (mul_pos hn' he) hN, mul_pos hN hN,
      mul_nonneg (mul_pos (mul_pos hn' he) (mul_pos hn' he)).le hN.le]

/-- Which targets are accepted. -/
theorem C60_targets_iff (n b : ℕ) (ts : List ℤ) :
    (∃ r, validTargets n b ts = .ok r) ↔ ts.length = b ∧ ∀ t ∈ ts, 0 ≤ t ∧ t < n := by
  unfold validTargets
  by_cases h1 : ts.length ≠ b
  · rw [if_pos h1]; exact ⟨fun ⟨_, h⟩ => (by cases h), fun h => absurd h.1 h1⟩
  rw [if_neg h1]
  by_cases h2 : ts.any (fun t => decide (t < 0) || decide ((n : ℤ) ≤ t)) = true
  · rw [if_pos h2]
    refine ⟨fun ⟨_, h⟩ => (by cases h), fun h => ?_⟩
    obtain ⟨t, ht, hh⟩ := List.any_eq_true.1 h2
    have := h.2 t ht
    simp only [Bool.or_eq_true, decide_eq_true_eq] at hh
    omega
  · rw [if_neg h2]
    refine ⟨fun _ => ⟨not_not.1 h1, fun t ht => ?_⟩, fun _ => ⟨_, rfl⟩⟩
    by_contra hcon
    refine h2 (List.any_eq_true.2 ⟨t, ht, ?_⟩)
    simp only [Bool.or_eq_true, decide_eq_true_eq]
    omega

/-! ### Witness: two leaves, three binary variables, two classes, prior 1 : 3. -/

/-- Bernoulli leaves over {0, 1} and {2}: class 0 has p = 1/4, class 1 has p = 3/4. -/
noncomputable def exLeaves : List Leaf :=
  [⟨[0, 1], 2, 1, fun _ k _ => Leaves.bernoulliLL (if k = 0 then 1/4 else 3/4)⟩,
   ⟨[2], 2, 1, fun _ k _ => Leaves.bernoulliLL (if k = 0 then 1/4 else 3/4)⟩]

theorem exLeaves_built : ∀ l ∈ exLeaves, l.Built := by
  intro l hl
  have hl' : l ∈ [_, _] := hl
  rcases List.mem_pair.1 hl' with rfl | rfl <;> exact ⟨by decide, by decide⟩

theorem exLeaves_dens : ∀ l ∈ exLeaves, Build.DensOk (fun _ => Leaves.countBelow 2) l.q l.d := by
  have key : ∀ k : ℕ, Measurable (fun t => expL (Leaves.bernoulliLL (if k = 0 then 1/4 else 3/4) t)) ∧
      ∫⁻ t, ENNReal.ofReal (expL (Leaves.bernoulliLL (if k = 0 then 1/4 else 3/4) t)) ∂Leaves.countBelow 2 = 1 := fun k =>
    ⟨Leaves.bernoulli_measurable _, Leaves.bernoulli_normalised (by split_ifs <;> norm_num) (by split_ifs <;> norm_num)⟩
  intro l hl
  have hl' : l ∈ [_, _] := hl
  rcases List.mem_pair.1 hl' with rfl | rfl <;> exact fun i hi ch r => key ch

/-- The hypotheses of `C60_density` are met, and its conclusion gives a number. -/
example : ∃ net, build exLeaves 2 (some [some 1, some 3]) true = .ok net ∧
    Circ.likelihood net.root (fun v => if v = 0 then some 1 else none) = 1/4 * (1/4) + 3/4 * (3/4) := by
  obtain ⟨net, h⟩ := (C60_accepts_iff exLeaves_built 2 (some [some 1, some 3]) true).2
    ⟨by norm_num, by simp [exLeaves], (by
      intro l hl
      have hl' : l ∈ [_, _] := hl
      rcases List.mem_pair.1 hl' with rfl | rfl <;> exact ⟨rfl, rfl⟩),
     (by simp [exLeaves, Apart]), by norm_num, fun _ ps h => by
      cases h
      exact ⟨rfl, by
        intro p hp
        rcases List.mem_pair.1 hp with rfl | rfl
        · exact ⟨1, by norm_num, rfl⟩
        · exact ⟨3, by norm_num, rfl⟩⟩⟩
  refine ⟨net, h, ?_⟩
  obtain ⟨hn, -, -, -, -, -, hl⟩ := C60_density (μ := fun _ => Leaves.countBelow 2) exLeaves_built exLeaves_dens h
  have hn2 : net.n = 2 := by omega
  have e4 : expL (logL (1/4)) = 1/4 := expL_logL (by norm_num)
  have e34 : expL (logL (3/4)) = 3/4 := expL_logL (by norm_num)
  rw [hl, if_neg (by norm_num), hn2, Finset.sum_range_succ, Finset.sum_range_one]
  have hcd : ∀ (x : Row) (k : ℕ), classDensity exLeaves x k =
      expL (Circ.cellVal (Leaves.bernoulliLL (if k = 0 then 1/4 else 3/4)) (x 0)) *
        expL (Circ.cellVal (Leaves.bernoulliLL (if k = 0 then 1/4 else 3/4)) (x 1)) *
        expL (Circ.cellVal (Leaves.bernoulliLL (if k = 0 then 1/4 else 3/4)) (x 2)) := by
    intro x k
    show (∏ i : Fin 2, _) * ((∏ i : Fin 1, _) * 1) = _
    rw [Fin.prod_univ_two, Fin.prod_univ_one, mul_one]
    rfl
  rw [hcd, hcd]
  norm_num [priorOf, Circ.cellVal, Leaves.bernoulliLL, e4, e34]

/-- The hypotheses of `C60_fit_per_class_partial` are met by five rows of two features, three of class 1. -/
example : Complete 2 [fun f => some (f : ℝ), fun _ => some 1, fun _ => some 0, fun f => some (1 - f : ℝ), fun _ => some 1] ∧
    (∀ t ∈ [0, 1, 1, 0, 1], t < 2) ∧ 1 ∈ [0, 1, 1, 0, 1] := by
  refine ⟨?_, by decide, by decide⟩
  intro v hv f _
  simp only [List.mem_cons, List.not_mem_nil, or_false] at hv
  rcases hv with rfl | rfl | rfl | rfl | rfl <;> simp

end Verif.NB

import Verif.LeafFitMore
import Mathlib.Probability.Distributions.Gamma

/-!
# C89: the estimator of the Gamma leaf

spflow/modules/leaves/gamma.py, `Gamma._compute_parameter_estimates`, on top of the preparation in `LeafFit`.  Exact
reals; the IEEE specials that zero denominators and `log` of a non-positive value produce are carried by `Fl`.
-/

namespace Verif
namespace LeafFit

/-- `theta_est`, gamma.py:136-143: weighted mean of `x·ln x` minus mean of `x` times mean of `ln x`. -/
noncomputable def theta (l : List (ℝ × ℝ)) : ℝ :=
  wsum (fun x => Real.log x * x) l / nTot l - wsum id l / nTot l * (wsum Real.log l / nTot l)

/-- gamma.py:147-152 for the concentration: `a - 1/n·(3a - 2/3·a/(1 + a) - 4/5·a/(1 + a)²)`. -/
noncomputable def corrConc (n a : ℝ) : ℝ := a - 1 / n * (3 * a - 2 / 3 * (a / (1 + a)) - 4 / 5 * (a / (1 + a) ^ 2))

/-- gamma.py:153: `b·(n - 1)/n`. -/
noncomputable def corrRate (n b : ℝ) : ℝ := b * ((n - 1) / n)

open Classical in
/-- `_compute_parameter_estimates`, gamma.py:121-159: concentration and rate.  For non-negative weights.
A total weight of zero, or any value `≤ 0` (`log` is `-inf` or NaN there, and it is multiplied by the weight and then by the
value), makes every mean NaN.  `theta = 0` gives two infinities; the bias correction turns the infinite concentration into
NaN (`inf / inf`) and multiplies the infinite rate by the sign of `n - 1`. -/
noncomputable def gammaEst (bias : Bool) (l : List (ℝ × ℝ)) : Fl × Fl :=
  if nTot l = 0 ∨ ∃ z ∈ l, z.1 ≤ 0 then (edgeLb .nan, edgeLb .nan)
  else if theta l = 0 then
    if bias then (edgeLb .nan, edgeLb (if 1 < nTot l then .pinf else if nTot l = 1 then .nan else .ninf))
    else (edgeLb .pinf, edgeLb .pinf)
  else
    let a := wsum id l / nTot l / theta l
    let b := 1 / theta l
    if bias then (edgeLb (.fin (corrConc (nTot l) a)), edgeLb (.fin (corrRate (nTot l) b)))
    else (edgeLb (.fin a), edgeLb (.fin b))

/-! ## Specification -/

/-- Weighted mean of `g`. -/
noncomputable def avg (g : ℝ → ℝ) (l : List (ℝ × ℝ)) : ℝ := wsum g l / nTot l

/-- A valid value of a Gamma parameter: a positive number or `+∞`. -/
def PosFl (v : Fl) : Prop := v = .pinf ∨ ∃ x, v = .fin x ∧ 0 < x

/-- All values positive, and two rows of positive weight differ. -/
structure Spread (l : List (ℝ × ℝ)) : Prop where
  w : ∀ z ∈ l, 0 ≤ z.2
  pos : ∀ z ∈ l, 0 < z.1
  two : ∃ y ∈ l, ∃ z ∈ l, 0 < y.2 ∧ 0 < z.2 ∧ y.1 ≠ z.1

/-! ## Proofs -/

theorem edgeLb_posFl (v : Fl) : PosFl (edgeLb v) := by
  unfold edgeLb PosFl
  cases v with
  | nan => exact .inr ⟨eps, rfl, eps_pos⟩
  | pinf => exact .inl rfl
  | ninf => exact .inr ⟨eps, rfl, eps_pos⟩
  | fin x =>
    dsimp only
    split_ifs with h
    · exact .inr ⟨eps, rfl, eps_pos⟩
    · exact .inr ⟨x, rfl, not_le.1 h⟩

/-- **C89.** Whatever the data, the weights and the bias correction, both parameters are left positive (possibly `+∞`). -/
theorem C89_positive (bias : Bool) (l : List (ℝ × ℝ)) : PosFl (gammaEst bias l).1 ∧ PosFl (gammaEst bias l).2 := by
  unfold gammaEst
  dsimp only
  split_ifs <;> constructor <;> dsimp only <;> apply edgeLb_posFl

theorem Spread.nTot_pos {l : List (ℝ × ℝ)} (h : Spread l) : 0 < nTot l := by
  obtain ⟨y, hy, -, -, h0, -⟩ := h.two
  have h1 := wsum_nonneg (l := l) (g := fun _ => 1) h.w (fun _ _ => zero_le_one)
  rw [wsum_const, one_mul] at h1
  refine lt_of_le_of_ne h1 fun e => ?_
  have h2 := wsum_pos_mem (l := l) (g := fun _ => (1 : ℝ)) h.w (fun _ _ => zero_le_one)
    (by rw [wsum_const, one_mul]; exact e.symm) y hy h0
  exact one_ne_zero h2

theorem Spread.mean_pos {l : List (ℝ × ℝ)} (h : Spread l) : 0 < avg id l := by
  obtain ⟨y, hy, -, -, h0, -⟩ := h.two
  have h1 := wsum_nonneg (l := l) (g := id) h.w (fun z hz => (h.pos z hz).le)
  refine div_pos (lt_of_le_of_ne h1 fun e => ?_) h.nTot_pos
  exact (h.pos y hy).ne' (wsum_pos_mem (l := l) (g := id) h.w (fun z hz => (h.pos z hz).le) e.symm y hy h0)

/-- `n·theta = Σ w (x - m)(ln x - ln m)`. -/
theorem theta_eq {l : List (ℝ × ℝ)} (hn : nTot l ≠ 0) :
    nTot l * theta l = wsum (fun x => (x - avg id l) * (Real.log x - Real.log (avg id l))) l := by
  have e : (fun x => (x - avg id l) * (Real.log x - Real.log (avg id l))) = fun x =>
      (Real.log x * x + (-avg id l) * Real.log x) + ((-Real.log (avg id l)) * id x + avg id l * Real.log (avg id l)) := by
    funext x
    simp only [id]
    ring
  rw [e, wsum_add, wsum_add, wsum_add, wsum_smul, wsum_smul, wsum_const]
  unfold theta avg
  field_simp
  ring

theorem mul_log_sub_nonneg {x m : ℝ} (hx : 0 < x) (hm : 0 < m) : 0 ≤ (x - m) * (Real.log x - Real.log m) := by
  rcases le_total x m with h | h
  · exact mul_nonneg_of_nonpos_of_nonpos (by linarith) (by linarith [Real.log_le_log hx h])
  · exact mul_nonneg (by linarith) (by linarith [Real.log_le_log hm h])

theorem Spread.theta_pos {l : List (ℝ × ℝ)} (h : Spread l) : 0 < theta l := by
  have hn := h.nTot_pos
  have hm := h.mean_pos
  have h1 := theta_eq hn.ne'
  have h2 : ∀ z ∈ l, 0 ≤ (z.1 - avg id l) * (Real.log z.1 - Real.log (avg id l)) := fun z hz =>
    mul_log_sub_nonneg (h.pos z hz) hm
  have h3 := wsum_nonneg (l := l) (g := fun x => (x - avg id l) * (Real.log x - Real.log (avg id l))) h.w h2
  have key : ∀ z ∈ l, 0 < z.2 → wsum (fun x => (x - avg id l) * (Real.log x - Real.log (avg id l))) l = 0 →
      z.1 = avg id l := by
    intro z hz hz0 e
    have := wsum_pos_mem (l := l) (g := fun x => (x - avg id l) * (Real.log x - Real.log (avg id l))) h.w h2 e z hz hz0
    rcases mul_eq_zero.1 this with h | h'
    · linarith
    · exact Real.log_injOn_pos (Set.mem_Ioi.2 (h.pos z hz)) (Set.mem_Ioi.2 hm) (by linarith)
  obtain ⟨y, hy, z, hz, hy0, hz0, hne⟩ := h.two
  have h4 : wsum (fun x => (x - avg id l) * (Real.log x - Real.log (avg id l))) l ≠ 0 := fun e =>
    hne ((key y hy hy0 e).trans (key z hz hz0 e).symm)
  have h5 : 0 < nTot l * theta l := by
    rw [h1]
    exact lt_of_le_of_ne h3 (Ne.symm h4)
  exact pos_of_mul_pos_right h5 hn.le

theorem Spread.est {l : List (ℝ × ℝ)} (h : Spread l) (bias : Bool) : gammaEst bias l =
    if bias then (edgeLb (.fin (corrConc (nTot l) (avg id l / theta l))), edgeLb (.fin (corrRate (nTot l) (1 / theta l))))
    else (.fin (avg id l / theta l), .fin (1 / theta l)) := by
  unfold gammaEst
  rw [if_neg, if_neg h.theta_pos.ne']
  · cases bias
    · simp only [Bool.false_eq_true, if_false]
      rw [edgeLb_pos (one_div_pos.2 h.theta_pos)]
      rw [show wsum id l / nTot l = avg id l from rfl, edgeLb_pos (div_pos h.mean_pos h.theta_pos)]
    · rfl
  · rintro (e | ⟨z, hz, e⟩)
    · exact h.nTot_pos.ne' e
    · exact absurd (h.pos z hz) (not_lt.2 e)

theorem theta_scale {κ : ℝ} (hκ : κ ≠ 0) (l : List (ℝ × ℝ)) : theta (l.map fun z => (z.1, z.2 * κ)) = theta l := by
  unfold theta
  rw [wsum_scale, wsum_scale, wsum_scale, nTot_scale, mul_div_mul_left _ _ hκ, mul_div_mul_left _ _ hκ,
    mul_div_mul_left _ _ hκ]

theorem avg_scale {κ : ℝ} (hκ : κ ≠ 0) (g : ℝ → ℝ) (l : List (ℝ × ℝ)) :
    avg g (l.map fun z => (z.1, z.2 * κ)) = avg g l := by
  unfold avg
  rw [wsum_scale, nTot_scale, mul_div_mul_left _ _ hκ]

theorem Spread.scale {κ : ℝ} (hκ : 0 < κ) {l : List (ℝ × ℝ)} (h : Spread l) :
    Spread (l.map fun z => (z.1, z.2 * κ)) where
  w := by
    intro z hz
    obtain ⟨y, hy, rfl⟩ := List.mem_map.1 hz
    exact mul_nonneg (h.w y hy) hκ.le
  pos := by
    intro z hz
    obtain ⟨y, hy, rfl⟩ := List.mem_map.1 hz
    exact h.pos y hy
  two := by
    obtain ⟨y, hy, z, hz, h1, h2, h3⟩ := h.two
    exact ⟨_, List.mem_map_of_mem hy, _, List.mem_map_of_mem hz, mul_pos h1 hκ, mul_pos h2 hκ, h3⟩

/-- **C89.** Without bias correction, for rows without NaN that are positive and not all equal, the fitted parameters `a`,
`b` are finite, positive, and solve `a/b = mean x` and `1/b = mean (x ln x) - mean x · mean (ln x)`, where the means are
weighted by the user's weights; the numbers of features, channels and repetitions do not matter. -/
theorem C89_moments {ignore : Bool} {F C R : ℕ} {rows : List Row} {f c r : ℕ} (hu : Usable F C R rows f c r)
    (hs : Spread (used F f c r rows)) {p : Fl × Fl} (hp : fit (gammaEst false) ignore F C R rows f c r = .ok p) :
    ∃ a b, p = (.fin a, .fin b) ∧ 0 < a ∧ 0 < b ∧ a / b = avg id (used F f c r rows) ∧
      1 / b = avg (fun x => x * Real.log x) (used F f c r rows) -
        avg id (used F f c r rows) * avg Real.log (used F f c r rows) := by
  obtain ⟨P, hP, rfl⟩ := fit_ok hp
  have hκ := hu.factor
  rw [cell_prepare hP, (hs.scale hκ).est, theta_scale hκ.ne', avg_scale hκ.ne']
  have ht := hs.theta_pos
  refine ⟨_, _, rfl, div_pos hs.mean_pos ht, one_div_pos.2 ht, by field_simp, ?_⟩
  rw [one_div_one_div]
  have : (fun x : ℝ => x * Real.log x) = fun x => Real.log x * x := by
    funext x; ring
  rw [this]
  rfl

/-- **C89.** For the fitted concentration, the fitted rate maximises the weighted likelihood over all positive rates. -/
theorem C89_rate_maximises {ignore : Bool} {F C R : ℕ} {rows : List Row} {f c r : ℕ} (hu : Usable F C R rows f c r)
    (hs : Spread (used F f c r rows)) {p : Fl × Fl} (hp : fit (gammaEst false) ignore F C R rows f c r = .ok p) :
    ∃ a b, p = (.fin a, .fin b) ∧ ∀ b', 0 < b' →
      wlik (used F f c r rows) (ProbabilityTheory.gammaPDFReal a b') ≤
        wlik (used F f c r rows) (ProbabilityTheory.gammaPDFReal a b) := by
  obtain ⟨a, b, e, ha, hb, h1, -⟩ := C89_moments hu hs hp
  refine ⟨a, b, e, fun b' hb' => ?_⟩
  have hpos : ∀ {q : ℝ}, 0 < q → ∀ z ∈ used F f c r rows, 0 ≤ ProbabilityTheory.gammaPDFReal a q z.1 := fun hq z hz =>
    (ProbabilityTheory.gammaPDFReal_pos ha hq (hs.pos z hz)).le
  refine wlik_le (t := fun x => a * Real.log (b' / b) + (-(b' - b)) * id x) hs.w (hpos hb) (hpos hb') ?_ ?_
  · intro z hz _
    have hx := hs.pos z hz
    unfold ProbabilityTheory.gammaPDFReal
    rw [if_pos hx.le, if_pos hx.le]
    apply le_of_eq
    have e1 : Real.exp (a * Real.log (b' / b) + -(b' - b) * id z.1) = b' ^ a / b ^ a * Real.exp (-(b' - b) * z.1) := by
      rw [Real.exp_add, ← Real.div_rpow hb'.le hb.le, Real.rpow_def_of_pos (div_pos hb' hb), mul_comm a]
      rfl
    have e2 : Real.exp (-(b' * z.1)) = Real.exp (-(b * z.1)) * Real.exp (-(b' - b) * z.1) := by
      rw [← Real.exp_add]
      congr 1
      ring
    rw [e1, e2]
    have : b ^ a ≠ 0 := (Real.rpow_pos_of_pos hb a).ne'
    field_simp
  · rw [wsum_add, wsum_const, wsum_smul]
    have hn := hs.nTot_pos
    have hm : wsum id (used F f c r rows) = nTot (used F f c r rows) * (a / b) := by
      rw [h1]
      unfold avg
      field_simp
    rw [hm]
    have h2 : Real.log (b' / b) ≤ b' / b - 1 := Real.log_le_sub_one_of_pos (div_pos hb' hb)
    have h3 : a * Real.log (b' / b) ≤ a * (b' / b - 1) := mul_le_mul_of_nonneg_left h2 ha.le
    have h4 : a * (b' / b - 1) = (b' - b) * (a / b) := by field_simp
    nlinarith

/-- **C89.** With the bias correction the result is the corrected pair `a - (3a - 2/3·a/(1+a) - 4/5·a/(1+a)²)/n`,
`b·(n-1)/n`, with values `≤ 0` replaced by `1e-8`; `n` is the weight of this cell after rescaling. -/
theorem C89_corrected {ignore : Bool} {F C R : ℕ} {rows : List Row} {f c r : ℕ} (hu : Usable F C R rows f c r)
    (hs : Spread (used F f c r rows)) {a b : ℝ}
    (h0 : fit (gammaEst false) ignore F C R rows f c r = .ok (.fin a, .fin b)) {p : Fl × Fl}
    (hp : fit (gammaEst true) ignore F C R rows f c r = .ok p) :
    let n := factor F C R rows * nTot (used F f c r rows)
    p = (edgeLb (.fin (a - (3 * a - 2 / 3 * (a / (1 + a)) - 4 / 5 * (a / (1 + a) ^ 2)) / n)),
      edgeLb (.fin (b * (n - 1) / n))) := by
  intro n
  have hκ := hu.factor
  obtain ⟨P, hP, e⟩ := fit_ok h0
  rw [cell_prepare hP, (hs.scale hκ).est, theta_scale hκ.ne', avg_scale hκ.ne'] at e
  simp only [Bool.false_eq_true, if_false, Prod.mk.injEq, Fl.fin.injEq] at e
  obtain ⟨P', hP', rfl⟩ := fit_ok hp
  rw [cell_prepare hP', (hs.scale hκ).est, theta_scale hκ.ne', avg_scale hκ.ne', nTot_scale, ← e.1, ← e.2]
  simp only [if_true, corrConc, corrRate, n]
  congr 3
  · ring
  · ring

/-- **C89.** With the default weights, a leaf with `F` features, `C` channels and `R` repetitions that is fitted with the
(default) bias correction to at most `F·C·R` complete rows gets the rate `1e-8`, whatever the rows are. -/
theorem C89_rate_collapses {ignore : Bool} {F C R : ℕ} {rows : List Row} {f c r : ℕ} (hu : Usable F C R rows f c r)
    (hdef : Default rows) (hs : Spread (used F f c r rows)) (hN : (used F f c r rows).length ≤ F * C * R) {p : Fl × Fl}
    (hp : fit (gammaEst true) ignore F C R rows f c r = .ok p) : p.2 = .fin eps := by
  have hκ := hu.factor
  obtain ⟨P, hP, rfl⟩ := fit_ok hp
  rw [cell_prepare hP, (hs.scale hκ).est, theta_scale hκ.ne', nTot_scale]
  simp only [if_true]
  apply edgeLb_nonpos
  have hlen : (rows.filter (complete F)).length = (used F f c r rows).length := by simp [used, cell]
  have hone : nTot (used F f c r rows) = (used F f c r rows).length * 1 := nTot_const fun z hz => by
    unfold used cell at hz
    obtain ⟨row, hrow, rfl⟩ := List.mem_map.1 hz
    show row.w f c r = 1
    rw [hdef row (List.mem_filter.1 hrow).1]; rfl
  have hT := totalW_default F C R (rows := rows.filter (complete F)) fun row hrow => hdef row (List.mem_filter.1 hrow).1
  have hn0 := hs.nTot_pos
  rw [hone, mul_one] at hn0
  have hFCR : 0 < F * C * R := lt_of_lt_of_le (by exact_mod_cast hn0) hN
  have hFCR' : (0 : ℝ) < (F * C * R : ℕ) := by exact_mod_cast hFCR
  have hN' : ((used F f c r rows).length : ℝ) ≤ (F * C * R : ℕ) := by exact_mod_cast hN
  have hk : factor F C R rows * nTot (used F f c r rows) = (used F f c r rows).length / (F * C * R : ℕ) := by
    unfold factor
    rw [hT, hlen, hone]
    field_simp
  unfold corrRate
  rw [hk]
  have h1 : ((used F f c r rows).length : ℝ) / (F * C * R : ℕ) ≤ 1 := (div_le_one hFCR').2 hN'
  have h2 : 0 < ((used F f c r rows).length : ℝ) / (F * C * R : ℕ) := div_pos hn0 hFCR'
  exact mul_nonpos_of_nonneg_of_nonpos (one_div_pos.2 hs.theta_pos).le
    (div_nonpos_of_nonpos_of_nonneg (by linarith) h2.le)

/-- **C89.** One complete row with a value `≤ 0` (0 is in the support of torch's Gamma), even one of weight zero, leaves both
parameters at `1e-8`. -/
theorem C89_zero_row {bias ignore : Bool} {F C R : ℕ} {rows : List Row} {f c r : ℕ}
    (hz : ∃ z ∈ used F f c r rows, z.1 ≤ 0) {p : Fl × Fl}
    (hp : fit (gammaEst bias) ignore F C R rows f c r = .ok p) : p = (.fin eps, .fin eps) := by
  obtain ⟨P, hP, rfl⟩ := fit_ok hp
  rw [cell_prepare hP]
  unfold gammaEst
  rw [if_pos]
  · rfl
  · obtain ⟨z, h1, h2⟩ := hz
    exact .inr ⟨_, List.mem_map_of_mem h1, h2⟩

/-- **C89.** Rows that are all equal to one positive value leave an infinite rate, and (with the default bias correction, for
more than one row's worth of weight) the concentration `1e-8`. -/
theorem C89_constant_rows {l : List (ℝ × ℝ)} {x : ℝ} (hx : 0 < x) (hl : ∀ z ∈ l, z.1 = x) (hn : 0 < nTot l) :
    gammaEst false l = (.pinf, .pinf) ∧ (1 < nTot l → gammaEst true l = (.fin eps, .pinf)) := by
  have hc : ∀ g : ℝ → ℝ, wsum g l = g x * nTot l := fun g => by
    rw [← wsum_const]
    exact wsum_congr fun z hz => by rw [hl z hz]
  have ht : theta l = 0 := by
    unfold theta
    rw [hc, hc, hc]
    simp only [id]
    field_simp
    ring
  have h0 : ¬ (nTot l = 0 ∨ ∃ z ∈ l, z.1 ≤ 0) := by
    rintro (e | ⟨z, hz, e⟩)
    · exact hn.ne' e
    · rw [hl z hz] at e
      exact absurd hx (not_lt.2 e)
  unfold gammaEst
  rw [if_neg h0, if_pos ht, if_neg h0, if_pos ht]
  refine ⟨rfl, fun h1 => ?_⟩
  rw [if_pos rfl, if_pos h1]
  rfl

end LeafFit
end Verif

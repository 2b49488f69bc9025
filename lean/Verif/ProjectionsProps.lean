import Verif.Projections
import Mathlib.Tactic.FieldSimp
import Mathlib.Tactic.Linarith
import Mathlib.Tactic.NormNum
/-
C38: parameter projections are mutually inverse.
-/
namespace Verif.Proj

/-- Specification: strictly inside the (given) bounds. -/
def Inside (x : ℝ) (lb ub : Option ℝ) : Prop :=
  (∀ l, lb = some l → l < x) ∧ (∀ u, ub = some u → x < u)

/-- Bounds the functions can be used with: at least one, and `lb < ub` if both. -/
def ValidBounds (lb ub : Option ℝ) : Prop :=
  (lb ≠ none ∨ ub ≠ none) ∧ ∀ l u, lb = some l → ub = some u → l < u

theorem sigmoid_pos (x : ℝ) : 0 < sigmoid x := by
  unfold sigmoid; positivity

theorem sigmoid_lt_one (x : ℝ) : sigmoid x < 1 := by
  unfold sigmoid
  rw [div_lt_one (by positivity)]
  have := Real.exp_pos (-x)
  linarith

/-- **C38.** bounded → real → bounded is the identity strictly inside the bounds, for every
combination of bounds. -/
theorem C38_bounded_roundtrip (x : ℝ) (lb ub : Option ℝ) (hb : ValidBounds lb ub)
    (hx : Inside x lb ub) :
    ∃ y, boundedToReal x lb ub = .ok y ∧ realToBounded y lb ub = .ok x := by
  match lb, ub with
  | some l, some u =>
    have h1 := hx.1 l rfl
    have h2 := hx.2 u rfl
    refine ⟨_, rfl, ?_⟩
    have hp : 0 < (x - l) / (u - x) := div_pos (by linarith) (by linarith)
    simp only [realToBounded, sigmoid, Real.exp_neg, Real.exp_log hp, Except.ok.injEq]
    have h3 : u - x ≠ 0 := by linarith
    have h4 : x - l ≠ 0 := by linarith
    have h5 : u - l ≠ 0 := by linarith
    rw [inv_div]
    have : 1 + (u - x) / (x - l) = (u - l) / (x - l) := by field_simp; ring
    rw [this]
    field_simp
    ring
  | some l, none =>
    have h1 := hx.1 l rfl
    exact ⟨_, rfl, by simp only [realToBounded, Real.exp_log (sub_pos.mpr h1)]; congr 1; ring⟩
  | none, some u =>
    have h2 := hx.2 u rfl
    exact ⟨_, rfl, by simp only [realToBounded, Real.exp_log (sub_pos.mpr h2)]; congr 1; ring⟩
  | none, none => exact absurd hb.1 (by simp)

/-- **C38.** The image of `proj_real_to_bounded` lies strictly inside the bounds. -/
theorem C38_image_inside (x : ℝ) (lb ub : Option ℝ) (hb : ValidBounds lb ub) :
    ∃ y, realToBounded x lb ub = .ok y ∧ Inside y lb ub := by
  match lb, ub with
  | some l, some u =>
    have hlu := hb.2 l u rfl rfl
    refine ⟨_, rfl, ?_, ?_⟩
    · intro l' hl; simp only [Option.some.injEq] at hl; subst hl
      have := mul_pos (sigmoid_pos x) (sub_pos.mpr hlu)
      linarith
    · intro u' hu; simp only [Option.some.injEq] at hu; subst hu
      have := mul_lt_mul_of_pos_right (sigmoid_lt_one x) (sub_pos.mpr hlu)
      linarith
  | some l, none =>
    refine ⟨_, rfl, ?_, by simp⟩
    intro l' hl; simp only [Option.some.injEq] at hl; subst hl
    have := Real.exp_pos x
    linarith
  | none, some u =>
    refine ⟨_, rfl, by simp, ?_⟩
    intro u' hu; simp only [Option.some.injEq] at hu; subst hu
    have := Real.exp_pos x
    linarith
  | none, none => exact absurd hb.1 (by simp)

/-- **C38.** real → bounded → real is the identity on all reals: the two maps are inverse
bijections. -/
theorem C38_real_roundtrip (x : ℝ) (lb ub : Option ℝ) (hb : ValidBounds lb ub) :
    ∃ y, realToBounded x lb ub = .ok y ∧ boundedToReal y lb ub = .ok x := by
  match lb, ub with
  | some l, some u =>
    have hlu := hb.2 l u rfl rfl
    refine ⟨_, rfl, ?_⟩
    simp only [boundedToReal, Except.ok.injEq]
    have hs := sigmoid_pos x
    have hs1 := sigmoid_lt_one x
    have : (sigmoid x * (u - l) + l - l) / (u - (sigmoid x * (u - l) + l)) = Real.exp x := by
      have h1 : u - (sigmoid x * (u - l) + l) = (1 - sigmoid x) * (u - l) := by ring
      rw [h1, add_sub_cancel_right, mul_div_mul_right _ _ (by linarith)]
      unfold sigmoid
      rw [Real.exp_neg]
      have := Real.exp_pos x
      field_simp
      ring
    rw [this, Real.log_exp]
  | some l, none => exact ⟨_, rfl, by simp [boundedToReal, Real.log_exp]⟩
  | none, some u =>
    refine ⟨_, rfl, ?_⟩
    simp only [boundedToReal, Except.ok.injEq]
    rw [show u - (-Real.exp x + u) = Real.exp x by ring, Real.log_exp]
  | none, none => exact absurd hb.1 (by simp)

/-- Without any bound both projections raise TypeError. -/
theorem C38_no_bounds_raises (x : ℝ) :
    realToBounded x none none = .error .typeError ∧ boundedToReal x none none = .error .typeError :=
  ⟨rfl, rfl⟩

/-- **C38.** convex → real → convex is the identity on the whole simplex (zeros included: `-inf`
maps back to zero). -/
theorem C38_convex_roundtrip (n : ℕ) (w : ℕ → ℝ) (h0 : ∀ i < n, 0 ≤ w i)
    (h1 : ∑ i ∈ Finset.range n, w i = 1) (i : ℕ) (hi : i < n) :
    realToConvex n (convexToReal w) i = w i := by
  unfold realToConvex convexToReal
  rw [softmax_eq, expL_logL (h0 i hi)]
  have : ∑ j ∈ Finset.range n, expL (logL (w j)) = 1 := by
    rw [← h1]
    apply Finset.sum_congr rfl
    intro j hj
    exact expL_logL (h0 j (Finset.mem_range.mp hj))
  rw [this, div_one]

/-- **C38.** The image of `proj_real_to_convex` is the open simplex: positive and summing to one. -/
theorem C38_convex_image (n : ℕ) (x : ℕ → ℝ) (hn : 0 < n) :
    (∀ i < n, 0 < realToConvex n (fun i => (x i : LogV)) i) ∧
    ∑ i ∈ Finset.range n, realToConvex n (fun i => (x i : LogV)) i = 1 := by
  constructor
  · intro i hi
    exact softmax_pos hi (by simp)
  · exact sum_softmax ⟨0, hn, by simp⟩

/-- non-vacuity: bounds (0, 3) and the point 1; the simplex point (1/4, 0, 3/4) -/
example : ValidBounds (some 0) (some 3) ∧ Inside (1 : ℝ) (some 0) (some 3) := by
  refine ⟨⟨by simp, ?_⟩, ?_, ?_⟩
  · intro l u h1 h2
    simp only [Option.some.injEq] at h1 h2
    rw [← h1, ← h2]; norm_num
  · intro l h; simp only [Option.some.injEq] at h; rw [← h]; norm_num
  · intro l h; simp only [Option.some.injEq] at h; rw [← h]; norm_num

example : (∀ i < 3, 0 ≤ (fun i => if i = 0 then (1/4 : ℝ) else if i = 1 then 0 else 3/4) i) ∧
    ∑ i ∈ Finset.range 3, (fun i => if i = 0 then (1/4 : ℝ) else if i = 1 then 0 else 3/4) i = 1 := by
  constructor
  · intro i _; dsimp only; split_ifs <;> norm_num
  · simp [Finset.sum_range_succ]; norm_num

end Verif.Proj

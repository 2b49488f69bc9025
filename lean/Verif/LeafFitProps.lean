import Verif.LeafFit
import Mathlib.Analysis.SpecialFunctions.Log.Basic
import Mathlib.Analysis.Real.Pi.Bounds
import Mathlib.Data.Nat.Choose.Basic
import Mathlib.Algebra.BigOperators.Field

/-!
# C48, C58: maximum likelihood estimates

Specification: the weighted likelihood of the complete rows under a density, and the textbook densities.
-/

namespace Verif
namespace LeafFit

/-! ## Specification -/

/-- The weighted likelihood `∏ d(x)^w`. -/
noncomputable def wlik (l : List (ℝ × ℝ)) (d : ℝ → ℝ) : ℝ := (l.map fun z => d z.1 ^ z.2).prod

open Classical in
noncomputable def bernPmf (p x : ℝ) : ℝ := if x = 1 then p else if x = 0 then 1 - p else 0
noncomputable def catPmf (p : ℕ → ℝ) (x : ℝ) : ℝ := p ⌊x⌋₊
noncomputable def binPmf (n : ℕ) (p x : ℝ) : ℝ := (n.choose ⌊x⌋₊ : ℝ) * p ^ ⌊x⌋₊ * (1 - p) ^ (n - ⌊x⌋₊)
noncomputable def geomPmf (p x : ℝ) : ℝ := p * (1 - p) ^ ⌊x⌋₊
/-- torch's convention: `x` successes of probability `p` before the `n`-th failure. -/
noncomputable def negBinPmf (n : ℕ) (p x : ℝ) : ℝ := ((n + ⌊x⌋₊ - 1).choose ⌊x⌋₊ : ℝ) * (1 - p) ^ n * p ^ ⌊x⌋₊
noncomputable def poisPmf (rate x : ℝ) : ℝ := Real.exp (-rate) * rate ^ ⌊x⌋₊ / (Nat.factorial ⌊x⌋₊ : ℝ)
noncomputable def expPdf (rate x : ℝ) : ℝ := rate * Real.exp (-(rate * x))
noncomputable def normPdf (m s x : ℝ) : ℝ := 1 / (s * Real.sqrt (2 * Real.pi)) * Real.exp (-(x - m) ^ 2 / (2 * s ^ 2))
noncomputable def logNormPdf (m s x : ℝ) : ℝ := normPdf m s (Real.log x) / x
noncomputable def lapPdf (m b x : ℝ) : ℝ := 1 / (2 * b) * Real.exp (-|x - m| / b)

/-- The data a user hands in, seen by one cell: the rows without NaN, with the user's weights. -/
def used (F f c r : ℕ) (rows : List Row) : List (ℝ × ℝ) := cell f c r (rows.filter (complete F))

/-! ## Likelihood lemmas -/

theorem wlik_nil (d : ℝ → ℝ) : wlik [] d = 1 := rfl
theorem wlik_cons (z : ℝ × ℝ) (l : List (ℝ × ℝ)) (d : ℝ → ℝ) : wlik (z :: l) d = d z.1 ^ z.2 * wlik l d := rfl
theorem nTot_cons (z : ℝ × ℝ) (l : List (ℝ × ℝ)) : nTot (z :: l) = z.2 + nTot l := rfl
theorem wsum_cons (g : ℝ → ℝ) (z : ℝ × ℝ) (l : List (ℝ × ℝ)) : wsum g (z :: l) = z.2 * g z.1 + wsum g l := rfl

theorem wlik_nonneg {l : List (ℝ × ℝ)} {d : ℝ → ℝ} (h : ∀ z ∈ l, 0 ≤ d z.1) : 0 ≤ wlik l d := by
  induction l with
  | nil => simp [wlik]
  | cons z l ih =>
    rw [wlik_cons]
    exact mul_nonneg (Real.rpow_nonneg (h z (by simp)) _) (ih fun y hy => h y (by simp [hy]))

theorem wsum_nonneg {l : List (ℝ × ℝ)} {g : ℝ → ℝ} (hw : ∀ z ∈ l, 0 ≤ z.2) (h : ∀ z ∈ l, 0 ≤ g z.1) :
    0 ≤ wsum g l := by
  induction l with
  | nil => simp [wsum]
  | cons z l ih =>
    rw [wsum_cons]
    exact add_nonneg (mul_nonneg (hw z (by simp)) (h z (by simp)))
      (ih (fun y hy => hw y (by simp [hy])) fun y hy => h y (by simp [hy]))

theorem nTot_nonneg {l : List (ℝ × ℝ)} (hw : ∀ z ∈ l, 0 ≤ z.2) : 0 ≤ nTot l := by
  induction l with
  | nil => simp [nTot]
  | cons z l ih => rw [nTot_cons]; exact add_nonneg (hw z (by simp)) (ih fun y hy => hw y (by simp [hy]))

theorem wsum_add (g h : ℝ → ℝ) (l : List (ℝ × ℝ)) : wsum (fun x => g x + h x) l = wsum g l + wsum h l := by
  induction l with
  | nil => simp [wsum]
  | cons z l ih => rw [wsum_cons, wsum_cons, wsum_cons, ih]; ring

theorem wsum_smul (a : ℝ) (g : ℝ → ℝ) (l : List (ℝ × ℝ)) : wsum (fun x => a * g x) l = a * wsum g l := by
  induction l with
  | nil => simp [wsum]
  | cons z l ih => rw [wsum_cons, wsum_cons, ih]; ring

theorem wsum_const (a : ℝ) (l : List (ℝ × ℝ)) : wsum (fun _ => a) l = a * nTot l := by
  induction l with
  | nil => simp [wsum, nTot]
  | cons z l ih => rw [wsum_cons, nTot_cons, ih]; ring

theorem wsum_congr {g h : ℝ → ℝ} {l : List (ℝ × ℝ)} (H : ∀ z ∈ l, g z.1 = h z.1) : wsum g l = wsum h l := by
  unfold wsum
  congr 1
  exact List.map_congr_left fun z hz => by rw [H z hz]

theorem wlik_congr {g h : ℝ → ℝ} {l : List (ℝ × ℝ)} (H : ∀ z ∈ l, g z.1 = h z.1) : wlik l g = wlik l h := by
  unfold wlik
  congr 1
  exact List.map_congr_left fun z hz => by rw [H z hz]

/-- If every weighted observation satisfies `q(x) ≤ p(x)·exp(t(x))` then `L(q) ≤ L(p)·exp(Σ w·t)`. -/
theorem wlik_le_exp {l : List (ℝ × ℝ)} {p q t : ℝ → ℝ} (hw : ∀ z ∈ l, 0 ≤ z.2) (hp : ∀ z ∈ l, 0 ≤ p z.1)
    (hq : ∀ z ∈ l, 0 ≤ q z.1) (h : ∀ z ∈ l, 0 < z.2 → q z.1 ≤ p z.1 * Real.exp (t z.1)) :
    wlik l q ≤ wlik l p * Real.exp (wsum t l) := by
  induction l with
  | nil => simp [wlik, wsum]
  | cons z l ih =>
    have ih' := ih (fun y hy => hw y (by simp [hy])) (fun y hy => hp y (by simp [hy]))
      (fun y hy => hq y (by simp [hy])) (fun y hy => h y (by simp [hy]))
    have hz := hw z (by simp)
    have hpz := hp z (by simp)
    have hqz := hq z (by simp)
    have h1 : q z.1 ^ z.2 ≤ p z.1 ^ z.2 * Real.exp (z.2 * t z.1) := by
      rcases hz.eq_or_lt with h0 | h0
      · simp [← h0]
      · have := Real.rpow_le_rpow hqz (h z (by simp) h0) hz
        rwa [Real.mul_rpow hpz (Real.exp_pos _).le, ← Real.exp_mul, mul_comm (t z.1)] at this
    rw [wlik_cons, wlik_cons, wsum_cons, Real.exp_add]
    calc q z.1 ^ z.2 * wlik l q ≤ (p z.1 ^ z.2 * Real.exp (z.2 * t z.1)) * (wlik l p * Real.exp (wsum t l)) := by
          apply mul_le_mul h1 ih' (wlik_nonneg fun y hy => hq y (by simp [hy]))
          exact mul_nonneg (Real.rpow_nonneg hpz _) (Real.exp_pos _).le
      _ = _ := by ring

theorem wlik_le {l : List (ℝ × ℝ)} {p q t : ℝ → ℝ} (hw : ∀ z ∈ l, 0 ≤ z.2) (hp : ∀ z ∈ l, 0 ≤ p z.1)
    (hq : ∀ z ∈ l, 0 ≤ q z.1) (h : ∀ z ∈ l, 0 < z.2 → q z.1 ≤ p z.1 * Real.exp (t z.1)) (ht : wsum t l ≤ 0) :
    wlik l q ≤ wlik l p := by
  refine (wlik_le_exp hw hp hq h).trans ?_
  have := wlik_nonneg hp
  have h1 : Real.exp (wsum t l) ≤ 1 := by rw [Real.exp_le_one_iff]; exact ht
  nlinarith

theorem le_mul_exp_sub_one {p q : ℝ} (hp : 0 < p) : q ≤ p * Real.exp (q / p - 1) := by
  have := Real.add_one_le_exp (q / p - 1)
  have h2 : q = p * (q / p) := by field_simp
  calc q = p * (q / p) := h2
    _ ≤ p * Real.exp (q / p - 1) := by gcongr; linarith

/-! ## Preparation of the data -/

theorem wsum_scale (κ : ℝ) (g : ℝ → ℝ) (l : List (ℝ × ℝ)) :
    wsum g (l.map fun z => (z.1, z.2 * κ)) = κ * wsum g l := by
  induction l with
  | nil => simp [wsum]
  | cons z l ih => rw [List.map_cons, wsum_cons, wsum_cons, ih]; ring

theorem nTot_scale (κ : ℝ) (l : List (ℝ × ℝ)) : nTot (l.map fun z => (z.1, z.2 * κ)) = κ * nTot l := by
  induction l with
  | nil => simp [nTot]
  | cons z l ih => rw [List.map_cons, nTot_cons, nTot_cons, ih]; ring

theorem wlik_scale {κ : ℝ} {d : ℝ → ℝ} {l : List (ℝ × ℝ)} (hd : ∀ z ∈ l, 0 ≤ d z.1) :
    wlik (l.map fun z => (z.1, z.2 * κ)) d = wlik l d ^ κ := by
  induction l with
  | nil => simp [wlik]
  | cons z l ih =>
    rw [List.map_cons, wlik_cons, wlik_cons, ih fun y hy => hd y (by simp [hy]),
      Real.mul_rpow (Real.rpow_nonneg (hd z (by simp)) _) (wlik_nonneg fun y hy => hd y (by simp [hy])),
      ← Real.rpow_mul (hd z (by simp))]

/-- What `prepare` returns: the complete rows with weights multiplied by one common factor. -/
theorem prepare_ok {ignore : Bool} {F C R : ℕ} {rows P : List Row} (h : prepare ignore F C R rows = .ok P) :
    P = rescale F C R (rows.filter (complete F)) := by
  unfold prepare at h
  by_cases h1 : allNan F rows = true
  · simp [h1] at h
  · by_cases h2 : rows.all (complete F) = true
    · simp only [h1, h2] at h
      have : rows.filter (complete F) = rows := List.filter_eq_self.2 fun a ha => List.all_eq_true.1 h2 a ha
      rw [this]
      simpa using h.symm
    · cases ignore
      · simp [h1, h2] at h
      · simp [h1, h2] at h
        exact h.symm

/-- The common factor. -/
noncomputable def factor (F C R : ℕ) (rows : List Row) : ℝ :=
  ((rows.filter (complete F)).length : ℝ) / totalW F C R (rows.filter (complete F))

theorem cell_prepare {ignore : Bool} {F C R : ℕ} {rows P : List Row} (h : prepare ignore F C R rows = .ok P)
    (f c r : ℕ) : cell f c r P = (used F f c r rows).map fun z => (z.1, z.2 * factor F C R rows) := by
  rw [prepare_ok h]
  simp [cell, rescale, used, factor, List.map_map, Function.comp_def]

theorem totalW_pos {F C R : ℕ} {rows : List Row} (hw : ∀ row ∈ rows, ∀ f c r, 0 ≤ row.w f c r) {f c r : ℕ}
    (hf : f < F) (hc : c < C) (hr : r < R) (hpos : 0 < nTot (cell f c r rows)) :
    0 < totalW F C R rows := by
  refine lt_of_lt_of_le hpos ?_
  unfold nTot cell totalW
  rw [List.map_map]
  apply List.sum_le_sum
  intro row hrow
  have h0 := hw row hrow
  calc row.w f c r ≤ ∑ r' ∈ Finset.range R, row.w f c r' :=
        Finset.single_le_sum (f := fun r' => row.w f c r') (fun _ _ => h0 _ _ _) (Finset.mem_range.2 hr)
    _ ≤ ∑ c' ∈ Finset.range C, ∑ r' ∈ Finset.range R, row.w f c' r' :=
        Finset.single_le_sum (f := fun c' => ∑ r' ∈ Finset.range R, row.w f c' r')
          (fun _ _ => Finset.sum_nonneg fun _ _ => h0 _ _ _) (Finset.mem_range.2 hc)
    _ ≤ _ := Finset.single_le_sum (f := fun f' => ∑ c' ∈ Finset.range C, ∑ r' ∈ Finset.range R, row.w f' c' r')
          (fun _ _ => Finset.sum_nonneg fun _ _ => Finset.sum_nonneg fun _ _ => h0 _ _ _) (Finset.mem_range.2 hf)

theorem factor_pos {F C R : ℕ} {rows : List Row} (hw : ∀ row ∈ rows, ∀ f c r, 0 ≤ row.w f c r) {f c r : ℕ}
    (hf : f < F) (hc : c < C) (hr : r < R) (hpos : 0 < nTot (used F f c r rows)) :
    0 < factor F C R rows := by
  have hw' : ∀ row ∈ rows.filter (complete F), ∀ f c r, 0 ≤ row.w f c r :=
    fun row hrow => hw row (List.mem_filter.1 hrow).1
  have h1 := totalW_pos hw' hf hc hr hpos
  have h2 : rows.filter (complete F) ≠ [] := by
    intro h
    unfold used at hpos
    rw [h] at hpos
    simp [cell, nTot] at hpos
  have h3 : 0 < (rows.filter (complete F)).length := List.length_pos_iff.2 h2
  unfold factor
  positivity

theorem fit_ok {β : Type} {est : List (ℝ × ℝ) → β} {ignore : Bool} {F C R : ℕ} {rows : List Row} {f c r : ℕ} {b : β}
    (h : fit est ignore F C R rows f c r = .ok b) :
    ∃ P, prepare ignore F C R rows = .ok P ∧ b = est (cell f c r P) := by
  unfold fit at h
  cases hp : prepare ignore F C R rows with
  | error e => rw [hp] at h; exact absurd h (by simp)
  | ok P => rw [hp] at h; exact ⟨P, rfl, by simpa using h.symm⟩

/-! ## Lifting from the rescaled to the user's weights -/

theorem lift_le {l : List (ℝ × ℝ)} {κ K : ℝ} {p q : ℝ → ℝ} (hκ : 0 < κ) (hK : 0 ≤ K) (hp : ∀ z ∈ l, 0 ≤ p z.1)
    (hq : ∀ z ∈ l, 0 ≤ q z.1)
    (h : wlik (l.map fun z => (z.1, z.2 * κ)) q ≤
      K ^ nTot (l.map fun z => (z.1, z.2 * κ)) * wlik (l.map fun z => (z.1, z.2 * κ)) p) :
    wlik l q ≤ K ^ nTot l * wlik l p := by
  rw [wlik_scale hq, wlik_scale hp, nTot_scale, mul_comm κ, Real.rpow_mul hK,
    ← Real.mul_rpow (Real.rpow_nonneg hK _) (wlik_nonneg hp)] at h
  exact (Real.rpow_le_rpow_iff (wlik_nonneg hq) (mul_nonneg (Real.rpow_nonneg hK _) (wlik_nonneg hp)) hκ).1 h

theorem lift_le1 {l : List (ℝ × ℝ)} {κ : ℝ} {p q : ℝ → ℝ} (hκ : 0 < κ) (hp : ∀ z ∈ l, 0 ≤ p z.1)
    (hq : ∀ z ∈ l, 0 ≤ q z.1)
    (h : wlik (l.map fun z => (z.1, z.2 * κ)) q ≤ wlik (l.map fun z => (z.1, z.2 * κ)) p) :
    wlik l q ≤ wlik l p := by
  have := lift_le (K := 1) hκ zero_le_one hp hq (by simpa using h)
  simpa using this

/-- The situation in which estimation makes sense: non-negative weights, and the complete rows carry positive weight for
this feature, channel and repetition. -/
structure Usable (F C R : ℕ) (rows : List Row) (f c r : ℕ) : Prop where
  w_nonneg : ∀ row ∈ rows, ∀ f c r, 0 ≤ row.w f c r
  f_lt : f < F
  c_lt : c < C
  r_lt : r < R
  pos : 0 < nTot (used F f c r rows)

theorem Usable.factor {F C R : ℕ} {rows : List Row} {f c r : ℕ} (h : Usable F C R rows f c r) :
    0 < factor F C R rows := factor_pos h.w_nonneg h.f_lt h.c_lt h.r_lt h.pos

theorem Usable.used_w {F C R : ℕ} {rows : List Row} {f c r : ℕ} (h : Usable F C R rows f c r) :
    ∀ z ∈ used F f c r rows, 0 ≤ z.2 := by
  intro z hz
  unfold used cell at hz
  obtain ⟨row, hrow, rfl⟩ := List.mem_map.1 hz
  exact h.w_nonneg row (List.mem_filter.1 hrow).1 _ _ _

/-- A fit succeeds exactly when some entry is a number and, unless rows with NaN are to be ignored, none is NaN. -/
theorem C48_raises_iff {β : Type} (est : List (ℝ × ℝ) → β) (ignore : Bool) (F C R : ℕ) (rows : List Row) (f c r : ℕ) :
    (∃ b, fit est ignore F C R rows f c r = .ok b) ↔
      (∃ row ∈ rows, ∃ g < F, row.val g ≠ none) ∧
        (ignore = true ∨ ∀ row ∈ rows, ∀ g < F, row.val g ≠ none) := by
  have hA : allNan F rows = true ↔ ¬ ∃ row ∈ rows, ∃ g < F, row.val g ≠ none := by
    simp [allNan]
  have hB : rows.all (complete F) = true ↔ ∀ row ∈ rows, ∀ g < F, row.val g ≠ none := by
    simp [complete, List.all_eq_true, Option.isSome_iff_ne_none]
  unfold fit prepare
  by_cases h1 : allNan F rows = true
  · have := hA.1 h1
    simp only [h1, if_true]
    constructor
    · rintro ⟨b, hb⟩; cases hb
    · rintro ⟨h, -⟩; exact absurd h this
  · have h1' := not_not.1 (fun hn => h1 (hA.2 hn))
    by_cases h2 : rows.all (complete F) = true
    · have := hB.1 h2
      simp only [h1, h2, if_true]
      exact ⟨fun _ => ⟨h1', .inr this⟩, fun _ => ⟨_, rfl⟩⟩
    · cases ignore
      · simp only [h1, h2]
        constructor
        · rintro ⟨b, hb⟩; simp at hb
        · rintro ⟨-, h | h⟩
          · cases h
          · exact absurd (hB.2 h) h2
      · simp only [h1, h2]
        exact ⟨fun _ => ⟨h1', .inl (by trivial)⟩, fun _ => ⟨_, rfl⟩⟩

/-- Multiplying all weights by a positive number changes nothing. -/
theorem C48_weight_scale_irrelevant {β : Type} (est : List (ℝ × ℝ) → β) (ignore : Bool) (F C R : ℕ) (rows : List Row)
    (f c r : ℕ) {k : ℝ} (hk : k ≠ 0) :
    fit est ignore F C R (rows.map fun row => ⟨row.val, fun f c r => k * row.w f c r⟩) f c r =
      fit est ignore F C R rows f c r := by
  have hT : ∀ rows : List Row, totalW F C R (rows.map fun row => ⟨row.val, fun f c r => k * row.w f c r⟩) =
      k * totalW F C R rows := by
    intro rows
    unfold totalW
    rw [List.map_map, ← List.sum_map_mul_left]
    congr 1
    apply List.map_congr_left
    intro row _
    simp only [Function.comp, Finset.mul_sum]
  have hR : ∀ rows : List Row, rescale F C R (rows.map fun row => ⟨row.val, fun f c r => k * row.w f c r⟩) =
      rescale F C R rows := by
    intro rows
    unfold rescale
    rw [List.map_map, hT]
    apply List.map_congr_left
    intro row _
    simp only [Function.comp, List.length_map, Row.mk.injEq, true_and]
    funext f c r
    rw [mul_div_assoc', mul_div_assoc', show k * row.w f c r * (rows.length : ℝ) = k * (row.w f c r * rows.length) by ring,
      mul_div_mul_left _ _ hk]
  have hF : (rows.map fun row => (⟨row.val, fun f c r => k * row.w f c r⟩ : Row)).filter (complete F) =
      (rows.filter (complete F)).map fun row => ⟨row.val, fun f c r => k * row.w f c r⟩ := by
    rw [List.filter_map]; rfl
  have hA : allNan F (rows.map fun row => (⟨row.val, fun f c r => k * row.w f c r⟩ : Row)) = allNan F rows := by
    unfold allNan; rw [List.all_map]; rfl
  have hB : (rows.map fun row => (⟨row.val, fun f c r => k * row.w f c r⟩ : Row)).all (complete F) =
      rows.all (complete F) := by rw [List.all_map]; rfl
  unfold fit prepare
  rw [hA, hB, hF, hR, hR]

/-! ## Bernoulli -/

theorem fdiv_pos_den {a b : ℝ} (hb : 0 < b) : fdiv a b = .fin (a / b) := by
  unfold fdiv; rw [if_pos hb.ne']

theorem eps_pos : 0 < eps := by unfold eps; norm_num
theorem eps_lt_one : eps < 1 := by unfold eps; norm_num

theorem edgeLb_pos {x : ℝ} (h : 0 < x) : edgeLb (.fin x) = .fin x := by simp [edgeLb, not_le.2 h]
theorem edgeLb_nonpos {x : ℝ} (h : x ≤ 0) : edgeLb (.fin x) = .fin eps := by simp [edgeLb, h]

theorem wsum_pos_mem {g : ℝ → ℝ} {l : List (ℝ × ℝ)} (hw : ∀ z ∈ l, 0 ≤ z.2) (hg : ∀ z ∈ l, 0 ≤ g z.1)
    (h : wsum g l = 0) : ∀ z ∈ l, 0 < z.2 → g z.1 = 0 := by
  induction l with
  | nil => simp
  | cons y l ih =>
    rw [wsum_cons] at h
    have h1 := mul_nonneg (hw y (by simp)) (hg y (by simp))
    have h2 := wsum_nonneg (l := l) (g := g) (fun z hz => hw z (by simp [hz])) (fun z hz => hg z (by simp [hz]))
    intro z hz h0
    rcases List.mem_cons.1 hz with rfl | hz
    · have : z.2 * g z.1 = 0 := by linarith
      rcases mul_eq_zero.1 this with h | h
      · exact absurd h h0.ne'
      · exact h
    · exact ih (fun z hz => hw z (by simp [hz])) (fun z hz => hg z (by simp [hz])) (by linarith) z hz h0

theorem wsum_le {g h : ℝ → ℝ} {l : List (ℝ × ℝ)} (hw : ∀ z ∈ l, 0 ≤ z.2) (hg : ∀ z ∈ l, g z.1 ≤ h z.1) :
    wsum g l ≤ wsum h l := by
  unfold wsum
  apply List.sum_le_sum
  intro z hz
  exact mul_le_mul_of_nonneg_left (hg z hz) (hw z hz)

theorem bern_nonneg {p x : ℝ} (h0 : 0 ≤ p) (h1 : p ≤ 1) : 0 ≤ bernPmf p x := by
  unfold bernPmf; split_ifs <;> linarith

theorem bern_core {l : List (ℝ × ℝ)} (hw : ∀ z ∈ l, 0 ≤ z.2) (hW : 0 < nTot l)
    (hx : ∀ z ∈ l, z.1 = 0 ∨ z.1 = 1) :
    ∃ p, bernoulliEst l = .fin p ∧ 0 < p ∧ p ≤ 1 ∧
      (0 < wsum id l → p = wsum id l / nTot l ∧ ∀ q, 0 ≤ q → q ≤ 1 → wlik l (bernPmf q) ≤ wlik l (bernPmf p)) ∧
      (wsum id l = 0 → p = eps) ∧
      (∀ q, 0 ≤ q → q ≤ 1 → wlik l (bernPmf q) ≤ (1 / (1 - eps)) ^ nTot l * wlik l (bernPmf p)) := by
  have hx0 : ∀ z ∈ l, 0 ≤ id z.1 := fun z hz => by rcases hx z hz with h | h <;> simp [h]
  have hS := wsum_nonneg hw hx0
  have hE : (1 : ℝ) ≤ (1 / (1 - eps)) ^ nTot l := by
    apply Real.one_le_rpow _ hW.le
    rw [le_div_iff₀ (by linarith [eps_lt_one])]; linarith [eps_pos]
  unfold bernoulliEst
  rw [fdiv_pos_den hW]
  rcases hS.eq_or_lt with h0 | h0
  · refine ⟨eps, ?_, eps_pos, eps_lt_one.le, fun h => absurd h0 h.ne, fun _ => rfl, ?_⟩
    · rw [← h0, zero_div, edgeLb_nonpos le_rfl]
    · intro q hq0 hq1
      have hz := wsum_pos_mem hw hx0 h0.symm
      have hA : wlik l (bernPmf q) ≤ wlik l (bernPmf eps) * Real.exp (wsum (fun _ => Real.log (1 / (1 - eps))) l) := by
        refine wlik_le_exp hw (fun z _ => bern_nonneg eps_pos.le eps_lt_one.le) (fun z _ => bern_nonneg hq0 hq1) ?_
        intro z hzl hzw
        have : z.1 = 0 := hz z hzl hzw
        have he : 0 < 1 - eps := by linarith [eps_lt_one]
        simp only [this, bernPmf]
        norm_num
        rw [Real.exp_neg, Real.exp_log he, mul_inv_cancel₀ he.ne']
        linarith
      rw [wsum_const] at hA
      have he : 0 < 1 / (1 - eps) := by have := eps_lt_one; apply div_pos one_pos; linarith
      rw [Real.rpow_def_of_pos he, mul_comm (Real.exp _)]
      exact hA
  · have hle : wsum id l ≤ nTot l := by
      have := wsum_le (g := id) (h := fun _ => 1) hw (fun z hz => by rcases hx z hz with h | h <;> simp [h])
      rwa [wsum_const, one_mul] at this
    set p := wsum id l / nTot l with hp
    have hp0 : 0 < p := div_pos h0 hW
    have hp1 : p ≤ 1 := (div_le_one hW).2 hle
    have hmain : ∀ q, 0 ≤ q → q ≤ 1 → wlik l (bernPmf q) ≤ wlik l (bernPmf p) := by
      intro q hq0 hq1
      have hpW : p * nTot l = wsum id l := by rw [hp]; field_simp
      refine wlik_le (t := fun x => x * (q / p - 1) + (1 - x) * ((1 - q) / (1 - p) - 1)) hw
        (fun z _ => bern_nonneg hp0.le hp1) (fun z _ => bern_nonneg hq0 hq1) ?_ ?_
      · intro z hzl hzw
        rcases hx z hzl with h | h
        · simp only [h, bernPmf]
          norm_num
          rcases hp1.eq_or_lt with h1 | h1
          · -- every weighted value is one
            have h2 : wsum (fun x => 1 - x) l = 0 := by
              have := wsum_add (fun x => 1 - x) id l
              simp only [id, sub_add_cancel, wsum_const, one_mul] at this
              rw [h1, one_mul] at hpW
              simp only [id] at *
              linarith
            have h3 := wsum_pos_mem (g := fun x => 1 - x) hw (fun z hz => by rcases hx z hz with h | h <;> simp [h]) h2 z hzl hzw
            rw [h] at h3
            norm_num at h3
          · have h5 : 0 < 1 - p := by linarith
            linarith [le_mul_exp_sub_one (q := 1 - q) h5]
        · simp only [h, bernPmf]
          norm_num
          exact le_mul_exp_sub_one hp0
      · have e1 : wsum (fun x => x * (q / p - 1) + (1 - x) * ((1 - q) / (1 - p) - 1)) l =
            (q / p - 1) * wsum id l + ((1 - q) / (1 - p) - 1) * (nTot l - wsum id l) := by
          have h1 : (fun x : ℝ => x * (q / p - 1) + (1 - x) * ((1 - q) / (1 - p) - 1)) =
              fun x => (q / p - 1 - ((1 - q) / (1 - p) - 1)) * id x + ((1 - q) / (1 - p) - 1) := by
            funext x; simp only [id]; ring
          rw [h1, wsum_add (fun x => (q / p - 1 - ((1 - q) / (1 - p) - 1)) * id x), wsum_smul, wsum_const]
          ring
        rw [e1, ← hpW]
        rcases hp1.eq_or_lt with h1 | h1
        · rw [h1]; norm_num
          nlinarith
        · have : (1 - p) ≠ 0 := by linarith
          have h2 : (q / p - 1) * (p * nTot l) + ((1 - q) / (1 - p) - 1) * (nTot l - p * nTot l) = 0 := by
            have h3 : nTot l - p * nTot l = (1 - p) * nTot l := by ring
            rw [h3]
            field_simp
            ring
          rw [h2]
    refine ⟨p, edgeLb_pos hp0, hp0, hp1, fun _ => ⟨rfl, hmain⟩, fun h => absurd h h0.ne', fun q hq0 hq1 => ?_⟩
    have := hmain q hq0 hq1
    have hn : 0 ≤ wlik l (bernPmf p) := wlik_nonneg fun z _ => bern_nonneg hp0.le hp1
    nlinarith

/-- **C48, Bernoulli.** For every data set of zeros and ones (rows with NaN ignored or absent) and all non-negative
weights, the fitted parameter lies in `(0, 1]`; when some success carries weight it is the weighted proportion and
maximises the weighted likelihood of the complete rows over all parameters in `[0, 1]`; without successes it is `1e-8`,
and the likelihood is within the factor `(1 - 1e-8)^(-weight)` of the maximum. -/
theorem C48_bernoulli {ignore : Bool} {F C R : ℕ} {rows : List Row} {f c r : ℕ} (hu : Usable F C R rows f c r)
    (hx : ∀ z ∈ used F f c r rows, z.1 = 0 ∨ z.1 = 1) {b : Fl}
    (hb : fit bernoulliEst ignore F C R rows f c r = .ok b) :
    ∃ p, b = .fin p ∧ 0 < p ∧ p ≤ 1 ∧
      (0 < wsum id (used F f c r rows) →
        p = wsum id (used F f c r rows) / nTot (used F f c r rows) ∧
        ∀ q, 0 ≤ q → q ≤ 1 → wlik (used F f c r rows) (bernPmf q) ≤ wlik (used F f c r rows) (bernPmf p)) ∧
      (wsum id (used F f c r rows) = 0 → p = eps) ∧
      (∀ q, 0 ≤ q → q ≤ 1 → wlik (used F f c r rows) (bernPmf q) ≤
        (1 / (1 - eps)) ^ nTot (used F f c r rows) * wlik (used F f c r rows) (bernPmf p)) := by
  obtain ⟨P, hP, rfl⟩ := fit_ok hb
  rw [cell_prepare hP]
  have hκ := hu.factor
  set κ := factor F C R rows with hκdef
  set l := used F f c r rows
  have hw : ∀ z ∈ l.map (fun z => (z.1, z.2 * κ)), 0 ≤ z.2 := by
    intro z hz
    obtain ⟨y, hy, rfl⟩ := List.mem_map.1 hz
    exact mul_nonneg (hu.used_w y hy) hκ.le
  have hx' : ∀ z ∈ l.map (fun z => (z.1, z.2 * κ)), z.1 = 0 ∨ z.1 = 1 := by
    intro z hz
    obtain ⟨y, hy, rfl⟩ := List.mem_map.1 hz
    exact hx y hy
  have hW : 0 < nTot (l.map fun z => (z.1, z.2 * κ)) := by
    rw [nTot_scale]; exact mul_pos hκ hu.pos
  obtain ⟨p, h1, h2, h3, h4, h5, h6⟩ := bern_core hw hW hx'
  rw [wsum_scale, nTot_scale] at h4
  rw [wsum_scale] at h5
  refine ⟨p, h1, h2, h3, fun hs => ?_, fun hs => h5 (by rw [hs, mul_zero]), fun q hq0 hq1 => ?_⟩
  · obtain ⟨e, hm⟩ := h4 (mul_pos hκ hs)
    refine ⟨by rw [e, mul_div_mul_left _ _ hκ.ne'], fun q hq0 hq1 => ?_⟩
    exact lift_le1 hκ (fun z _ => bern_nonneg h2.le h3) (fun z _ => bern_nonneg hq0 hq1) (hm q hq0 hq1)
  · refine lift_le hκ ?_ (fun z _ => bern_nonneg h2.le h3) (fun z _ => bern_nonneg hq0 hq1) (h6 q hq0 hq1)
    exact div_nonneg zero_le_one (by linarith [eps_lt_one])

/-- The rescaled sample of one cell, with everything the core lemmas need. -/
theorem Usable.scaled {F C R : ℕ} {rows : List Row} {f c r : ℕ} (hu : Usable F C R rows f c r) :
    ∃ κ : ℝ, 0 < κ ∧
      (∀ (ignore : Bool) (P : List Row), prepare ignore F C R rows = .ok P →
        cell f c r P = (used F f c r rows).map fun z => (z.1, z.2 * κ)) ∧
      (∀ z ∈ (used F f c r rows).map (fun z => (z.1, z.2 * κ)), 0 ≤ z.2) ∧
      0 < nTot ((used F f c r rows).map fun z => (z.1, z.2 * κ)) ∧
      ∀ D : ℝ → Prop, (∀ z ∈ used F f c r rows, D z.1) →
        ∀ z ∈ (used F f c r rows).map (fun z => (z.1, z.2 * κ)), D z.1 := by
  refine ⟨LeafFit.factor F C R rows, hu.factor, fun _ _ h => cell_prepare h _ _ _, ?_, ?_, ?_⟩
  · intro z hz
    obtain ⟨y, hy, rfl⟩ := List.mem_map.1 hz
    exact mul_nonneg (hu.used_w y hy) hu.factor.le
  · rw [nTot_scale]; exact mul_pos hu.factor hu.pos
  · intro D hD z hz
    obtain ⟨y, hy, rfl⟩ := List.mem_map.1 hz
    exact hD y hy

/-- From a maximiser for the rescaled weights to one for the user's weights. -/
theorem fit_max {β Θ : Type} {est : List (ℝ × ℝ) → β} {ignore : Bool} {F C R : ℕ} {rows : List Row} {f c r : ℕ}
    (hu : Usable F C R rows f c r) {b : β} (hb : fit est ignore F C R rows f c r = .ok b)
    (D : ℝ → Prop) (hD : ∀ z ∈ used F f c r rows, D z.1) (dens : Θ → ℝ → ℝ) (adm : Θ → Prop)
    (hdens : ∀ θ, adm θ → ∀ x, D x → 0 ≤ dens θ x) (Good : List (ℝ × ℝ) → Prop) (Val : β → Θ → Prop)
    (hGood : ∀ κ : ℝ, 0 < κ → Good (used F f c r rows) → Good ((used F f c r rows).map fun z => (z.1, z.2 * κ)))
    (hg : Good (used F f c r rows))
    (core : ∀ l : List (ℝ × ℝ), (∀ z ∈ l, 0 ≤ z.2) → 0 < nTot l → (∀ z ∈ l, D z.1) → Good l →
      ∃ θ, Val (est l) θ ∧ adm θ ∧ ∀ η, adm η → wlik l (dens η) ≤ wlik l (dens θ)) :
    ∃ θ, Val b θ ∧ adm θ ∧
      ∀ η, adm η → wlik (used F f c r rows) (dens η) ≤ wlik (used F f c r rows) (dens θ) := by
  obtain ⟨P, hP, rfl⟩ := fit_ok hb
  obtain ⟨κ, hκ, hc, hw, hW, hmem⟩ := hu.scaled
  rw [hc _ _ hP]
  obtain ⟨θ, h1, h2, h3⟩ := core _ hw hW (hmem D hD) (hGood κ hκ hg)
  exact ⟨θ, h1, h2, fun η hη => lift_le1 hκ (fun z hz => hdens θ h2 _ (hD z hz)) (fun z hz => hdens η hη _ (hD z hz))
    (h3 η hη)⟩

/-! ## Categorical -/

theorem wsum_finset_sum {ι : Type*} (s : Finset ι) (g : ι → ℝ → ℝ) (l : List (ℝ × ℝ)) :
    wsum (fun x => ∑ i ∈ s, g i x) l = ∑ i ∈ s, wsum (g i) l := by
  induction l with
  | nil => simp [wsum]
  | cons z l ih => simp only [wsum_cons, ih, Finset.mul_sum, Finset.sum_add_distrib]

theorem freq_nonneg {l : List (ℝ × ℝ)} (hw : ∀ z ∈ l, 0 ≤ z.2) (k : ℕ) : 0 ≤ freq l k := by
  unfold freq
  apply div_nonneg (wsum_nonneg hw _) (nTot_nonneg hw)
  intro z _; split_ifs <;> norm_num

theorem freq_sum {K : ℕ} {l : List (ℝ × ℝ)} (hW : 0 < nTot l) (hx : ∀ z ∈ l, ∃ k < K, z.1 = (k : ℕ)) :
    ∑ k ∈ Finset.range K, freq l k = 1 := by
  unfold freq
  rw [← Finset.sum_div, ← wsum_finset_sum]
  rw [wsum_congr (h := fun _ => 1), wsum_const, one_mul, div_self hW.ne']
  intro z hz
  obtain ⟨k, hk, e⟩ := hx z hz
  rw [Finset.sum_eq_single_of_mem k (Finset.mem_range.2 hk)]
  · simp [e]
  · intro j _ hj
    rw [if_neg]
    rw [e]
    exact fun h => hj (by exact_mod_cast h.symm)

theorem catEps_pos : 0 < catEps := by unfold catEps; norm_num

/-- The sum of the clamped frequencies. -/
noncomputable def clampSum (K : ℕ) (l : List (ℝ × ℝ)) : ℝ := ∑ j ∈ Finset.range K, max (freq l j) catEps

theorem cat_core {K : ℕ} {l : List (ℝ × ℝ)} (hw : ∀ z ∈ l, 0 ≤ z.2) (hW : 0 < nTot l)
    (hx : ∀ z ∈ l, ∃ k < K, z.1 = (k : ℕ)) :
    (∀ k < K, 0 < categoricalEst K l k) ∧ ∑ k ∈ Finset.range K, categoricalEst K l k = 1 ∧
      1 ≤ clampSum K l ∧ clampSum K l ≤ 1 + K * catEps ∧
      ((∀ k < K, catEps ≤ freq l k) → clampSum K l = 1 ∧ ∀ k < K, categoricalEst K l k = freq l k) ∧
      ∀ q : ℕ → ℝ, (∀ k < K, 0 ≤ q k) → ∑ k ∈ Finset.range K, q k = 1 →
        wlik l (catPmf q) ≤ clampSum K l ^ nTot l * wlik l (catPmf (categoricalEst K l)) := by
  have hfs := freq_sum hW hx
  have hZ1 : 1 ≤ clampSum K l := by
    rw [← hfs]; exact Finset.sum_le_sum fun k _ => le_max_left _ _
  have hZ0 : 0 < clampSum K l := by linarith
  have hZ2 : clampSum K l ≤ 1 + K * catEps := by
    calc clampSum K l ≤ ∑ k ∈ Finset.range K, (freq l k + catEps) := by
          apply Finset.sum_le_sum
          intro k _
          have := freq_nonneg hw k
          have := catEps_pos
          exact max_le (by linarith) (by linarith)
      _ = 1 + K * catEps := by rw [Finset.sum_add_distrib, hfs]; simp
  have hpos : ∀ k, 0 < categoricalEst K l k := by
    intro k
    exact div_pos (lt_of_lt_of_le catEps_pos (le_max_right _ _)) hZ0
  refine ⟨fun k _ => hpos k, ?_, hZ1, hZ2, ?_, ?_⟩
  · unfold categoricalEst
    rw [← Finset.sum_div, div_self]
    exact hZ0.ne'
  · intro h
    have : clampSum K l = 1 := by
      rw [← hfs]
      exact Finset.sum_congr rfl fun k hk => max_eq_left (h k (Finset.mem_range.1 hk))
    refine ⟨this, fun k hk => ?_⟩
    show max (freq l k) catEps / clampSum K l = freq l k
    rw [this, div_one, max_eq_left (h k hk)]
  · intro q hq hqs
    have hxk : ∀ z ∈ l, ⌊z.1⌋₊ < K ∧ z.1 = (⌊z.1⌋₊ : ℕ) := by
      intro z hz
      obtain ⟨k, hk, e⟩ := hx z hz
      rw [e, Nat.floor_natCast]
      exact ⟨hk, rfl⟩
    have hA := wlik_le_exp (l := l) (p := catPmf (categoricalEst K l)) (q := catPmf q)
      (t := fun x => q ⌊x⌋₊ / freq l ⌊x⌋₊ - 1 + Real.log (clampSum K l)) hw (fun z _ => (hpos _).le)
      (fun z hz => hq _ (hxk z hz).1) ?_
    · refine hA.trans ?_
      rw [mul_comm]
      apply mul_le_mul_of_nonneg_right _ (wlik_nonneg fun z _ => (hpos _).le)
      rw [Real.rpow_def_of_pos hZ0]
      apply Real.exp_le_exp.2
      have h1 : (fun x : ℝ => q ⌊x⌋₊ / freq l ⌊x⌋₊ - 1 + Real.log (clampSum K l)) =
          fun x => q ⌊x⌋₊ / freq l ⌊x⌋₊ + (Real.log (clampSum K l) - 1) := by funext x; ring
      rw [h1, wsum_add (fun x => q ⌊x⌋₊ / freq l ⌊x⌋₊), wsum_const]
      have h2 : wsum (fun x => q ⌊x⌋₊ / freq l ⌊x⌋₊) l ≤ nTot l := by
        have h3 : wsum (fun x => q ⌊x⌋₊ / freq l ⌊x⌋₊) l =
            ∑ k ∈ Finset.range K, wsum (fun x => q k / freq l k * (if x = (k : ℝ) then 1 else 0)) l := by
          rw [← wsum_finset_sum]
          apply wsum_congr
          intro z hz
          obtain ⟨hk, e⟩ := hxk z hz
          rw [Finset.sum_eq_single_of_mem _ (Finset.mem_range.2 hk)]
          · rw [if_pos e, mul_one]
          · intro j _ hj
            rw [if_neg, mul_zero]
            rw [e]
            exact fun h => hj (by exact_mod_cast h.symm)
        rw [h3]
        calc _ ≤ ∑ k ∈ Finset.range K, q k * nTot l := by
              apply Finset.sum_le_sum
              intro k hk
              rw [wsum_smul]
              have : wsum (fun x => if x = (k : ℝ) then 1 else 0) l = freq l k * nTot l := by
                unfold freq; field_simp
              rw [this]
              have hqk := hq k (Finset.mem_range.1 hk)
              rcases (freq_nonneg hw k).eq_or_lt with h0 | h0
              · rw [← h0]; simp; positivity
              · apply le_of_eq; field_simp
          _ = nTot l := by rw [← Finset.sum_mul, hqs, one_mul]
      nlinarith
    · intro z hz hzw
      obtain ⟨hk, e⟩ := hxk z hz
      have hf : 0 < freq l ⌊z.1⌋₊ := by
        rcases (freq_nonneg hw ⌊z.1⌋₊).eq_or_lt with h0 | h0
        · exfalso
          unfold freq at h0
          rcases div_eq_zero_iff.1 h0.symm with h | h
          · have := wsum_pos_mem (g := fun x => if x = ((⌊z.1⌋₊ : ℕ) : ℝ) then 1 else 0) hw
              (fun y _ => by split_ifs <;> norm_num) h z hz hzw
            rw [if_pos e] at this
            norm_num at this
          · exact hW.ne' h
        · exact h0
      have h1 := le_mul_exp_sub_one (q := q ⌊z.1⌋₊) hf
      have h2 : freq l ⌊z.1⌋₊ ≤ categoricalEst K l ⌊z.1⌋₊ * clampSum K l := by
        have : categoricalEst K l ⌊z.1⌋₊ * clampSum K l = max (freq l ⌊z.1⌋₊) catEps := by
          show max (freq l ⌊z.1⌋₊) catEps / clampSum K l * clampSum K l = _
          field_simp
        rw [this]; exact le_max_left _ _
      show q ⌊z.1⌋₊ ≤ categoricalEst K l ⌊z.1⌋₊ * Real.exp (q ⌊z.1⌋₊ / freq l ⌊z.1⌋₊ - 1 + Real.log (clampSum K l))
      rw [Real.exp_add, Real.exp_log hZ0]
      have := Real.exp_pos (q ⌊z.1⌋₊ / freq l ⌊z.1⌋₊ - 1)
      nlinarith

theorem freq_scale {κ : ℝ} (hκ : κ ≠ 0) (l : List (ℝ × ℝ)) (k : ℕ) :
    freq (l.map fun z => (z.1, z.2 * κ)) k = freq l k := by
  unfold freq; rw [wsum_scale, nTot_scale, mul_div_mul_left _ _ hκ]

/-- **C48, Categorical.** For all data with values `0 … K-1` and all non-negative weights the fitted probabilities are
positive and sum to one, and the weighted likelihood of the complete rows is within the factor `(1 + K·1e-10)^weight` of
the best achievable by any probability vector; when every category has weighted frequency at least `1e-10` the fitted
probabilities are those frequencies and are an exact maximiser. -/
theorem C48_categorical {ignore : Bool} {F C R K : ℕ} {rows : List Row} {f c r : ℕ} (hu : Usable F C R rows f c r)
    (hx : ∀ z ∈ used F f c r rows, ∃ k < K, z.1 = (k : ℕ)) {b : ℕ → ℝ}
    (hb : fit (categoricalEst K) ignore F C R rows f c r = .ok b) :
    (∀ k < K, 0 < b k) ∧ ∑ k ∈ Finset.range K, b k = 1 ∧
      (∀ q : ℕ → ℝ, (∀ k < K, 0 ≤ q k) → ∑ k ∈ Finset.range K, q k = 1 →
        wlik (used F f c r rows) (catPmf q) ≤
          (1 + K * catEps) ^ nTot (used F f c r rows) * wlik (used F f c r rows) (catPmf b)) ∧
      ((∀ k < K, catEps ≤ freq (used F f c r rows) k) →
        (∀ k < K, b k = freq (used F f c r rows) k) ∧
        ∀ q : ℕ → ℝ, (∀ k < K, 0 ≤ q k) → ∑ k ∈ Finset.range K, q k = 1 →
          wlik (used F f c r rows) (catPmf q) ≤ wlik (used F f c r rows) (catPmf b)) := by
  obtain ⟨P, hP, rfl⟩ := fit_ok hb
  obtain ⟨κ, hκ, hc, hw, hW, hmem⟩ := hu.scaled
  rw [hc _ _ hP]
  obtain ⟨h1, h2, h3, h4, h5, h6⟩ := cat_core (K := K) hw hW (hmem (fun x => ∃ k < K, x = (k : ℕ)) hx)
  have hfl : ∀ z ∈ used F f c r rows, ⌊z.1⌋₊ < K := by
    intro z hz
    obtain ⟨k, hk, e⟩ := hx z hz
    rw [e, Nat.floor_natCast]; exact hk
  refine ⟨h1, h2, fun q hq hqs => ?_, fun hf => ?_⟩
  · refine lift_le hκ (by have := catEps_pos; positivity) (fun z hz => (h1 _ (hfl z hz)).le)
      (fun z hz => hq _ (hfl z hz)) ((h6 q hq hqs).trans ?_)
    apply mul_le_mul_of_nonneg_right _
      (wlik_nonneg (hmem (fun x => 0 ≤ catPmf (categoricalEst K _) x) fun z hz => (h1 _ (hfl z hz)).le))
    exact Real.rpow_le_rpow (by linarith) h4 hW.le
  · obtain ⟨e1, e2⟩ := h5 (fun k hk => by rw [freq_scale hκ.ne']; exact hf k hk)
    refine ⟨fun k hk => by rw [e2 k hk, freq_scale hκ.ne'], fun q hq hqs => ?_⟩
    refine lift_le1 hκ (fun z hz => (h1 _ (hfl z hz)).le) (fun z hz => hq _ (hfl z hz)) ?_
    have := h6 q hq hqs
    rwa [e1, Real.one_rpow, one_mul] at this

end LeafFit
end Verif

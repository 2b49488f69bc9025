import Verif.PwlFit

/-!
# C72: the sampler of a piecewise linear curve
-/

namespace Verif.Pwl

open Finset MeasureTheory

/-- Mass of the first `j` segments. -/
noncomputable def cum (c : Curve) (j : ℕ) : ℝ := ∑ k ∈ range j, trap c.x c.y k

/-- `1 + 1e-10`. -/
noncomputable def big : ℝ := 1 + 1 / 10 ^ 10

theorem big_pos : 0 < big := by unfold big; positivity

namespace Good

variable {c : Curve} (h : Good c)
include h

theorem trap_nonneg {j : ℕ} (hj : j + 1 < c.len) : 0 ≤ trap c.x c.y j := by
  have h1 := h.mono j hj
  have h2 := h.nonneg j (by omega)
  have h3 := h.nonneg (j + 1) hj
  unfold trap
  have := mul_nonneg (sub_nonneg.2 h1.le) (add_nonneg h2 h3)
  linarith

theorem cum_le {i j : ℕ} (hij : i ≤ j) (hj : j < c.len) : cum c i ≤ cum c j := by
  unfold cum
  apply sum_le_sum_of_subset_of_nonneg (range_mono hij)
  intro k hk _
  exact h.trap_nonneg (by have := mem_range.1 hk; omega)

variable (hA : auc c.len c.x c.y = 1)
include hA

omit h in
theorem cdf_eq (j : ℕ) : cdf c j = cum c j / big := by
  unfold cdf cum big
  rw [hA]

omit h in
theorem cum_last : cum c (c.len - 1) = 1 := hA

theorem cdf_le {i j : ℕ} (hij : i ≤ j) (hj : j < c.len) : cdf c i ≤ cdf c j := by
  rw [cdf_eq hA, cdf_eq hA]
  exact div_le_div_of_nonneg_right (h.cum_le hij hj) big_pos.le

omit h in
theorem cdf_zero : cdf c 0 = 0 := by
  rw [cdf_eq hA]; simp [cum]

omit h in
theorem cdf_last : cdf c (c.len - 1) = 1 / big := by rw [cdf_eq hA, cum_last hA]

theorem index_mid {i : ℕ} (hi : i + 1 < c.len) {u : ℝ} (h0 : cdf c i ≤ u) (h1 : u < cdf c (i + 1)) : index c u = i + 1 := by
  classical
  unfold index
  have : (range c.len).filter (fun j => cdf c j ≤ u) = range (i + 1) := by
    ext j
    simp only [mem_filter, mem_range]
    constructor
    · rintro ⟨hj, hx⟩
      by_contra hcon
      have := h.cdf_le hA (i := i + 1) (j := j) (by omega) hj
      linarith
    · intro hj
      exact ⟨by omega, (h.cdf_le hA (i := j) (j := i) (by omega) (by omega)).trans h0⟩
  rw [this, card_range]
  omega

theorem index_last {u : ℝ} (h0 : cdf c (c.len - 1) ≤ u) : index c u = c.len - 1 := by
  classical
  have hl := h.len
  unfold index
  have : (range c.len).filter (fun j => cdf c j ≤ u) = range c.len := by
    rw [filter_eq_self]
    intro j hj
    have := mem_range.1 hj
    exact (h.cdf_le hA (i := j) (j := c.len - 1) (by omega) (by omega)).trans h0
  rw [this, card_range]
  omega

theorem index_cases {u : ℝ} (h0 : 0 ≤ u) :
    ∃ i, i + 1 < c.len ∧ index c u = i + 1 ∧ cdf c i ≤ u ∧ (u < cdf c (i + 1) ∨ i + 2 = c.len) := by
  classical
  have hl := h.len
  rcases le_or_gt (cdf c (c.len - 1)) u with h1 | h1
  · refine ⟨c.len - 2, by omega, by rw [h.index_last hA h1]; omega, ?_, Or.inr (by omega)⟩
    exact (h.cdf_le hA (by omega) (by omega)).trans h1
  · have hex : ∃ b, u < cdf c (b + 1) := ⟨c.len - 2, by rw [show c.len - 2 + 1 = c.len - 1 by omega]; exact h1⟩
    have hlt : Nat.find hex ≤ c.len - 2 :=
      Nat.find_min' hex (m := c.len - 2) (by rw [show c.len - 2 + 1 = c.len - 1 by omega]; exact h1)
    have hlow : cdf c (Nat.find hex) ≤ u := by
      rcases Nat.eq_zero_or_pos (Nat.find hex) with hz | hp
      · rw [hz, cdf_zero hA]; exact h0
      · have := Nat.find_min hex (m := Nat.find hex - 1) (by omega)
        rw [Nat.sub_add_cancel hp] at this
        exact not_lt.1 this
    exact ⟨Nat.find hex, by omega, h.index_mid hA (by omega) hlow (Nat.find_spec hex), hlow, Or.inl (Nat.find_spec hex)⟩

theorem draw_in {u : ℝ} (h1 : u < 1) {i : ℕ} (hi : i + 1 < c.len) (he : index c u = i + 1)
    (hlo : cdf c i ≤ u) (hhi : u < cdf c (i + 1) ∨ i + 2 = c.len) :
    draw c u = c.x i + (c.x (i + 1) - c.x i) * ((u - cdf c i) / (cdf c (i + 1) - cdf c i + 1 / 10 ^ 8)) ∧
      c.x i ≤ draw c u ∧ draw c u < c.x (i + 1) := by
  have hd : draw c u = c.x i + (c.x (i + 1) - c.x i) * ((u - cdf c i) / (cdf c (i + 1) - cdf c i + 1 / 10 ^ 8)) := by
    unfold draw
    simp only [he, Nat.add_sub_cancel]
    ring
  have hm := h.mono i hi
  have hc := h.cdf_le hA (i := i) (j := i + 1) (by omega) hi
  have hden : 0 < cdf c (i + 1) - cdf c i + 1 / 10 ^ 8 := by
    have : (0 : ℝ) < 1 / 10 ^ 8 := by positivity
    linarith
  have hnum : u - cdf c i < cdf c (i + 1) - cdf c i + 1 / 10 ^ 8 := by
    rcases hhi with hhi | hhi
    · have : (0 : ℝ) < 1 / 10 ^ 8 := by positivity
      linarith
    · have e : i + 1 = c.len - 1 := by omega
      rw [e, cdf_last hA]
      have : (1 : ℝ) ≤ 1 / big + 1 / 10 ^ 8 := by
        unfold big
        norm_num
      linarith
  have r0 : 0 ≤ (u - cdf c i) / (cdf c (i + 1) - cdf c i + 1 / 10 ^ 8) := div_nonneg (by linarith) hden.le
  have r1 : (u - cdf c i) / (cdf c (i + 1) - cdf c i + 1 / 10 ^ 8) < 1 := (div_lt_one hden).2 hnum
  refine ⟨hd, ?_, ?_⟩
  · rw [hd]
    have := mul_nonneg (sub_nonneg.2 hm.le) r0
    linarith
  · rw [hd]
    have := mul_lt_mul_of_pos_left r1 (sub_pos.2 hm)
    linarith

/-- The uniform numbers that lead to segment `i`. -/
theorem segment_set {i : ℕ} (hi : i + 1 < c.len) :
    {u : ℝ | u ∈ Set.Ico (0 : ℝ) 1 ∧ draw c u ∈ Set.Ico (c.x i) (c.x (i + 1))}
      = Set.Ico (cdf c i) (if i + 2 = c.len then 1 else cdf c (i + 1)) := by
  have hb1 : cdf c (c.len - 1) ≤ 1 := by
    rw [cdf_last hA]; unfold big; norm_num
  have h0i : 0 ≤ cdf c i := by rw [← cdf_zero hA]; exact h.cdf_le hA (by omega) (by omega)
  ext u
  simp only [Set.mem_ofPred_eq, Set.mem_Ico]
  constructor
  · rintro ⟨⟨h0, h1⟩, hlo, hhi⟩
    obtain ⟨j, hj, he, ha, hb⟩ := h.index_cases hA h0
    obtain ⟨-, d1, d2⟩ := h.draw_in hA h1 hj he ha hb
    have hji : j = i := by
      rcases lt_trichotomy j i with hlt | rfl | hlt
      · have := h.le (i := j + 1) (j := i) (by omega) (by omega); linarith
      · rfl
      · have := h.le (i := i + 1) (j := j) (by omega) (by omega); linarith
    subst hji
    refine ⟨ha, ?_⟩
    split_ifs with hl
    · exact h1
    · exact hb.resolve_right hl
  · rintro ⟨ha, hb⟩
    have h0 : 0 ≤ u := h0i.trans ha
    by_cases hl : i + 2 = c.len
    · rw [if_pos hl] at hb
      refine ⟨⟨h0, hb⟩, ?_⟩
      have he : index c u = i + 1 := by
        rcases le_or_gt (cdf c (c.len - 1)) u with hc | hc
        · rw [h.index_last hA hc]; omega
        · exact h.index_mid hA hi ha (by rwa [show i + 1 = c.len - 1 by omega])
      exact (h.draw_in hA hb hi he ha (Or.inr hl)).2
    · rw [if_neg hl] at hb
      have h1 : u < 1 := hb.trans_le ((h.cdf_le hA (by omega) (by omega)).trans hb1)
      exact ⟨⟨h0, h1⟩, (h.draw_in hA h1 hi (h.index_mid hA hi ha hb) ha (Or.inl hb)).2⟩

theorem cum_le_one {i : ℕ} (hi : i < c.len) : 0 ≤ cum c i ∧ cum c i ≤ 1 := by
  have := h.len
  constructor
  · have := h.cum_le (i := 0) (j := i) (by omega) hi
    simpa [cum] using this
  · have := h.cum_le (i := i) (j := c.len - 1) (by omega) (by omega)
    rwa [cum_last hA] at this

theorem segment_volume {i : ℕ} (hi : i + 1 < c.len) :
    |(volume {u : ℝ | u ∈ Set.Ico (0 : ℝ) 1 ∧ draw c u ∈ Set.Ico (c.x i) (c.x (i + 1))}).toReal - trap c.x c.y i|
      ≤ 1 / 10 ^ 10 := by
  rw [h.segment_set hA hi, Real.volume_Ico]
  obtain ⟨a0, a1⟩ := h.cum_le_one hA (i := i) (by omega)
  obtain ⟨b0, b1⟩ := h.cum_le_one hA hi
  have hs : cum c (i + 1) = cum c i + trap c.x c.y i := by unfold cum; rw [sum_range_succ]
  have ht := h.trap_nonneg hi
  have hb := big_pos
  have hinv : 1 - 1 / 10 ^ 10 ≤ 1 / big ∧ 1 / big ≤ 1 := by unfold big; norm_num
  by_cases hl : i + 2 = c.len
  · have e1 : cum c (i + 1) = 1 := by rw [show i + 1 = c.len - 1 by omega]; exact cum_last hA
    rw [if_pos hl, cdf_eq hA]
    have hle : cum c i / big ≤ 1 := by
      rw [div_le_one hb]
      unfold big
      have : (0 : ℝ) < 1 / 10 ^ 10 := by positivity
      linarith
    rw [ENNReal.toReal_ofReal (by linarith)]
    have e2 : cum c i / big = cum c i * (1 / big) := by ring
    rw [e2, show trap c.x c.y i = 1 - cum c i by linarith]
    rw [abs_le]
    constructor <;> nlinarith
  · rw [if_neg hl, cdf_eq hA, cdf_eq hA]
    have : cum c (i + 1) / big - cum c i / big = trap c.x c.y i * (1 / big) := by rw [hs]; ring
    rw [this, ENNReal.toReal_ofReal (mul_nonneg ht (by positivity))]
    have ht1 : trap c.x c.y i ≤ 1 := by linarith
    rw [abs_le]
    constructor <;> nlinarith

end Good

end Verif.Pwl

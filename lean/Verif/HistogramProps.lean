import Verif.Histogram
import Verif.Leaves
import Mathlib.MeasureTheory.Integral.Lebesgue.Basic
import Mathlib.Tactic.Linarith
import Mathlib.Tactic.Positivity
import Mathlib.Tactic.FieldSimp
import Mathlib.Tactic.NormNum

/-!
# C37: the Histogram density
-/

namespace Verif
namespace Hist
open MeasureTheory

theorem edges_lt {B : ℕ} {e : ℕ → ℝ} (h : EdgesOk B e) {i j : ℕ} (hij : i < j) (hj : j ≤ B) : e i < e j := by
  induction j, hij using Nat.le_induction with
  | base => exact h.2 i (by omega)
  | succ j hj' ih => exact (ih (by omega)).trans (h.2 j (by omega))

theorem edges_le {B : ℕ} {e : ℕ → ℝ} (h : EdgesOk B e) {i j : ℕ} (hij : i ≤ j) (hj : j ≤ B) : e i ≤ e j := by
  rcases hij.eq_or_lt with rfl | h'
  · exact le_rfl
  · exact (edges_lt h h' hj).le

/-- **C37 (bins).** Every value of the support lies in exactly one bin. -/
theorem C37_unique_bin {B : ℕ} {e : ℕ → ℝ} (h : EdgesOk B e) {x : ℝ} (h0 : e 0 ≤ x) (h1 : x < e B) :
    ∃! b, b < B ∧ e b ≤ x ∧ x < e (b + 1) := by
  classical
  have hex : ∃ b, x < e (b + 1) := ⟨B - 1, by rw [Nat.sub_add_cancel h.1]; exact h1⟩
  have hlt : Nat.find hex < B := by
    have := Nat.find_min' hex (m := B - 1) (by rw [Nat.sub_add_cancel h.1]; exact h1)
    have := h.1; omega
  refine ⟨Nat.find hex, ⟨hlt, ?_, Nat.find_spec hex⟩, ?_⟩
  · rcases Nat.eq_zero_or_pos (Nat.find hex) with hz | hp
    · rw [hz]; exact h0
    · have := Nat.find_min hex (m := Nat.find hex - 1) (by omega)
      rw [Nat.sub_add_cancel hp] at this
      exact not_lt.1 this
  · rintro b ⟨hb, hb1, hb2⟩
    refine le_antisymm ?_ (Nat.find_min' hex hb2)
    by_contra hcon
    push Not at hcon
    have := edges_le h (i := Nat.find hex + 1) (j := b) (by omega) (by omega)
    exact absurd (Nat.find_spec hex) (not_lt.2 (this.trans hb1))

theorem binIdx_eq {B : ℕ} {e : ℕ → ℝ} (h : EdgesOk B e) {x : ℝ} {b : ℕ} (hb : b < B) (h0 : e b ≤ x)
    (h1 : x < e (b + 1)) : binIdx B e x = b := by
  have : bucketize B e x = b + 1 := by
    unfold bucketize
    have : (Finset.range (B + 1)).filter (fun i => e i ≤ x) = Finset.range (b + 1) := by
      ext i
      simp only [Finset.mem_filter, Finset.mem_range]
      constructor
      · rintro ⟨hi, hx⟩
        by_contra hcon
        have := edges_le h (i := b + 1) (j := i) (by omega) (by omega)
        linarith
      · intro hi
        exact ⟨by omega, (edges_le h (i := i) (j := b) (by omega) (by omega)).trans h0⟩
    rw [this, Finset.card_range]
  unfold binIdx
  omega

theorem width_pos {B : ℕ} {e : ℕ → ℝ} (h : EdgesOk B e) {b : ℕ} (hb : b < B) : 0 < width e b :=
  sub_pos.2 (h.2 b hb)

theorem width_le_max {B : ℕ} {e : ℕ → ℝ} {b : ℕ} (hb : b < B) : width e b ≤ maxWidth B e := by
  unfold maxWidth
  have h1 : ((width e b : ℝ) : LogV) ≤ (Finset.range B).sup fun b => ((width e b : ℝ) : LogV) :=
    Finset.le_sup (f := fun b => ((width e b : ℝ) : LogV)) (Finset.mem_range.2 hb)
  revert h1
  generalize (Finset.range B).sup (fun b => ((width e b : ℝ) : LogV)) = m
  intro h1
  induction m using WithBot.recBotCoe with
  | bot => simp at h1
  | coe m => simpa [shiftOf] using WithBot.coe_le_coe.1 h1

theorem maxWidth_pos {B : ℕ} {e : ℕ → ℝ} (h : EdgesOk B e) : 0 < maxWidth B e :=
  (width_pos h (b := 0) (by have := h.1; omega)).trans_le (width_le_max (by have := h.1; omega))

theorem expL_logDensity {B : ℕ} {e : ℕ → ℝ} {θ : ℕ → LogV} (h : EdgesOk B e) {b : ℕ} (hb : b < B) :
    expL (logDensity B e θ b) = probs B θ b / width e b := by
  unfold logDensity probs
  rw [expL_add, expL_logSoftmax_eq_softmax, expL_coe, Real.exp_neg, Real.exp_log (width_pos h hb), div_eq_mul_inv]

theorem expL_floor {B : ℕ} {e : ℕ → ℝ} (h : EdgesOk B e) {minProb : ℝ} (hm : 0 ≤ minProb) :
    expL (floor B e minProb) = minProb / maxWidth B e := by
  unfold floor
  rw [expL_add, expL_logL hm, expL_coe, Real.exp_neg, Real.exp_log (maxWidth_pos h), div_eq_mul_inv]

theorem expL_max (a b : LogV) : expL (max a b) = max (expL a) (expL b) := by
  rcases le_total a b with h | h
  · rw [max_eq_right h, max_eq_right ((expL_le_iff _ _).2 h)]
  · rw [max_eq_left h, max_eq_left ((expL_le_iff _ _).2 h)]

/-- The density of bin `b` including the floor. -/
noncomputable def dens (B : ℕ) (e : ℕ → ℝ) (θ : ℕ → LogV) (minProb : ℝ) (b : ℕ) : ℝ :=
  max (probs B θ b / width e b) (minProb / maxWidth B e)

/-- **C37 (density).** A value of bin `b` gets density `p_b / width_b`, or the documented floor if that is larger. -/
theorem C37_density {B : ℕ} {e : ℕ → ℝ} {θ : ℕ → LogV} {minProb : ℝ} (h : EdgesOk B e) (hm : 0 ≤ minProb) {b : ℕ}
    (hb : b < B) {x : ℝ} (h0 : e b ≤ x) (h1 : x < e (b + 1)) :
    expL (logProb B e θ minProb x) = max (probs B θ b / width e b) (minProb / maxWidth B e) := by
  unfold logProb
  rw [if_pos ⟨(edges_le h (Nat.zero_le b) hb.le).trans h0, h1.trans_le (edges_le h hb le_rfl)⟩, binIdx_eq h hb h0 h1,
    expL_max, expL_logDensity h hb, expL_floor h hm]

/-- **C37 (exact density).** With bin probabilities at least `min_prob` the floor is inactive. -/
theorem C37_density_exact {B : ℕ} {e : ℕ → ℝ} {θ : ℕ → LogV} {minProb : ℝ} (h : EdgesOk B e) (hm : 0 ≤ minProb) {b : ℕ}
    (hb : b < B) (hp : minProb ≤ probs B θ b) {x : ℝ} (h0 : e b ≤ x) (h1 : x < e (b + 1)) :
    expL (logProb B e θ minProb x) = probs B θ b / (e (b + 1) - e b) := by
  rw [C37_density h hm hb h0 h1]
  refine max_eq_left ?_
  have := width_pos h hb
  exact (div_le_div_of_nonneg_left hm this (width_le_max hb)).trans (div_le_div_of_nonneg_right hp this.le)

/-- **C37 (support).** Outside `[e 0, e B)` the log-likelihood is `-inf`. -/
theorem C37_outside {B : ℕ} {e : ℕ → ℝ} {θ : ℕ → LogV} {minProb x : ℝ} (h : x < e 0 ∨ e B ≤ x) :
    logProb B e θ minProb x = ⊥ := by
  unfold logProb
  rw [if_neg]
  rintro ⟨h0, h1⟩
  rcases h with h | h
  · exact absurd h (not_lt.2 h0)
  · exact absurd h (not_le.2 h1)

theorem density_eq_sum {B : ℕ} {e : ℕ → ℝ} {θ : ℕ → LogV} {minProb : ℝ} (h : EdgesOk B e) (hm : 0 ≤ minProb) (x : ℝ) :
    expL (logProb B e θ minProb x) =
      ∑ b ∈ Finset.range B, (Set.Ico (e b) (e (b + 1))).indicator (fun _ => dens B e θ minProb b) x := by
  by_cases hx : e 0 ≤ x ∧ x < e B
  · obtain ⟨b, ⟨hb, h0, h1⟩, huniq⟩ := C37_unique_bin h hx.1 hx.2
    rw [C37_density h hm hb h0 h1, Finset.sum_eq_single b]
    · rw [Set.indicator_of_mem (show x ∈ Set.Ico (e b) (e (b+1)) from ⟨h0, h1⟩)]; rfl
    · intro c hc hcb
      refine Set.indicator_of_notMem (fun hmem => hcb (huniq c ⟨Finset.mem_range.1 hc, hmem.1, hmem.2⟩)) _
    · intro hb'; exact absurd (Finset.mem_range.2 hb) hb'
  · have h' : x < e 0 ∨ e B ≤ x := by
      by_contra hcon; push Not at hcon; exact hx ⟨hcon.1, hcon.2⟩
    rw [C37_outside h', expL_bot]
    symm
    refine Finset.sum_eq_zero fun b hb => Set.indicator_of_notMem (fun hmem => ?_) _
    have hb := Finset.mem_range.1 hb
    exact hx ⟨(edges_le h (Nat.zero_le b) hb.le).trans hmem.1, hmem.2.trans_le (edges_le h hb le_rfl)⟩

theorem C37_measurable {B : ℕ} {e : ℕ → ℝ} {θ : ℕ → LogV} {minProb : ℝ} (h : EdgesOk B e) (hm : 0 ≤ minProb) :
    Measurable fun x => expL (logProb B e θ minProb x) := by
  have : (fun x => expL (logProb B e θ minProb x)) = fun x =>
      ∑ b ∈ Finset.range B, (Set.Ico (e b) (e (b + 1))).indicator (fun _ => dens B e θ minProb b) x := by
    funext x; exact density_eq_sum h hm x
  rw [this]
  exact Finset.measurable_sum _ fun b _ => measurable_const.indicator measurableSet_Ico

theorem dens_nonneg {B : ℕ} {e : ℕ → ℝ} {θ : ℕ → LogV} {minProb : ℝ} (h : EdgesOk B e) (hm : 0 ≤ minProb) (b : ℕ) :
    0 ≤ dens B e θ minProb b :=
  le_max_of_le_right (div_nonneg hm (maxWidth_pos h).le)

theorem lintegral_density {B : ℕ} {e : ℕ → ℝ} {θ : ℕ → LogV} {minProb : ℝ} (h : EdgesOk B e) (hm : 0 ≤ minProb) :
    ∫⁻ x, ENNReal.ofReal (expL (logProb B e θ minProb x)) =
      ENNReal.ofReal (∑ b ∈ Finset.range B, dens B e θ minProb b * width e b) := by
  have e1 : ∀ x, ENNReal.ofReal (expL (logProb B e θ minProb x)) =
      ∑ b ∈ Finset.range B, (Set.Ico (e b) (e (b + 1))).indicator (fun _ => ENNReal.ofReal (dens B e θ minProb b)) x := by
    intro x
    rw [density_eq_sum h hm x, ENNReal.ofReal_sum_of_nonneg]
    · refine Finset.sum_congr rfl fun b _ => ?_
      by_cases hx : x ∈ Set.Ico (e b) (e (b + 1))
      · rw [Set.indicator_of_mem hx, Set.indicator_of_mem hx]
      · rw [Set.indicator_of_notMem hx, Set.indicator_of_notMem hx]; simp
    · intro b _
      exact Set.indicator_nonneg (fun _ _ => dens_nonneg h hm b) _
  simp only [e1]
  rw [lintegral_finsetSum _ fun b _ => measurable_const.indicator measurableSet_Ico, ENNReal.ofReal_sum_of_nonneg]
  · refine Finset.sum_congr rfl fun b hb => ?_
    rw [lintegral_indicator measurableSet_Ico, lintegral_const, Measure.restrict_apply_univ, Real.volume_Ico,
      ENNReal.ofReal_mul (dens_nonneg h hm b)]
    rfl
  · intro b hb
    exact mul_nonneg (dens_nonneg h hm b) (width_pos h (Finset.mem_range.1 hb)).le

/-- **C37 (normalisation).** With bin probabilities at least `min_prob` the density integrates to one. -/
theorem C37_normalised {B : ℕ} {e : ℕ → ℝ} {θ : ℕ → LogV} {minProb : ℝ} (h : EdgesOk B e) (hm : 0 ≤ minProb)
    (hθ : ∃ b < B, θ b ≠ ⊥) (hp : ∀ b < B, minProb ≤ probs B θ b) :
    ∫⁻ x, ENNReal.ofReal (expL (logProb B e θ minProb x)) = 1 := by
  rw [lintegral_density h hm]
  have : ∑ b ∈ Finset.range B, dens B e θ minProb b * width e b = 1 := by
    rw [← sum_softmax hθ]
    refine Finset.sum_congr rfl fun b hb => ?_
    have hb := Finset.mem_range.1 hb
    have hw := width_pos h hb
    have : dens B e θ minProb b = probs B θ b / width e b := by
      refine max_eq_left ?_
      exact (div_le_div_of_nonneg_left hm hw (width_le_max hb)).trans (div_le_div_of_nonneg_right (hp b hb) hw.le)
    rw [this]
    exact div_mul_cancel₀ _ hw.ne'
  rw [this]; simp

/-- **C37 (floor).** In general the floor can only add mass, at most `B * min_prob`. -/
theorem C37_mass_bounds {B : ℕ} {e : ℕ → ℝ} {θ : ℕ → LogV} {minProb : ℝ} (h : EdgesOk B e) (hm : 0 ≤ minProb)
    (hθ : ∃ b < B, θ b ≠ ⊥) :
    1 ≤ ∫⁻ x, ENNReal.ofReal (expL (logProb B e θ minProb x)) ∧
      ∫⁻ x, ENNReal.ofReal (expL (logProb B e θ minProb x)) ≤ ENNReal.ofReal (1 + B * minProb) := by
  rw [lintegral_density h hm]
  have h1 : ∑ b ∈ Finset.range B, probs B θ b = 1 := sum_softmax hθ
  constructor
  · rw [ENNReal.one_le_ofReal, ← h1]
    refine Finset.sum_le_sum fun b hb => ?_
    have hw := width_pos h (Finset.mem_range.1 hb)
    calc probs B θ b = probs B θ b / width e b * width e b := (div_mul_cancel₀ _ hw.ne').symm
      _ ≤ _ := mul_le_mul_of_nonneg_right (le_max_left _ _) hw.le
  · refine ENNReal.ofReal_le_ofReal ?_
    calc ∑ b ∈ Finset.range B, dens B e θ minProb b * width e b
        ≤ ∑ b ∈ Finset.range B, (probs B θ b + minProb) := by
          refine Finset.sum_le_sum fun b hb => ?_
          have hb' := Finset.mem_range.1 hb
          have hw := width_pos h hb'
          have hM := maxWidth_pos h
          have hp : 0 ≤ probs B θ b := softmax_nonneg _ _ _
          unfold dens
          rw [max_mul_of_nonneg _ _ hw.le]
          refine max_le ?_ ?_
          · rw [div_mul_cancel₀ _ hw.ne']; linarith
          · have : minProb / maxWidth B e * width e b ≤ minProb := by
              rw [div_mul_eq_mul_div, div_le_iff₀ hM]
              exact mul_le_mul_of_nonneg_left (width_le_max hb') hm
            linarith
      _ = 1 + B * minProb := by rw [Finset.sum_add_distrib, h1]; simp

/-- **C37 (sampling).** A draw from bin `b` lies in bin `b`, and so in the support. -/
theorem C37_sample_in_bin {B : ℕ} {e : ℕ → ℝ} (h : EdgesOk B e) {b : ℕ} (hb : b < B) {u : ℝ} (h0 : 0 ≤ u) (h1 : u < 1) :
    e b ≤ sampleIn e b u ∧ sampleIn e b u < e (b + 1) := by
  have := h.2 b hb
  unfold sampleIn
  constructor <;> nlinarith

/-- **C37 (mode, equal widths).** With bins of equal width the mode has maximal density. -/
theorem C37_mode_optimal_partial {B : ℕ} {e : ℕ → ℝ} {θ : ℕ → LogV} {minProb m : ℝ} (h : EdgesOk B e) (hm : 0 ≤ minProb)
    {w : ℝ} (hw : ∀ b < B, width e b = w) (hmode : IsMode B e θ m) (x : ℝ) :
    logProb B e θ minProb x ≤ logProb B e θ minProb m := by
  rw [← expL_le_iff]
  obtain ⟨b, hb, hmax, rfl⟩ := hmode
  have hbw := h.2 b hb
  rw [C37_density h hm hb (x := midpoint e b) (by unfold midpoint; linarith) (by unfold midpoint; linarith)]
  by_cases hx : e 0 ≤ x ∧ x < e B
  · obtain ⟨c, ⟨hc, h0, h1⟩, -⟩ := C37_unique_bin h hx.1 hx.2
    rw [C37_density h hm hc h0 h1, hw c hc, hw b hb]
    refine max_le_max ?_ le_rfl
    have : 0 < w := hw b hb ▸ width_pos h hb
    exact div_le_div_of_nonneg_right (hmax c hc) this.le
  · have h' : x < e 0 ∨ e B ≤ x := by
      by_contra hcon; push Not at hcon; exact hx ⟨hcon.1, hcon.2⟩
    rw [C37_outside h', expL_bot]
    exact le_max_of_le_right (div_nonneg hm (maxWidth_pos h).le)

/-! ### Unequal widths -/

/-- Edges 0, 1, 11. -/
def exEdges : ℕ → ℝ := fun i => if i = 0 then 0 else if i = 1 then 1 else 11

/-- Probabilities 2/5 and 3/5. -/
noncomputable def exLogits : ℕ → LogV := fun i => logL (if i = 0 then 2 / 5 else 3 / 5)

theorem exEdges_ok : EdgesOk 2 exEdges := by
  refine ⟨by decide, fun b hb => ?_⟩
  interval_cases b <;> norm_num [exEdges]

theorem exProbs (b : ℕ) : probs 2 exLogits b = if b = 0 then 2 / 5 else 3 / 5 := by
  have e1 : ∀ n, expL (exLogits n) = if n = 0 then 2 / 5 else 3 / 5 := by
    intro n; unfold exLogits; split <;> exact expL_logL (by norm_num)
  unfold probs
  rw [softmax_eq]
  simp only [e1]
  norm_num [Finset.sum_range_succ]

/-- **C37 is false of `mode`**: with edges 0, 1, 11 and probabilities 2/5, 3/5 the only mode is 6, with density 3/50,
although the density at 1/2 is 2/5. -/
theorem C37_mode_not_optimal :
    (∀ m, IsMode 2 exEdges exLogits m ↔ m = 6) ∧
      expL (logProb 2 exEdges exLogits (1 / 10 ^ 12) 6) = 3 / 50 ∧
      expL (logProb 2 exEdges exLogits (1 / 10 ^ 12) (1 / 2)) = 2 / 5 := by
  refine ⟨fun m => ⟨?_, ?_⟩, ?_, ?_⟩
  · rintro ⟨b, hb, hmax, rfl⟩
    interval_cases b
    · have := hmax 1 (by decide)
      rw [exProbs, exProbs] at this
      norm_num at this
    · norm_num [midpoint, exEdges]
  · rintro rfl
    refine ⟨1, by decide, fun j hj => ?_, by norm_num [midpoint, exEdges]⟩
    rw [exProbs, exProbs]
    interval_cases j <;> norm_num
  · rw [C37_density_exact exEdges_ok (by norm_num) (b := 1) (by decide) (by rw [exProbs]; norm_num)
      (by norm_num [exEdges]) (by norm_num [exEdges]), exProbs]
    norm_num [exEdges]
  · rw [C37_density_exact exEdges_ok (by norm_num) (b := 0) (by decide) (by rw [exProbs]; norm_num)
      (by norm_num [exEdges]) (by norm_num [exEdges]), exProbs]
    norm_num [exEdges]

/-- **C37 (probs setter).** What the setter stores meets the hypotheses above: all logits are finite and, up to
renormalisation, no bin is below `min_prob / (1 + B min_prob)`. -/
theorem C37_setProbs {B : ℕ} {minProb : ℝ} {v : ℕ → ℝ} {θ : ℕ → LogV} (hm : 0 < minProb) (h : setProbs B minProb v = some θ) :
    (∀ b < B, θ b ≠ ⊥) ∧ ∀ b < B, minProb / (1 + B * minProb) ≤ probs B θ b := by
  unfold setProbs at h
  split at h
  swap
  · simp at h
  rename_i hv
  simp only [Option.some.injEq] at h
  subst h
  set S := max (∑ j ∈ Finset.range B, v j) minProb with hS
  have hS0 : 0 < S := lt_max_of_lt_right hm
  have hpos : ∀ b, 0 < max (v b / S) minProb := fun b => lt_max_of_lt_right hm
  refine ⟨fun b _ => by rw [← expL_pos_iff, expL_logL (hpos b).le]; exact hpos b, fun b hb => ?_⟩
  unfold probs
  rw [softmax_eq, expL_logL (hpos b).le, Finset.sum_congr rfl fun j _ => expL_logL (hpos j).le]
  have hle : ∑ j ∈ Finset.range B, max (v j / S) minProb ≤ 1 + B * minProb := by
    calc ∑ j ∈ Finset.range B, max (v j / S) minProb ≤ ∑ j ∈ Finset.range B, (v j / S + minProb) := by
          refine Finset.sum_le_sum fun j hj => max_le ?_ ?_
          · linarith
          · have := div_nonneg (hv j (Finset.mem_range.1 hj)) hS0.le; linarith
      _ = (∑ j ∈ Finset.range B, v j) / S + B * minProb := by
          rw [Finset.sum_add_distrib, ← Finset.sum_div]; simp
      _ ≤ 1 + B * minProb := by
          have : (∑ j ∈ Finset.range B, v j) / S ≤ 1 := (div_le_one hS0).2 (le_max_left _ _)
          linarith
  have hsum : 0 < ∑ j ∈ Finset.range B, max (v j / S) minProb :=
    Finset.sum_pos (fun j _ => hpos j) ⟨b, Finset.mem_range.2 hb⟩
  exact div_le_div₀ (hpos b).le (le_max_right _ _) hsum hle

/-- Non-vacuity: the example histogram is normalised. -/
example : ∫⁻ x, ENNReal.ofReal (expL (logProb 2 exEdges exLogits (1 / 10 ^ 12) x)) = 1 :=
  C37_normalised exEdges_ok (by norm_num) ⟨0, by decide, by norm_num [exLogits, logL]⟩ fun b hb => by
    rw [exProbs]; split <;> norm_num

end Hist
end Verif

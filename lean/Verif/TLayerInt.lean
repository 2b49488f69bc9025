import Verif.TLayerMain
import Mathlib.MeasureTheory.Integral.Pi
/-
C84: the layers on probabilities, integrals of their outputs, and the relations between the layers.
-/
namespace Verif.TL

open Finset (range)

/-- The entries of an input hold the logarithms of the probabilities `p`. -/
def Holds (x : T3) (F H K : ℕ) (p : ℕ → ℕ → ℕ → ℝ) : Prop :=
  x.a = F ∧ x.b = H ∧ x.c = K ∧ (∀ f h k, 0 ≤ p f h k) ∧ ∀ f < F, ∀ h < H, ∀ k < K, x.v f h k = logOf (p f h k)

theorem Holds.good {x : T3} {F H K : ℕ} {p : ℕ → ℕ → ℕ → ℝ} (hx : Holds x F H K p) {f h : ℕ} (hf : f < F) (hh : h < H) :
    Good K (x.v f h) ↔ ∃ k < K, 0 < p f h k := by
  rw [Good.congr (y := fun k => logOf (p f h k)) fun k hk => hx.2.2.2.2 f hf h hh k hk]
  exact good_logOf fun k _ => hx.2.2.2.1 f h k

theorem Holds.prob {x : T3} {F H K : ℕ} {p : ℕ → ℕ → ℕ → ℝ} (hx : Holds x F H K p) {f h k : ℕ} (hf : f < F) (hh : h < H)
    (hk : k < K) : prob (x.v f h k) = p f h k := by
  rw [hx.2.2.2.2 f hf h hh k hk, prob_logOf (hx.2.2.2.1 f h k)]

theorem zero_of_bad {K : ℕ} {p w : ℕ → ℝ} (hp : ∀ k, 0 ≤ p k) (h : ¬ ∃ k < K, 0 < p k) : ∑ k ∈ range K, w k * p k = 0 := by
  push Not at h
  refine Finset.sum_eq_zero fun k hk => ?_
  rw [le_antisymm (h k (Finset.mem_range.1 hk)) (hp k), mul_zero]

theorem Holds.childSum {x : T3} {F H K : ℕ} {p : ℕ → ℕ → ℕ → ℝ} (hx : Holds x F H K p) {f h : ℕ} (hf : f < F) (hh : h < H)
    (W : ℕ → ℕ → ℕ → ℕ → ℝ) (o : ℕ) : childSum K W x f h o = ∑ k ∈ range K, W f h k o * p f h k :=
  Finset.sum_congr rfl fun k hk => by rw [hx.prob hf hh (Finset.mem_range.1 hk)]

theorem prob_ite {P : Prop} {d : Decidable P} {s : ℝ} (hs : 0 ≤ s) (h : ¬ P → s = 0) :
    prob (@ite _ P d (logOf s) none) = s := by
  by_cases hp : P
  · rw [if_pos hp, prob_logOf hs]
  · rw [if_neg hp, h hp]
    rfl

/-- **C84, probabilities (Tucker).** On logarithms of probabilities, with non-negative weights, the probability of every output
is the bilinear form of the children's probabilities. -/
theorem C84_tucker_prob {F I O : ℕ} (hI : 0 < I) {W : ℕ → ℕ → ℕ → ℕ → ℝ} (hW : ∀ f i j o, 0 ≤ W f i j o) {x : T3} {H : ℕ}
    (hH : 2 ≤ H) {p : ℕ → ℕ → ℕ → ℝ} (hx : Holds x F H I p) : ∃ y, forward (.tucker F I O W) x = .ok y ∧ ∀ f < F, ∀ o,
      prob (y.v f o) = ∑ i ∈ range I, ∑ j ∈ range I, W f i j o * (p f 0 i * p f 1 j) := by
  obtain ⟨y, e, -, -, hy⟩ := C84_tucker (O := O) hI W hx.1 (hx.2.1 ▸ hH) hx.2.2.1
  refine ⟨y, e, fun f hf o => ?_⟩
  have hs : ∑ i ∈ range I, ∑ j ∈ range I, W f i j o * (prob (x.v f 0 i) * prob (x.v f 1 j)) =
      ∑ i ∈ range I, ∑ j ∈ range I, W f i j o * (p f 0 i * p f 1 j) :=
    Finset.sum_congr rfl fun i hi => Finset.sum_congr rfl fun j hj => by
      rw [hx.prob hf (by omega) (Finset.mem_range.1 hi), hx.prob hf (by omega) (Finset.mem_range.1 hj)]
  rw [hy f hf o, hs]
  have hp := hx.2.2.2.1
  refine prob_ite (Finset.sum_nonneg fun i _ => Finset.sum_nonneg fun j _ =>
    mul_nonneg (hW _ _ _ _) (mul_nonneg (hp _ _ _) (hp _ _ _))) fun h => ?_
  rw [hx.good hf (by omega), hx.good hf (by omega)] at h
  refine Finset.sum_eq_zero fun i hi => Finset.sum_eq_zero fun j hj => ?_
  by_contra hne
  refine h ⟨⟨i, Finset.mem_range.1 hi, lt_of_le_of_ne (hp _ _ _) fun e => hne ?_⟩, j, Finset.mem_range.1 hj,
    lt_of_le_of_ne (hp _ _ _) fun e => hne ?_⟩
  · rw [← e]; ring
  · rw [← e]; ring

theorem prod_zero_of_bad {H K : ℕ} {p : ℕ → ℕ → ℕ → ℝ} {f : ℕ} {W : ℕ → ℕ → ℕ → ℕ → ℝ} {o : ℕ} (hp : ∀ f h k, 0 ≤ p f h k)
    {keep : ℕ → Bool} (h : ∃ h < H, keep h = true ∧ ¬ ∃ k < K, 0 < p f h k) :
    ∏ h ∈ range H, (if keep h = true then ∑ k ∈ range K, W f h k o * p f h k else 1) = 0 := by
  obtain ⟨h, hh, hk, hb⟩ := h
  refine Finset.prod_eq_zero (Finset.mem_range.2 hh) ?_
  rw [if_pos hk]
  exact zero_of_bad (hp f h) hb

/-- **C84, probabilities (collapsed CP).** -/
theorem C84_collapsed_prob {F H I O : ℕ} (hI : 0 < I) {mask : Option Mask} (hm : MaskFits mask F H) {W : ℕ → ℕ → ℕ → ℕ → ℝ}
    (hW : ∀ f h k o, 0 ≤ W f h k o) {x : T3} {p : ℕ → ℕ → ℕ → ℝ} (hx : Holds x F H I p) :
    ∃ y, forward (.collapsed F H I O mask W) x = .ok y ∧ ∀ f < F, ∀ o, prob (y.v f o) =
      ∏ h ∈ range H, if kept mask f h = true then ∑ k ∈ range I, W f h k o * p f h k else 1 := by
  obtain ⟨y, e, -, -, hy⟩ := C84_collapsed (O := O) hI mask hm W hx.1 hx.2.1 hx.2.2.1
  refine ⟨y, e, fun f hf o => ?_⟩
  have hp := hx.2.2.2.1
  have hc : ∀ h, 0 ≤ ∑ k ∈ range I, W f h k o * p f h k := fun h =>
    Finset.sum_nonneg fun k _ => mul_nonneg (hW _ _ _ _) (hp _ _ _)
  have hs : ∏ h ∈ range H, (if kept mask f h = true then childSum I W x f h o else 1) =
      ∏ h ∈ range H, if kept mask f h = true then ∑ k ∈ range I, W f h k o * p f h k else 1 :=
    Finset.prod_congr rfl fun h hh => by rw [hx.childSum hf (Finset.mem_range.1 hh)]
  rw [hy f hf o, hs]
  refine prob_ite (Finset.prod_nonneg fun h _ => by split; exacts [hc h, zero_le_one]) fun hn => ?_
  push Not at hn
  obtain ⟨h, hh, hk, hb⟩ := hn
  refine prod_zero_of_bad hp ⟨h, hh, hk, fun hg => ?_⟩
  have := hb ((hx.good hf hh).2 hg)
  rw [hx.childSum hf hh] at this
  exact absurd (hc h) (not_le.2 this)

/-- **C84, probabilities (shared CP).** -/
theorem C84_shared_prob {F F' H I O : ℕ} (hI : 0 < I) {W : ℕ → ℕ → ℕ → ℝ} (hW : ∀ h k o, 0 ≤ W h k o) {x : T3}
    {p : ℕ → ℕ → ℕ → ℝ} (hx : Holds x F H I p) : ∃ y, forward (.shared F' H I O W) x = .ok y ∧ ∀ f < F, ∀ o, prob (y.v f o) =
      ∏ h ∈ range H, ∑ k ∈ range I, W h k o * p f h k := by
  obtain ⟨y, e, -, -, hy⟩ := C84_shared (O := O) (F' := F') hI W hx.1 hx.2.1 hx.2.2.1
  obtain ⟨y', -, -, -, hy'⟩ := C84_collapsed (O := O) hI none (by simp [MaskFits]) (fun _ => W) hx.1 hx.2.1 hx.2.2.1
  obtain ⟨y'', e'', hp⟩ := C84_collapsed_prob (O := O) hI (mask := none) (by simp [MaskFits]) (W := fun _ => W)
    (fun _ => hW) hx
  refine ⟨y, e, fun f hf o => ?_⟩
  obtain ⟨y₁, e₁, -, -, h₁⟩ := C84_collapsed (O := O) hI none (by simp [MaskFits]) (fun _ => W) hx.1 hx.2.1 hx.2.2.1
  rw [e₁] at e''
  obtain rfl := Except.ok.inj e''
  have := hp f hf o
  simp only [kept, if_true] at this
  rw [← this, hy f hf o, h₁ f hf o]
  congr 1
  refine ite_iff ?_ ?_ rfl
  · simp only [kept, forall_true_left]
  · simp only [kept, if_true]

/-- **C84, probabilities (uncollapsed CP, no mask).** -/
theorem C84_uncollapsed_prob {F H I R O : ℕ} (hI : 0 < I) (hR : 0 < R) {Win : ℕ → ℕ → ℕ → ℕ → ℝ} {Wout : ℕ → ℕ → ℕ → ℝ}
    (hW : ∀ f h k r, 0 ≤ Win f h k r) (hW' : ∀ f r o, 0 ≤ Wout f r o) {x : T3} {p : ℕ → ℕ → ℕ → ℝ} (hx : Holds x F H I p) :
    ∃ y, forward (.uncollapsed F H I R O none Win Wout) x = .ok y ∧ ∀ f < F, ∀ o, prob (y.v f o) =
      ∑ r ∈ range R, Wout f r o * ∏ h ∈ range H, ∑ k ∈ range I, Win f h k r * p f h k := by
  obtain ⟨y, e, -, -, hy⟩ := C84_uncollapsed (O := O) hI hR none (by simp [MaskFits]) Win Wout hx.1 hx.2.1 hx.2.2.1
  refine ⟨y, e, fun f hf o => ?_⟩
  have hp := hx.2.2.2.1
  have hc : ∀ h r, 0 ≤ ∑ k ∈ range I, Win f h k r * p f h k := fun h r =>
    Finset.sum_nonneg fun k _ => mul_nonneg (hW _ _ _ _) (hp _ _ _)
  have hs : ∀ r, ∏ h ∈ range H, (if kept none f h = true then childSum I Win x f h r else 1) =
      ∏ h ∈ range H, ∑ k ∈ range I, Win f h k r * p f h k := fun r =>
    Finset.prod_congr rfl fun h hh => by rw [hx.childSum hf (Finset.mem_range.1 hh)]; rfl
  have hP : ∀ r, 0 ≤ ∏ h ∈ range H, ∑ k ∈ range I, Win f h k r * p f h k := fun r => Finset.prod_nonneg fun h _ => hc h r
  rw [hy f hf o]
  simp only [hs]
  refine prob_ite (Finset.sum_nonneg fun r _ => mul_nonneg (hW' _ _ _) (hP r)) fun hn => ?_
  refine Finset.sum_eq_zero fun r hr => ?_
  rw [mul_eq_zero]
  right
  by_contra hne
  have hpos := lt_of_le_of_ne (hP r) (Ne.symm hne)
  refine hn ⟨fun r' _ h hh => ⟨(hx.good hf hh).2 ?_, ?_, fun hk => Bool.noConfusion hk⟩, r, Finset.mem_range.1 hr, by rw [hs r]; exact hpos⟩
  · by_contra hb
    exact hne (Finset.prod_eq_zero (Finset.mem_range.2 hh) (zero_of_bad (hp f h) hb))
  · rw [hx.childSum hf hh]
    exact hc h r'

/-- **C84, probabilities (mixing).** -/
theorem C84_mixing_prob {F H K : ℕ} (hH : 0 < H) {mask : Option Mask} (hm : MaskFits mask F H) {W : ℕ → ℕ → ℕ → ℝ}
    (hW : ∀ f h k, 0 ≤ W f h k) {x : T3} {p : ℕ → ℕ → ℕ → ℝ} (hx : Holds x F H K p) :
    ∃ y, forward (.mixing F H K mask W) x = .ok y ∧ ∀ f < F, ∀ k < K, prob (y.v f k) =
      ∑ h ∈ range H, if kept mask f h = true then W f h k * p f h k else 0 := by
  obtain ⟨y, e, -, -, hy⟩ := C84_mixing hH mask hm W hx.1 hx.2.1 hx.2.2.1
  refine ⟨y, e, fun f hf k hk => ?_⟩
  have hp := hx.2.2.2.1
  have hs : ∑ h ∈ range H, (if kept mask f h = true then W f h k * prob (x.v f h k) else 0) =
      ∑ h ∈ range H, if kept mask f h = true then W f h k * p f h k else 0 :=
    Finset.sum_congr rfl fun h hh => by rw [hx.prob hf (Finset.mem_range.1 hh) hk]
  rw [hy f hf k hk, hs]
  refine prob_ite (Finset.sum_nonneg fun h _ => by split; exacts [mul_nonneg (hW _ _ _) (hp _ _ _), le_refl _]) fun hn => ?_
  refine Finset.sum_eq_zero fun h hh => ?_
  have hh := Finset.mem_range.1 hh
  by_contra hne
  refine hn ((Good.congr (y := fun h => logOf (p f h k)) fun h hh => hx.2.2.2.2 f hf h hh k hk).2
    ((good_logOf fun h _ => hp f h k).2 ⟨h, hh, lt_of_le_of_ne (hp _ _ _) fun e => hne ?_⟩))
  rw [← e]
  simp

/-! ### Integrals -/

section Integrals
open MeasureTheory

variable {H : ℕ} {Ω : Fin H → Type} [mΩ : ∀ h, MeasurableSpace (Ω h)] {μ : ∀ h, Measure (Ω h)} [∀ h, SigmaFinite (μ h)]

theorem integral_rows {K : ℕ} {W : ℕ → ℕ → ℝ} {p : (h : Fin H) → ℕ → Ω h → ℝ}
    (hp : ∀ h, ∀ k < K, Integrable (p h k) (μ h) ∧ ∫ ω, p h k ω ∂μ h = 1) :
    ∫ ω : (h : Fin H) → Ω h, ∏ h : Fin H, ∑ k ∈ range K, W h k * p h k (ω h) ∂(Measure.pi μ) =
      ∏ h : Fin H, ∑ k ∈ range K, W h k := by
  rw [integral_fintype_prod_eq_prod (f := fun (h : Fin H) (ω : Ω h) => ∑ k ∈ range K, W h k * p h k ω)]
  refine Finset.prod_congr rfl fun h _ => ?_
  rw [integral_finsetSum _ fun k hk => ((hp h k (Finset.mem_range.1 hk)).1.const_mul _)]
  refine Finset.sum_congr rfl fun k hk => ?_
  rw [integral_const_mul, (hp h k (Finset.mem_range.1 hk)).2, mul_one]

/-- **C84, densities (collapsed CP).** If the units of the children are densities over the children's own variables, the output
integrates to the product over the children of the sums of the weights; it is a density when every child's weights sum to one. -/
theorem C84_collapsed_density {F I O : ℕ} (hI : 0 < I) {W : ℕ → ℕ → ℕ → ℕ → ℝ} (hW : ∀ f h k o, 0 ≤ W f h k o)
    {f : ℕ} (hf : f < F) (p : ℕ → (h : Fin H) → ℕ → Ω h → ℝ) (h0 : ∀ f h k ω, 0 ≤ p f h k ω)
    (hp : ∀ h, ∀ k < I, Integrable (p f h k) (μ h) ∧ ∫ ω, p f h k ω ∂μ h = 1) (X : ((h : Fin H) → Ω h) → T3)
    (hX : ∀ ω, (X ω).a = F ∧ (X ω).b = H ∧ (X ω).c = I ∧ ∀ f < F, ∀ h : Fin H, ∀ k < I, (X ω).v f h k = logOf (p f h k (ω h)))
    (o : ℕ) : ∃ Y : ((h : Fin H) → Ω h) → T2, (∀ ω, forward (.collapsed F H I O none W) (X ω) = .ok (Y ω)) ∧
      ∫ ω, prob ((Y ω).v f o) ∂(Measure.pi μ) = ∏ h ∈ range H, ∑ k ∈ range I, W f h k o := by
  have hH : ∀ ω, Holds (X ω) F H I fun f h k => if hh : h < H then p f ⟨h, hh⟩ k (ω ⟨h, hh⟩) else 0 := by
    intro ω
    obtain ⟨a, b, c, d⟩ := hX ω
    refine ⟨a, b, c, fun f h k => ?_, fun f hf h hh k hk => ?_⟩
    · dsimp only
      split
      · exact h0 _ _ _ _
      · exact le_refl _
    · dsimp only
      rw [dif_pos hh]
      exact d f hf ⟨h, hh⟩ k hk
  choose Y e hY using fun ω => C84_collapsed_prob (O := O) hI (mask := none) (by simp [MaskFits]) hW (hH ω)
  refine ⟨Y, e, ?_⟩
  rw [Finset.prod_range fun h => ∑ k ∈ range I, W f h k o]
  rw [← integral_rows (μ := μ) (W := fun h k => W f h k o) (p := p f) hp]
  congr 1
  funext ω
  rw [hY ω f hf o, Finset.prod_range]
  refine Finset.prod_congr rfl fun h _ => ?_
  simp only [kept, if_true, h.2, dif_pos, Fin.eta]

/-- **C84, densities (Tucker).** If the units of the two children are densities over separate variables, the output integrates to
the sum of the weights. -/
theorem C84_tucker_density {F I O : ℕ} (hI : 0 < I) {W : ℕ → ℕ → ℕ → ℕ → ℝ} (hW : ∀ f i j o, 0 ≤ W f i j o)
    {f : ℕ} (hf : f < F) {Ω₀ Ω₁ : Type} [MeasurableSpace Ω₀] [MeasurableSpace Ω₁] {μ₀ : Measure Ω₀} {μ₁ : Measure Ω₁}
    [SigmaFinite μ₀] [SigmaFinite μ₁] (p : ℕ → ℕ → Ω₀ → ℝ) (q : ℕ → ℕ → Ω₁ → ℝ) (h0 : ∀ f k ω, 0 ≤ p f k ω)
    (h1 : ∀ f k ω, 0 ≤ q f k ω) (hp : ∀ k < I, Integrable (p f k) μ₀ ∧ ∫ ω, p f k ω ∂μ₀ = 1)
    (hq : ∀ k < I, Integrable (q f k) μ₁ ∧ ∫ ω, q f k ω ∂μ₁ = 1) (X : Ω₀ × Ω₁ → T3)
    (hX : ∀ ω, (X ω).a = F ∧ (X ω).b = 2 ∧ (X ω).c = I ∧ ∀ f < F, ∀ k < I,
      (X ω).v f 0 k = logOf (p f k ω.1) ∧ (X ω).v f 1 k = logOf (q f k ω.2))
    (o : ℕ) : ∃ Y : Ω₀ × Ω₁ → T2, (∀ ω, forward (.tucker F I O W) (X ω) = .ok (Y ω)) ∧
      ∫ ω, prob ((Y ω).v f o) ∂(μ₀.prod μ₁) = ∑ i ∈ range I, ∑ j ∈ range I, W f i j o := by
  have hH : ∀ ω, Holds (X ω) F 2 I fun f h k => if h = 0 then p f k ω.1 else q f k ω.2 := by
    intro ω
    obtain ⟨a, b, c, d⟩ := hX ω
    refine ⟨a, b, c, fun f h k => ?_, fun f hf h hh k hk => ?_⟩
    · dsimp only
      split
      · exact h0 _ _ _
      · exact h1 _ _ _
    · obtain rfl | rfl : h = 0 ∨ h = 1 := by omega
      · exact (d f hf k hk).1
      · exact (d f hf k hk).2
  choose Y e hY using fun ω => C84_tucker_prob (O := O) hI hW (le_refl 2) (hH ω)
  refine ⟨Y, e, ?_⟩
  have : (fun ω => prob ((Y ω).v f o)) = fun ω : Ω₀ × Ω₁ =>
      ∑ i ∈ range I, ∑ j ∈ range I, W f i j o * (p f i ω.1 * q f j ω.2) := by
    funext ω
    rw [hY ω f hf o]
    rfl
  rw [this]
  have hint : ∀ i ∈ range I, ∀ j ∈ range I, Integrable (fun ω : Ω₀ × Ω₁ => W f i j o * (p f i ω.1 * q f j ω.2)) (μ₀.prod μ₁) :=
    fun i hi j hj => ((hp i (Finset.mem_range.1 hi)).1.mul_prod (hq j (Finset.mem_range.1 hj)).1).const_mul _
  rw [integral_finsetSum _ fun i hi => integrable_finsetSum _ fun j hj => hint i hi j hj]
  refine Finset.sum_congr rfl fun i hi => ?_
  rw [integral_finsetSum _ fun j hj => hint i hi j hj]
  refine Finset.sum_congr rfl fun j hj => ?_
  rw [integral_const_mul, integral_prod_mul, (hp i (Finset.mem_range.1 hi)).2, (hq j (Finset.mem_range.1 hj)).2, mul_one, mul_one]

/-- **C84, densities (mixing).** If the units of the children are densities over the same variables, the output integrates to the
sum of the weights of the children that are not masked. -/
theorem C84_mixing_density {F H K : ℕ} (hH : 0 < H) {mask : Option Mask} (hm : MaskFits mask F H) {W : ℕ → ℕ → ℕ → ℝ}
    (hW : ∀ f h k, 0 ≤ W f h k) {f k : ℕ} (hf : f < F) (hk : k < K) {S : Type} [MeasurableSpace S] {ν : Measure S}
    (p : ℕ → ℕ → ℕ → S → ℝ) (h0 : ∀ f h k ω, 0 ≤ p f h k ω)
    (hp : ∀ h < H, Integrable (p f h k) ν ∧ ∫ ω, p f h k ω ∂ν = 1) (X : S → T3)
    (hX : ∀ ω, (X ω).a = F ∧ (X ω).b = H ∧ (X ω).c = K ∧ ∀ f < F, ∀ h < H, ∀ k < K, (X ω).v f h k = logOf (p f h k ω)) :
    ∃ Y : S → T2, (∀ ω, forward (.mixing F H K mask W) (X ω) = .ok (Y ω)) ∧
      ∫ ω, prob ((Y ω).v f k) ∂ν = ∑ h ∈ range H, if kept mask f h = true then W f h k else 0 := by
  have hHo : ∀ ω, Holds (X ω) F H K fun f h k => p f h k ω := fun ω =>
    ⟨(hX ω).1, (hX ω).2.1, (hX ω).2.2.1, fun f h k => h0 f h k ω, (hX ω).2.2.2⟩
  choose Y e hY using fun ω => C84_mixing_prob hH hm hW (hHo ω)
  refine ⟨Y, e, ?_⟩
  have : (fun ω => prob ((Y ω).v f k)) = fun ω =>
      ∑ h ∈ range H, if kept mask f h = true then W f h k * p f h k ω else 0 := by
    funext ω
    exact hY ω f hf k hk
  rw [this, integral_finsetSum _ fun h hh => ?_]
  · refine Finset.sum_congr rfl fun h hh => ?_
    split
    · rw [integral_const_mul, (hp h (Finset.mem_range.1 hh)).2, mul_one]
    · exact integral_zero _ _
  · split
    · exact (hp h (Finset.mem_range.1 hh)).1.const_mul _
    · exact integrable_zero _ _ _

end Integrals

end Verif.TL

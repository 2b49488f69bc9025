import Verif.TLayerShape
/-
C84: impossible children, masks, and a concrete layer.
-/
namespace Verif.TL

open Finset (range)

/-- **C84, an impossible child gives NaN.** If all units of a child that takes part have probability zero, every output of that
fold of a Tucker, collapsed, shared or uncollapsed layer is NaN, where the documented sum-product is zero (`-inf`). -/
theorem C84_impossible_is_nan {F H I R O : ℕ} (hI : 0 < I) (hR : 0 < R) (W : ℕ → ℕ → ℕ → ℕ → ℝ) (W' : ℕ → ℕ → ℕ → ℝ) {x : T3}
    {p : ℕ → ℕ → ℕ → ℝ} (hx : Holds x F H I p) {f h : ℕ} (hf : f < F) (hh : h < H) (hz : ∀ k < I, p f h k = 0) :
    (∃ y, forward (.collapsed F H I O none W) x = .ok y ∧ ∀ o, y.v f o = none) ∧
    (∃ y, forward (.shared F H I O W') x = .ok y ∧ ∀ o, y.v f o = none) ∧
    (∃ y, forward (.uncollapsed F H I R O none W W') x = .ok y ∧ ∀ o, y.v f o = none) ∧
    (2 ≤ H → h < 2 → ∃ y, forward (.tucker F I O W) x = .ok y ∧ ∀ o, y.v f o = none) := by
  have hb : ¬ Good I (x.v f h) := by
    rw [hx.good hf hh]
    rintro ⟨k, hk, h⟩
    exact absurd (hz k hk) h.ne'
  refine ⟨?_, ?_, ?_, fun h2 hh2 => ?_⟩
  · obtain ⟨y, e, -, -, hy⟩ := C84_collapsed (O := O) hI none (by simp [MaskFits]) W hx.1 hx.2.1 hx.2.2.1
    refine ⟨y, e, fun o => ?_⟩
    rw [hy f hf o, if_neg fun H => hb (H h hh rfl).1]
  · obtain ⟨y, e, -, -, hy⟩ := C84_shared (O := O) (F' := F) hI W' hx.1 hx.2.1 hx.2.2.1
    refine ⟨y, e, fun o => ?_⟩
    rw [hy f hf o, if_neg fun H => hb (H h hh).1]
  · obtain ⟨y, e, -, -, hy⟩ := C84_uncollapsed (O := O) hI hR none (by simp [MaskFits]) W W' hx.1 hx.2.1 hx.2.2.1
    refine ⟨y, e, fun o => ?_⟩
    rw [hy f hf o, if_neg fun H => hb (H.1 0 hR h hh).1]
  · obtain ⟨y, e, -, -, hy⟩ := C84_tucker (O := O) hI W hx.1 (hx.2.1 ▸ h2) hx.2.2.1
    refine ⟨y, e, fun o => ?_⟩
    rw [hy f hf o, if_neg ?_]
    obtain rfl | rfl : h = 0 ∨ h = 1 := by omega
    · exact fun H => hb H.1
    · exact fun H => hb H.2

/-- **C84, a Tucker layer ignores further children.** On an input with more than two children the output is that of the first two. -/
theorem C84_tucker_ignores (F I O : ℕ) (W : ℕ → ℕ → ℕ → ℕ → ℝ) (x : T3) (hb : 2 ≤ x.b) :
    forward (.tucker F I O W) x = forward (.tucker F I O W) ⟨x.a, 2, x.c, x.v⟩ := by
  unfold forward
  dsimp only
  rw [if_neg (by omega), if_neg (by omega)]
  rfl

/-- The probabilities 1 and 0: one fold, two children, one unit. -/
noncomputable def half : T3 := ⟨1, 2, 1, fun _ h _ => logOf (if h = 0 then 1 else 0)⟩

theorem half_holds : Holds half 1 2 1 fun _ h _ => if h = 0 then 1 else 0 :=
  ⟨rfl, rfl, rfl, fun f h k => by dsimp only; split <;> norm_num, fun _ _ _ _ _ _ => rfl⟩

/-- Only the first of two children takes part. -/
def firstOnly : Mask := ⟨1, 2, fun _ h => h == 0⟩

theorem firstOnly_fits : MaskFits (some firstOnly) 1 2 := by
  intro m hm
  obtain rfl := Option.mem_some_iff.1 hm
  exact ⟨rfl, rfl⟩

theorem childSum_half (W : ℕ → ℕ → ℕ → ℕ → ℝ) (h : ℕ) (hh : h < 2) (o : ℕ) :
    childSum 1 W half 0 h o = if h = 0 then W 0 0 0 o else 0 := by
  rw [half_holds.childSum (by norm_num) hh]
  obtain rfl | rfl : h = 0 ∨ h = 1 := by omega
  · simp
  · simp

/-- **C84, masked children.** With the second child masked and impossible, the collapsed layer returns the probability of the
first child, the uncollapsed layer of rank one with weights one returns NaN. -/
theorem C84_masked_child : (∃ y, forward (.collapsed 1 2 1 1 (some firstOnly) fun _ _ _ _ => 1) half = .ok y ∧ y.v 0 0 = logOf 1) ∧
    ∃ y, forward (.uncollapsed 1 2 1 1 1 (some firstOnly) (fun _ _ _ _ => 1) fun _ _ _ => 1) half = .ok y ∧ y.v 0 0 = none := by
  have hb : ¬ Good 1 (half.v 0 1) := by
    rw [half_holds.good (by norm_num) (by norm_num)]
    rintro ⟨k, _, h⟩
    simp at h
  have hg : Good 1 (half.v 0 0) := by
    rw [half_holds.good (by norm_num) (by norm_num)]
    exact ⟨0, by norm_num, by simp⟩
  constructor
  · obtain ⟨y, e, -, -, hy⟩ := C84_collapsed (F := 1) (H := 2) (O := 1) one_pos (some firstOnly) firstOnly_fits
      (fun _ _ _ _ => 1) (x := half) rfl rfl rfl
    refine ⟨y, e, ?_⟩
    rw [hy 0 one_pos 0, if_pos]
    · congr 1
      simp only [Finset.prod_range_succ, Finset.prod_range_zero]
      rw [childSum_half _ 0 (by norm_num), childSum_half _ 1 (by norm_num)]
      simp [kept, firstOnly]
    · intro h hh hk
      obtain rfl | rfl : h = 0 ∨ h = 1 := by omega
      · rw [childSum_half _ 0 (by norm_num)]
        exact ⟨hg, by simp⟩
      · simp [kept, firstOnly] at hk
  · obtain ⟨y, e, -, -, hy⟩ := C84_uncollapsed (F := 1) (H := 2) (R := 1) (O := 1) one_pos one_pos (some firstOnly) firstOnly_fits
      (fun _ _ _ _ => 1) (fun _ _ _ => 1) (x := half) rfl rfl rfl
    refine ⟨y, e, ?_⟩
    rw [hy 0 one_pos 0, if_neg fun H => hb (H.1 0 one_pos 1 (by norm_num)).1]

/-- **C84, the mask of a shared layer is dropped.** `CPLayer(shared=True, fold_mask=m)` is the layer without a mask. -/
theorem C84_shared_drops_mask (A : Args) (rank : ℤ) (u : ℕ → ℕ → ℕ → ℕ → ℝ) (u' : ℕ → ℕ → ℕ → ℝ) :
    newCP A rank true true u u' = newCP { A with mask := none } rank true true u u' := rfl

/-- **C84, a masked mixing layer is not normalised.** A new mixing layer of one unit with equal random weights and the second of two
children masked has the weights one half; the weights that take part sum to one half, so by `C84_mixing_density` its output
integrates to one half. -/
theorem C84_masked_mixing : ∃ W, newMixing ⟨1, 1, 2, 1, some firstOnly⟩ (fun _ _ _ => 1/2) = .ok (.mixing 1 2 1 (some firstOnly) W) ∧
    ∑ h ∈ range 2, (if kept (some firstOnly) 0 h = true then W 0 h 0 else 0) = 1/2 := by
  refine ⟨_, rfl, ?_⟩
  rw [Finset.sum_range_succ, Finset.sum_range_one]
  simp only [kept, firstOnly]
  norm_num
  have : Int.toNat 2 = 2 := rfl
  rw [this]
  norm_num

/-- Two folds, two children, two units: `p = (1/2, 1/4), (1/8, 1)` in both folds. -/
noncomputable def ex : T3 := ⟨2, 2, 2, fun _ h k => logOf (if h = 0 then (if k = 0 then 1/2 else 1/4) else if k = 0 then 1/8 else 1)⟩

theorem ex_holds : Holds ex 2 2 2 fun _ h k => if h = 0 then (if k = 0 then 1/2 else 1/4) else if k = 0 then 1/8 else 1 :=
  ⟨rfl, rfl, rfl, fun f h k => by dsimp only; split <;> split <;> norm_num, fun _ _ _ _ _ _ => rfl⟩

/-- **C84, a concrete layer.** `CPLayer(num_input_units=2, num_output_units=1, arity=2, num_folds=2)` with all weights 1/2: the output
is `log (3/8 · 9/16)` in both folds. -/
theorem C84_example : ∃ L, newCP ⟨2, 1, 2, 2, none⟩ 1 true false (fun _ _ _ _ => 1/2) (fun _ _ _ => 0) = .ok L ∧ L.Valid ∧
    ∃ y, forward L ex = .ok y ∧ ∀ f < 2, prob (y.v f 0) = 3/8 * (9/16) := by
  refine ⟨.collapsed 2 2 2 1 none fun _ _ _ _ => 1/2, rfl, ⟨by norm_num, by norm_num, by norm_num, by norm_num, by simp [MaskFits]⟩, ?_⟩
  obtain ⟨y, e, hy⟩ := C84_collapsed_prob (F := 2) (H := 2) (I := 2) (O := 1) (by norm_num) (mask := none) (by simp [MaskFits])
    (W := fun _ _ _ _ => 1/2) (fun _ _ _ _ => by norm_num) ex_holds
  refine ⟨y, e, fun f hf => ?_⟩
  rw [hy f hf 0]
  simp only [kept, if_true, Finset.prod_range_succ, Finset.prod_range_zero, Finset.sum_range_succ, Finset.sum_range_zero]
  norm_num

end Verif.TL

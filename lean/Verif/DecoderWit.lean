import Verif.DecoderMain

/-!
# C88: an instance; batch norm in training mode couples the rows; the skip connection
-/

namespace Verif
namespace Dec

/-- **C88.** The in-place ReLU at the start of a residual block also rectifies the skip connection: the block returns the
same for an input and for its positive part. -/
theorem C88_skip_is_rectified (P : Params) (l ci hid res : ℕ) (bn train : Bool) (x : Img) :
    residual P l ci hid res bn train x = residual P l ci hid res bn train (x.map relu) := by
  have : (x.map relu).map relu = x.map relu := by
    simp only [Img.map, relu, max_assoc, max_self]
  unfold residual
  rw [this]

/-- **C88.** The map before the final resize is at least as large as the image and smaller than the image plus
`2 ^ num_upsamples`; the resize of `ConvDecoder2D` only ever shrinks. -/
theorem C88_conv_overshoot {x s : ℕ} (hx : 0 < x) (hs : 0 < s) : x ≤ s * startSize x s ∧ s * startSize x s < x + s := by
  have h1 := Nat.div_add_mod (x + s - 1) s
  have h2 := Nat.mod_lt (x + s - 1) hs
  have h3 : 1 ≤ (x + s - 1) / s := (Nat.one_le_div_iff hs).2 (by omega)
  unfold startSize
  rw [max_eq_right h3]
  omega

namespace Wit

/-- Weights that pass the first channel on. -/
def P : Params where
  L _ a _ := if a = 0 then 1 else 0
  Lb _ _ := 0
  W l o c s t := if o = 0 ∧ c = 0 ∧ s = (if l = 4 then 0 else 1) ∧ t = (if l = 4 then 0 else 1) then 1 else 0
  Wb _ _ := 0
  g _ _ := 1
  gb _ _ := 0
  rm _ _ := 0
  rv _ _ := 1

/-- Two latents of size one. -/
def zz (u v : ℝ) : Vec := ⟨2, 1, fun n _ => if n = 0 then u else v⟩

/-- The decoder built for 4 × 4 images with one channel. -/
def M : Neural := ⟨1, 1, 4, 4, 1, 1, 2, 1, 1, 2, true, .identity⟩

theorem M_built : mkNeural 1 [1, 4, 4] 2 1 1 2 true .identity = .ok M := by
  unfold mkNeural M
  simp

/-- The decoder of `M_built` meets the hypotheses of `C88_neural`: two latents give two 1 × 4 × 4 images, also in training mode. -/
theorem C88_example (u v : ℝ) (train : Bool) : ∃ y, M.forward P train (zz u v) = .ok y ∧ y.n = 2 ∧ (y.c : ℤ) = 1 ∧
    (y.h : ℤ) = 4 ∧ (y.w : ℤ) = 4 := by
  obtain ⟨y, h, h1, h2, h3, h4, -⟩ := (C88_neural M_built P train (zz u v)).2 rfl (fun _ _ => by
    simp [zz])
  exact ⟨y, h, h1, h2, h3, h4⟩

/-- In evaluation mode the first image does not depend on the second latent (an instance of `C88_neural_rows`). -/
theorem C88_example_rows (u v v' : ℝ) : Rel (IRow 0 0) (M.forward P false (zz u v)) (M.forward P false (zz u v')) :=
  C88_neural_rows M_built (fun _ => rfl) P ⟨rfl, fun i => by simp [zz]⟩

/-- **C88.** In training mode with batch norm the rows of `NeuralDecoder2D` are not independent: the decoder of `M_built`
returns an image for a latent in a batch of two, and raises for the same latent alone. -/
theorem C88_rows_false_in_training : ∃ z z' : Vec, VRow 0 0 z z' ∧ (∃ y, M.forward P true z = .ok y) ∧
    M.forward P true z' = .error .valueError ∧ ¬ Rel (IRow 0 0) (M.forward P true z) (M.forward P true z') := by
  obtain ⟨y, hy, -⟩ := C88_example 0 0 true
  have h1 : M.forward P true ⟨1, 1, fun _ _ => 0⟩ = .error .valueError :=
    C88_single_row_training (ns := 2) (c := 1) (by have := M_built; simpa using this) P rfl rfl
  refine ⟨zz 0 0, ⟨1, 1, fun _ _ => 0⟩, ⟨rfl, fun i _ => by simp [zz]⟩, ⟨y, hy⟩, h1, ?_⟩
  rw [hy, h1]
  simp [Rel]

/-- A batch of two one-pixel images. -/
def px (u v : ℝ) : Img := ⟨2, 1, 1, 1, fun n _ _ _ => if n = 0 then u else v⟩

/-- **C88.** In training mode the batch norm in the residual blocks couples the rows: with the same first row 3, the first
row of the result is 0 if the second row is 3 and positive if the second row is 1. -/
theorem C88_training_couples : ∃ y y', batchNorm P 0 1 true (px 3 3) = .ok y ∧ batchNorm P 0 1 true (px 3 1) = .ok y' ∧
    y.v 0 0 0 0 = 0 ∧ 0 < y'.v 0 0 0 0 := by
  refine ⟨_, _, rfl, rfl, ?_, ?_⟩
  · simp [mean, var, px, P]
  · simp [mean, var, px, P, Finset.sum_range_succ]
    norm_num

end Wit
end Dec
end Verif

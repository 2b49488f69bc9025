import Verif.Decoder

/-!
# C88: neural decoders return the configured shape, row by row, inside the range of the output activation
-/

namespace Verif
namespace Dec

/-! ## Specification -/

/-- Row `a` of `x` and row `b` of `y` are equal. -/
def VRow (a b : ℕ) (x y : Vec) : Prop := x.d = y.d ∧ ∀ i < x.d, x.v a i = y.v b i

/-- Image `a` of `x` and image `b` of `y` are equal. -/
def IRow (a b : ℕ) (x y : Img) : Prop := x.c = y.c ∧ x.h = y.h ∧ x.w = y.w ∧
  ∀ c < x.c, ∀ i < x.h, ∀ j < x.w, x.v a c i j = y.v b c i j

/-- Values allowed by an output activation. -/
def Act.Range : Act → ℝ → Prop
  | .tanh, x => -1 < x ∧ x < 1
  | .sigmoid, x => 0 < x ∧ x < 1
  | _, _ => True

/-- Same error, or results related by `R`. -/
def Rel {α : Type} (R : α → α → Prop) : Except Exc α → Except Exc α → Prop
  | .error e, y => y = .error e
  | .ok x, y => ∃ x', y = .ok x' ∧ R x x'

theorem Rel.bind {α β : Type} {R : α → α → Prop} {Q : β → β → Prop} {x y : Except Exc α} {f g : α → Except Exc β}
    (h : Rel R x y) (hf : ∀ a b, x = .ok a → y = .ok b → R a b → Rel Q (f a) (g b)) : Rel Q (x >>= f) (y >>= g) := by
  cases x with
  | error e => cases h; rfl
  | ok a => obtain ⟨b, rfl, hr⟩ := h; exact hf a b rfl rfl hr

theorem Rel.bind' {α β : Type} {R : α → α → Prop} {Q : β → β → Prop} {x y : Except Exc α} {f g : α → Except Exc β}
    (h : Rel R x y) (hf : ∀ a b, R a b → Rel Q (f a) (g b)) : Rel Q (x >>= f) (y >>= g) :=
  h.bind fun a b _ _ hr => hf a b hr

/-! ## Ranges and shapes -/

theorem Act.range_app (a : Act) (x : ℝ) : a.Range (a.app x) := by
  cases a <;> simp only [Act.Range, Act.app]
  · exact ⟨neg_lt_of_abs_lt (Real.abs_tanh_lt_one x), lt_of_abs_lt (Real.abs_tanh_lt_one x)⟩
  · have := Real.exp_pos (-x)
    refine ⟨by positivity, ?_⟩
    rw [div_lt_one (by positivity)]
    linarith

/-! ## Layers, row by row -/

section rows
variable {a b : ℕ} {P : Params}

theorem linear_row {l i o : ℕ} {x y : Vec} (h : VRow a b x y) : Rel (VRow a b) (linear P l i o x) (linear P l i o y) := by
  unfold linear
  by_cases hd : x.d ≠ i
  · rw [if_pos hd, if_pos (h.1 ▸ hd)]; rfl
  · rw [if_neg hd, if_neg (h.1 ▸ hd)]
    refine ⟨_, rfl, rfl, fun k _ => ?_⟩
    simp only [not_not] at hd
    dsimp only
    congr 1
    exact Finset.sum_congr rfl fun m hm => by rw [h.2 m (by rw [hd]; exact Finset.mem_range.1 hm)]

theorem vmap_row {f : ℝ → ℝ} {x y : Vec} (h : VRow a b x y) : VRow a b (x.map f) (y.map f) :=
  ⟨h.1, fun i hi => by simp only [Vec.map]; rw [h.2 i hi]⟩

theorem imap_row {f : ℝ → ℝ} {x y : Img} (h : IRow a b x y) : IRow a b (x.map f) (y.map f) :=
  ⟨h.1, h.2.1, h.2.2.1, fun c hc i hi j hj => by simp only [Img.map]; rw [h.2.2.2 c hc i hi j hj]⟩

theorem padded_row {x y : Img} (h : IRow a b x y) {p c i j : ℕ} (hc : c < x.c) : x.padded p a c i j = y.padded p b c i j := by
  unfold Img.padded
  rw [← h.2.1, ← h.2.2.1]
  split_ifs with hp
  · exact h.2.2.2 c hc _ (by omega) _ (by omega)
  · rfl

theorem conv2d_row {l ci co k p : ℕ} {bias : Bool} {x y : Img} (h : IRow a b x y) :
    Rel (IRow a b) (conv2d P l ci co k p bias x) (conv2d P l ci co k p bias y) := by
  obtain ⟨h1, h2, h3, -⟩ := id h
  unfold conv2d
  rw [← h1, ← h2, ← h3]
  by_cases e1 : x.c ≠ ci
  · rw [if_pos e1, if_pos e1]; rfl
  by_cases e2 : x.h + 2 * p < k ∨ x.w + 2 * p < k
  · rw [if_neg e1, if_neg e1, if_pos e2, if_pos e2]; rfl
  · rw [if_neg e1, if_neg e1, if_neg e2, if_neg e2]
    refine ⟨_, rfl, rfl, rfl, rfl, fun o _ i _ j _ => ?_⟩
    simp only [not_not] at e1
    dsimp only
    congr 1
    refine Finset.sum_congr rfl fun c hc => Finset.sum_congr rfl fun s _ => Finset.sum_congr rfl fun t _ => ?_
    rw [padded_row h (by rw [e1]; exact Finset.mem_range.1 hc)]

theorem convT_row {l ci co : ℕ} {x y : Img} (h : IRow a b x y) :
    Rel (IRow a b) (convT P l ci co x) (convT P l ci co y) := by
  obtain ⟨h1, h2, h3, h4⟩ := id h
  unfold convT
  rw [← h1, ← h2, ← h3]
  split_ifs with e1
  · rfl
  · refine ⟨_, rfl, rfl, rfl, rfl, fun o _ i _ j _ => ?_⟩
    simp only [not_not] at e1
    dsimp only
    congr 1
    refine Finset.sum_congr rfl fun c hc => Finset.sum_congr rfl fun s hs => Finset.sum_congr rfl fun t ht =>
      Finset.sum_congr rfl fun u _ => Finset.sum_congr rfl fun v _ => ?_
    rw [h4 c (by rw [e1]; exact Finset.mem_range.1 hc) s (Finset.mem_range.1 hs) t (Finset.mem_range.1 ht)]

theorem upsample_row {x y : Img} (h : IRow a b x y) : IRow a b (upsample x) (upsample y) := by
  obtain ⟨h1, h2, h3, h4⟩ := h
  refine ⟨h1, by simp [upsample, h2], by simp [upsample, h3], fun c hc i hi j hj => ?_⟩
  simp only [upsample] at hi hj hc ⊢
  exact h4 c hc _ (by omega) _ (by omega)

/-- The source coordinate of an output row lies inside the source. -/
theorem floor_srcAt {s d i : ℕ} (hs : 0 < s) (hi : i < d) : ⌊srcAt s d i⌋₊ < s := by
  have hd : (0 : ℝ) < d := by exact_mod_cast lt_of_le_of_lt (Nat.zero_le i) hi
  have hs' : (1 : ℝ) ≤ s := by exact_mod_cast hs
  have hi' : (i : ℝ) + 1 ≤ d := by exact_mod_cast hi
  unfold srcAt
  rw [Nat.floor_lt (le_max_right _ _)]
  refine max_lt ?_ (by linarith)
  have : ((i : ℝ) + 1 / 2) * ((s : ℝ) / d) ≤ d * ((s : ℝ) / d) :=
    mul_le_mul_of_nonneg_right (by linarith) (by positivity)
  rw [mul_div_cancel₀ _ hd.ne'] at this
  linarith

theorem bilinear_row {x y : Img} (h : IRow a b x y) (hh : 0 < x.h) (hw : 0 < x.w) {H W : ℕ} :
    IRow a b (bilinear H W x) (bilinear H W y) := by
  obtain ⟨h1, h2, h3, h4⟩ := h
  refine ⟨h1, rfl, rfl, fun c hc i hi j hj => ?_⟩
  simp only [bilinear] at hi hj hc ⊢
  rw [← h2, ← h3]
  have p1 := floor_srcAt hh hi
  have p2 := floor_srcAt hw hj
  have p3 : (if ⌊srcAt x.h H i⌋₊ + 1 < x.h then ⌊srcAt x.h H i⌋₊ + 1 else ⌊srcAt x.h H i⌋₊) < x.h := by
    split_ifs <;> assumption
  have p4 : (if ⌊srcAt x.w W j⌋₊ + 1 < x.w then ⌊srcAt x.w W j⌋₊ + 1 else ⌊srcAt x.w W j⌋₊) < x.w := by
    split_ifs <;> assumption
  rw [h4 c hc _ p1 _ p2, h4 c hc _ p1 _ p4, h4 c hc _ p3 _ p2, h4 c hc _ p3 _ p4]

theorem fit_row {x y : Img} (h : IRow a b x y) (hh : 0 < x.h) (hw : 0 < x.w) {H W : ℕ} :
    IRow a b (fit H W x) (fit H W y) := by
  unfold fit
  rw [← h.2.1, ← h.2.2.1]
  split_ifs
  · exact bilinear_row h hh hw
  · exact h

theorem unflatten_row {c h w : ℕ} {x y : Vec} (hr : VRow a b x y) :
    Rel (IRow a b) (unflatten c h w x) (unflatten c h w y) := by
  unfold unflatten
  rw [← hr.1]
  split_ifs with e
  · rfl
  · simp only [not_not] at e
    refine ⟨_, rfl, rfl, rfl, rfl, fun k hk i hi j hj => hr.2 _ ?_⟩
    rw [e]
    simp only at hk hi hj
    calc (k * h + i) * w + j < (k * h + i) * w + w := by omega
      _ = (k * h + i + 1) * w := by ring
      _ ≤ (c * h) * w := by
        apply Nat.mul_le_mul_right
        calc k * h + i + 1 ≤ k * h + h := by omega
          _ = (k + 1) * h := by ring
          _ ≤ c * h := Nat.mul_le_mul_right _ hk

theorem addImg_row {x y x' y' : Img} (h : IRow a b x y) (h' : IRow a b x' y') (hn : x.n = x'.n) (hn' : y.n = y'.n) :
    Rel (IRow a b) (addImg x x') (addImg y y') := by
  unfold addImg
  rw [← h.1, ← h.2.1, ← h.2.2.1, ← h'.1, ← h'.2.1, ← h'.2.2.1]
  by_cases hc : x.c ≠ x'.c ∨ x.h ≠ x'.h ∨ x.w ≠ x'.w
  · rw [if_pos (Or.inr hc), if_pos (Or.inr hc)]; rfl
  · rw [if_neg (by simp only [hn, ne_eq, not_true, false_or]; exact hc),
      if_neg (by simp only [hn', ne_eq, not_true, false_or]; exact hc)]
    simp only [not_or, not_not] at hc
    refine ⟨_, rfl, rfl, rfl, rfl, fun c k i hi j hj => ?_⟩
    simp only at k hi hj ⊢
    rw [h.2.2.2 c k i hi j hj, h'.2.2.2 c (hc.1 ▸ k) i (hc.2.1 ▸ hi) j (hc.2.2 ▸ hj)]

/-- Batch norm with the running statistics. -/
theorem batchNorm_row {l ch : ℕ} {x y : Img} (h : IRow a b x y) :
    Rel (IRow a b) (batchNorm P l ch false x) (batchNorm P l ch false y) := by
  unfold batchNorm
  rw [← h.1]
  by_cases e : x.c ≠ ch
  · rw [if_pos e, if_pos e]; rfl
  · rw [if_neg e, if_neg e, if_neg (by simp), if_neg (by simp)]
    refine ⟨_, rfl, rfl, h.2.1, h.2.2.1, fun c hc i hi j hj => ?_⟩
    simp only [Bool.false_eq_true, if_false]
    rw [h.2.2.2 c hc i hi j hj]

theorem bnIf_row {bn train : Bool} (ht : bn = true → train = false) {l ch : ℕ} {x y : Img} (h : IRow a b x y) :
    Rel (IRow a b) (bnIf P bn l ch train x) (bnIf P bn l ch train y) := by
  unfold bnIf
  cases bn with
  | true => rw [ht rfl]; exact batchNorm_row h
  | false => exact ⟨_, rfl, h⟩

theorem conv2d_n {l ci co k p : ℕ} {bias : Bool} {x y : Img} (h : conv2d P l ci co k p bias x = .ok y) : y.n = x.n := by
  unfold conv2d at h
  by_cases e1 : x.c ≠ ci
  · rw [if_pos e1] at h; cases h
  by_cases e2 : x.h + 2 * p < k ∨ x.w + 2 * p < k
  · rw [if_neg e1, if_pos e2] at h; cases h
  · rw [if_neg e1, if_neg e2] at h; cases h; rfl

theorem bnIf_n {bn train : Bool} {l ch : ℕ} {x y : Img} (h : bnIf P bn l ch train x = .ok y) : y.n = x.n := by
  unfold bnIf at h
  cases bn with
  | false => cases h; rfl
  | true =>
    simp only [if_true] at h
    unfold batchNorm at h
    by_cases e1 : x.c ≠ ch
    · rw [if_pos e1] at h; cases h
    by_cases e2 : train = true ∧ x.n * x.h * x.w ≤ 1
    · rw [if_neg e1, if_pos e2] at h; cases h
    · rw [if_neg e1, if_neg e2] at h; cases h; rfl

theorem residual_row {l ci hid res : ℕ} {bn train : Bool} (ht : bn = true → train = false) {x y : Img}
    (h : IRow a b x y) : Rel (IRow a b) (residual P l ci hid res bn train x) (residual P l ci hid res bn train y) := by
  unfold residual
  refine (conv2d_row (imap_row h)).bind fun a1 b1 e1 f1 h1 => ?_
  refine (bnIf_row ht h1).bind fun a2 b2 e2 f2 h2 => ?_
  refine (conv2d_row (imap_row h2)).bind fun a3 b3 e3 f3 h3 => ?_
  refine (bnIf_row ht h3).bind fun a4 b4 e4 f4 h4 => ?_
  refine addImg_row (imap_row h) h4 ?_ ?_
  · exact ((bnIf_n e4).trans ((conv2d_n e3).trans ((bnIf_n e2).trans (conv2d_n e1)))).symm
  · exact ((bnIf_n f4).trans ((conv2d_n f3).trans ((bnIf_n f2).trans (conv2d_n f1)))).symm

theorem stack_row {ch res : ℕ} {bn train : Bool} (ht : bn = true → train = false) : ∀ {m l : ℕ} {x y : Img},
    IRow a b x y → Rel (IRow a b) (stack P ch res bn train m l x) (stack P ch res bn train m l y)
  | 0, _, _, _, h => ⟨_, rfl, h⟩
  | _ + 1, _, _, _, h => (residual_row ht h).bind' fun _ _ h1 => stack_row ht h1

theorem scaleRun_row {ch : ℕ} : ∀ {m l : ℕ} {x y : Img}, IRow a b x y →
    Rel (IRow a b) (scaleRun P ch m l x) (scaleRun P ch m l y)
  | 0, _, _, _, h => ⟨_, rfl, h⟩
  | _ + 1, _, _, _, h => (convT_row h).bind' fun _ _ h1 => scaleRun_row (imap_row h1)

theorem upRun_row : ∀ {bl : List (ℕ × ℕ)} {l : ℕ} {x y : Img}, IRow a b x y →
    Rel (IRow a b) (upRun P l bl x) (upRun P l bl y)
  | [], _, _, _, h => ⟨_, rfl, h⟩
  | (_, _) :: _, _, _, _, h => (conv2d_row (upsample_row h)).bind' fun _ _ h1 => upRun_row (imap_row h1)

theorem mlpRun_row : ∀ {ls : List (ℕ × ℕ)} {l : ℕ} {x y : Vec}, VRow a b x y →
    Rel (VRow a b) (mlpRun P l ls x) (mlpRun P l ls y)
  | [], _, _, _, h => ⟨_, rfl, h⟩
  | [(_, _)], _, _, _, h => linear_row h
  | (_, _) :: q :: rest, _, _, _, h => (linear_row h).bind' fun _ _ h1 => mlpRun_row (vmap_row h1)

end rows

end Dec
end Verif

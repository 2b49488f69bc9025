import Verif.ApcStats
import Verif.ApcTrain

/-!
# Which parameter tensors can be recorded
-/

namespace Verif
namespace Apc

/-- **C74 (record, accepted shapes).** A parameter with one number per feature, channel and repetition is recorded exactly
if its feature axis matches and its channel and repetition axes match or are broadcast (size 1); otherwise `ShapeError`. -/
theorem C74_record_iff (B F C R a b c : ℕ) (ch : ℕ → ℕ → ℕ) (rep : ℕ → ℕ) (t : ℕ → ℕ → ℕ → ℝ) :
    ((∃ s, select B F C R ch rep (rank3 a b c t) = .ok s) ↔ a = F ∧ (b = 1 ∨ b = C) ∧ (c = 1 ∨ c = R)) ∧
      ∀ e, select B F C R ch rep (rank3 a b c t) = .error e → e = .shapeError := by
  simp only [select, normalize, rank3]
  by_cases h1 : a = F
  · by_cases h2 : b = 1 ∨ b = C
    · by_cases h3 : c = 1 ∨ c = R
      · rw [if_neg (by tauto), if_neg (by tauto), if_neg (by tauto)]
        simp [h1, h2, h3]
      · rw [if_neg (by tauto), if_neg (by tauto), if_pos (by tauto)]
        exact ⟨⟨fun h => by (obtain ⟨_, h⟩ := h; cases h), fun h => absurd h.2.2 h3⟩, fun e h => by (cases h; rfl)⟩
    · rw [if_neg (by tauto), if_pos (by tauto)]
      exact ⟨⟨fun h => by (obtain ⟨_, h⟩ := h; cases h), fun h => absurd h.2.1 h2⟩, fun e h => by (cases h; rfl)⟩
  · rw [if_pos h1]
    exact ⟨⟨fun h => by (obtain ⟨_, h⟩ := h; cases h), fun h => absurd h.1 h1⟩, fun e h => by (cases h; rfl)⟩

/-- **C74 (weights).** Loss weights are accepted exactly if none is negative (otherwise `InvalidParameterError`), and with
accepted weights a model that is at least as good in each of the three terms has a total loss that is not larger. -/
theorem C74_weights (w : LossWeights) :
    (w.check = .ok w ↔ 0 ≤ w.recon ∧ 0 ≤ w.kld ∧ 0 ≤ w.nll) ∧ (∀ e, w.check = .error e → e = .invalidParameter) ∧
      (w.check = .ok w → ∀ {X Z : Type} (c : Cfg), c.w = w → ∀ (E E' : Enc X Z) (xs ys : List X) (m m' : Metrics)
        {r k n t r' k' n' t' : ℝ}, components c E xs = .ok m → components c E' ys = .ok m' →
        m = ⟨some r, some k, some n, some t⟩ → m' = ⟨some r', some k', some n', some t'⟩ →
        r ≤ r' → k ≤ k' → n ≤ n' → t ≤ t') := by
  have h0 : w.check = .ok w ↔ 0 ≤ w.recon ∧ 0 ≤ w.kld ∧ 0 ≤ w.nll := by
    unfold LossWeights.check
    split_ifs with h
    · refine ⟨(fun h => by cases h), fun ⟨a, b, c⟩ => ?_⟩
      rcases h with h | h | h <;> linarith
    · push Not at h
      exact ⟨fun _ => h, fun _ => rfl⟩
  refine ⟨h0, ?_, ?_⟩
  · intro e
    unfold LossWeights.check
    split_ifs
    · intro h; cases h; rfl
    · intro h; cases h
  · intro hw X Z c hc E E' xs ys m m' r k n t r' k' n' t' hm hm' he he' hr hk hn
    obtain ⟨a, b, d⟩ := h0.1 hw
    have tot : ∀ (E : Enc X Z) (xs : List X) (m : Metrics) {r k n t : ℝ}, components c E xs = .ok m →
        m = ⟨some r, some k, some n, some t⟩ → t = w.recon * r + w.kld * k + w.nll * n := by
      intro E xs m r k n t hm he
      unfold components at hm
      split at hm
      · cases hm
      · split at hm
        · cases hm
        · rename_i st _ _ ro _
          have hm' := Except.ok.inj hm
          rw [he] at hm'
          injection hm' with e1 e2 e3 e4
          rw [e1, e2, e3, hc] at e4
          simpa [nadd, nmul, eq_comm] using e4
    rw [tot E xs m hm he, tot E' ys m' hm' he']
    have := mul_le_mul_of_nonneg_left hr a
    have := mul_le_mul_of_nonneg_left hk b
    have := mul_le_mul_of_nonneg_left hn d
    linarith

end Apc
end Verif

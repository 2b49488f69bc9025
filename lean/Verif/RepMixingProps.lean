import Verif.RepMixing
import Verif.CircuitProps
import Mathlib.Tactic.FieldSimp
/-
C44 and C51: weights and repetition choice of RepetitionMixingLayer.
-/
namespace Verif.RepMix

/-- Whatever logits the layer holds (not all -inf), the weights read are a convex combination over
repetitions. -/
theorem C44_weights_convex_over_repetitions (l : Layer) (f c : ℕ)
    (h : ∃ r < l.R, l.logits f c r ≠ ⊥) :
    (∀ r, 0 ≤ l.weights f c r) ∧ ∑ r ∈ Finset.range l.R, l.weights f c r = 1 :=
  ⟨fun r => softmax_nonneg _ _ _, sum_softmax h⟩

theorem setW_ok {d F Co R : ℕ} {w : W3} {θ} (h : setW d F Co R w = .ok θ) :
    (w.Fw = F ∧ w.Co = Co ∧ w.R = R) ∧ (∀ f < F, ∀ c < Co, ∀ r < R, 0 < w.val f c r) ∧
    θ = fun f c r => logL (w.val f c r) := by
  unfold setW at h
  split at h
  · simp at h
  · rename_i h1
    split at h
    · simp at h
    · rename_i h2
      split at h
      · simp at h
      · simp only [Except.ok.injEq] at h
        exact ⟨not_not.mp h1, not_not.mp h2, h.symm⟩

/-- **C44, the part that holds.** Assigning repetition-normalised weights to an existing layer is
accepted and they are read back unchanged. Missing: passing them to the constructor, which is false
(`C44_constructor_rejects`, `C44_constructor_renormalises`). -/
theorem C44_assign_roundtrip_partial (l : Layer) (w : W3)
    (hshape : w.Fw = l.F ∧ w.Co = l.Co ∧ w.R = l.R)
    (hpos : ∀ f < l.F, ∀ c < l.Co, ∀ r < l.R, 0 < w.val f c r)
    (hsum : ∀ f < l.F, ∀ c < l.Co, ∑ r ∈ Finset.range l.R, w.val f c r = 1) :
    ∃ l', assign l w = .ok l' ∧
      ∀ f < l.F, ∀ c < l.Co, ∀ r < l.R, l'.weights f c r = w.val f c r := by
  have hclose : Circ.CloseToOne 1 := by unfold Circ.CloseToOne; norm_num
  have hok : setW 2 l.F l.Co l.R w = .ok fun f c r => logL (w.val f c r) := by
    unfold setW
    rw [if_neg (not_not.mpr hshape), if_neg (not_not.mpr hpos), if_neg]
    simp only [not_not, SumsToOne]
    rw [if_neg (by decide)]
    intro f hf c hc
    rw [hsum f hf c hc]
    exact hclose
  refine ⟨_, by simp only [assign, hok, bind, Except.bind, pure, Except.pure]; rfl, ?_⟩
  intro f hf c hc r hr
  show softmax l.R (fun r => logL (w.val f c r)) r = _
  rw [softmax_eq, expL_logL (hpos f hf c hc r hr).le]
  have : ∑ j ∈ Finset.range l.R, expL (logL (w.val f c j)) = 1 := by
    rw [← hsum f hf c hc]
    apply Finset.sum_congr rfl
    intro j hj
    exact expL_logL (hpos f hf c hc j (Finset.mem_range.mp hj)).le
  rw [this, div_one]

/-- Repetition-normalised weights of one feature, one channel and two repetitions. -/
noncomputable def exW : W3 := ⟨1, 1, 2, fun _ _ _ => 1 / 2⟩

/-- **C44 is false of the constructor**: weights that are positive and sum to one over repetitions
are rejected (one feature, one channel, two repetitions with weight 1/2 each). -/
theorem C44_constructor_rejects :
    (∀ r < 2, 0 < exW.val 0 0 r) ∧ (∑ r ∈ Finset.range 2, exW.val 0 0 r = 1) ∧
    mk 1 1 exW = .error .invalidWeights := by
  refine ⟨by intro r _; norm_num [exW], by norm_num [exW], ?_⟩
  have : setW 1 1 1 2 exW = .error .invalidWeights := by
    unfold setW
    rw [if_neg (by simp [exW]), if_neg (by simp [exW]), if_pos]
    unfold SumsToOne
    rw [if_pos rfl]
    intro h
    have := h 0 (by norm_num) 0 (by norm_num)
    unfold Circ.CloseToOne at this
    norm_num [exW, abs_le] at this
  simp only [mk]
  show (do
    if exW.Co < 1 then throw Exc.valueError
    let θ ← setW 1 1 1 2 exW
    if exW.Co ≠ 1 then throw Exc.valueError
    return (⟨1, exW.Co, exW.R, θ⟩ : Layer)) = _
  rw [this]
  rfl

/-- ... and every weight tensor the constructor does accept is read back normalised over the other
axis: the weight read is `w[f,c,r] / sum_r w[f,c,r]`, not `w[f,c,r]`. -/
theorem C44_constructor_renormalises (F C : ℕ) (w : W3) (l : Layer) (h : mk F C w = .ok l) :
    ∀ f < F, ∀ c < l.Co, ∀ r < l.R,
      l.weights f c r = w.val f c r / ∑ r ∈ Finset.range w.R, w.val f c r := by
  unfold mk at h
  simp only [bind, Except.bind, pure, Except.pure, throw, throwThe, MonadExceptOf.throw] at h
  split at h
  · simp at h
  · split at h
    · simp at h
    · rename_i θ hθ
      split at h
      · simp at h
      · simp only [Except.ok.injEq] at h
        obtain ⟨_, hpos, rfl⟩ := setW_ok hθ
        subst h
        intro f hf c hc r hr
        show softmax w.R (fun r => logL (w.val f c r)) r = _
        rw [softmax_eq, expL_logL (hpos f hf c hc r hr).le]
        congr 1
        apply Finset.sum_congr rfl
        intro j hj
        exact expL_logL (hpos f hf c hc j (Finset.mem_range.mp hj)).le

/-- A layer the constructor accepts: two channels with weights (1/4, 1/2) and (3/4, 1/2) over two
repetitions; the first channel is read back as 1/3 instead of 1/4. -/
noncomputable def exW2 : W3 :=
  ⟨1, 2, 2, fun _ c r => if c = 0 then (if r = 0 then 1/4 else 1/2) else (if r = 0 then 3/4 else 1/2)⟩

theorem C44_accepted_not_read_back :
    ∃ l, mk 1 2 exW2 = .ok l ∧ l.weights 0 0 0 = 1 / 3 ∧ exW2.val 0 0 0 = 1 / 4 := by
  have hok : setW 1 1 2 2 exW2 = .ok fun f c r => logL (exW2.val f c r) := by
    unfold setW
    rw [if_neg (by simp [exW2]), if_neg, if_neg]
    · simp only [not_not, SumsToOne, if_true]
      intro f _ r hr
      unfold Circ.CloseToOne
      interval_cases r <;> norm_num [exW2, Finset.sum_range_succ]
    · simp only [not_not]
      intro f _ c _ r _
      simp only [exW2]
      split_ifs <;> norm_num
  have hmk : mk 1 2 exW2 = .ok ⟨1, 2, 2, fun f c r => logL (exW2.val f c r)⟩ := by
    unfold mk
    show (do
      if (2 : ℕ) < 1 then throw Exc.valueError
      let θ ← setW 1 1 2 2 exW2
      if (2 : ℕ) ≠ 2 then throw Exc.valueError
      return (⟨1, 2, 2, θ⟩ : Layer)) = _
    rw [hok]
    rfl
  refine ⟨_, hmk, ?_, by norm_num [exW2]⟩
  rw [C44_constructor_renormalises 1 2 exW2 _ hmk 0 (by norm_num) 0 (by norm_num) 0 (by norm_num)]
  norm_num [exW2, Finset.sum_range_succ]

/-! ### The mixture semantics and the repetition that sampling draws -/

/-- **C51.** `log_likelihood` is the mixture over repetitions with the weights that are read. -/
theorem C51_likelihood_is_repetition_mixture (l : Layer) (x : ℕ → ℕ → ℕ → LogV) (f c : ℕ) :
    expL (l.ll x f c) = ∑ r ∈ Finset.range l.R, l.weights f c r * expL (x f c r) := by
  unfold Layer.ll Layer.weights
  rw [expL_lse]
  apply Finset.sum_congr rfl
  intro r _
  rw [expL_add, expL_logSoftmax_eq_softmax, mul_comm]

/-- **C51, the part that holds.** With one channel the repetition is drawn with its mixture
weight. -/
theorem C51_single_channel_partial (l : Layer) (h : l.Co = 1) (r : ℕ) :
    l.repProb r = l.weights 0 0 r := by
  unfold Layer.repProb Layer.weights Layer.repLogits
  simp [h]

/-- **C51 is false with two channels**: a layer whose channel 0 has repetition weights (1/3, 2/3)
and channel 1 (3/5, 2/5): sampling channel 0 draws repetition 0 with probability 3/7. -/
theorem C51_two_channels_wrong :
    ∃ l, mk 1 2 exW2 = .ok l ∧ l.weights 0 0 0 = 1 / 3 ∧ l.repProb 0 = 3 / 7 := by
  obtain ⟨l, hl, h1, _⟩ := C44_accepted_not_read_back
  refine ⟨l, hl, h1, ?_⟩
  have hl' : l = ⟨1, 2, 2, fun f c r => logL (exW2.val f c r)⟩ := by
    unfold mk at hl
    simp only [bind, Except.bind, pure, Except.pure, throw, throwThe, MonadExceptOf.throw] at hl
    split at hl
    · simp at hl
    · split at hl
      · simp at hl
      · rename_i θ hθ
        split at hl
        · simp at hl
        · simp only [Except.ok.injEq] at hl
          obtain ⟨_, _, rfl⟩ := setW_ok hθ
          exact hl.symm
  subst hl'
  unfold Layer.repProb
  rw [softmax_eq]
  simp only [Layer.repLogits, expL_sum]
  have hv : ∀ c r, expL (logL (exW2.val 0 c r)) = exW2.val 0 c r := by
    intro c r
    apply expL_logL
    simp only [exW2]
    split_ifs <;> norm_num
  simp only [hv]
  norm_num [exW2, Finset.sum_range_succ, Finset.prod_range_succ]

end Verif.RepMix

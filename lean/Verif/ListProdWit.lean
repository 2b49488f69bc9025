import Verif.ListProdMain
import Verif.BuildKit

/-!
C69: witnesses and counterexamples.
-/

namespace Verif.LP.Wit

open Finset MeasureTheory Verif.Circ
open Verif.Prog hiding bind
open Verif.LP.Mod

/-- Channel 0 says one with probability 1/4, the others with probability 3/4. -/
noncomputable def p (ch : ℕ) : ℝ := if ch = 0 then 1/4 else 3/4

theorem p_pos (ch : ℕ) : 0 ≤ p ch := by unfold p; split_ifs <;> norm_num

theorem p_le (ch : ℕ) : p ch ≤ 1 := by unfold p; split_ifs <;> norm_num

/-- A Bernoulli leaf on the variables `q`. -/
noncomputable def lf (q : List Var) (n : ℕ) : Mod := base (.leaf q n 1 fun _ ch _ => Leaves.bernoulliLL (p ch))

/-- Counting measure on {0, 1}. -/
noncomputable def ν : Var → Measure ℝ := fun _ => Leaves.countBelow 2

theorem lf_good {q : List Var} {n : ℕ} (hq : ∀ v ∈ q, 0 ≤ v) (hnd : q.Nodup) (hn : 1 ≤ n) : Good ν (lf q n) := by
  have hd : Build.DensOk ν q (fun _ ch (_ : ℕ) => Leaves.bernoulliLL (p ch)) := by
    intro i hi ch _
    exact ⟨Leaves.bernoulli_measurable _, Leaves.bernoulli_normalised (p_pos ch) (p_le ch)⟩
  obtain ⟨-, h⟩ := Build.leaf_pre hq hnd hn hd
  exact ⟨h.acc, h.al, h.lf⟩

/-- Transition probabilities: stay with probability 3/4. -/
noncomputable def A (ci co : ℕ) : ℝ := if ci = co then 3/4 else 1/4

/-- A hidden Markov model with two binary observations and two hidden states:
`Sum(ElementwiseProduct([emission0, Sum(emission1)]))`. -/
noncomputable def message : Mod := sum (lf [1] 2) 2 1 fun _ ci co _ => logL (A ci co)

noncomputable def pair : Mod := mul false 2 ![lf [0] 2, message]

noncomputable def hmm : Mod := sum pair 1 1 fun _ _ _ _ => logL (1/2)

theorem message_good : Good ν message := by
  refine ⟨lf_good (by simp) (by simp) (by norm_num), by norm_num, fun f _ co _ r _ => ⟨0, by decide, ?_⟩⟩
  rw [Ne, ← expL_eq_zero_iff, expL_logL (by unfold A; split_ifs <;> norm_num)]
  unfold A
  split_ifs <;> norm_num

theorem hmm_good : Good ν hmm := by
  refine ⟨⟨fun i => ?_, ?_, fun i j => ?_⟩, by norm_num, fun f _ co _ r _ => ⟨0, by decide, ?_⟩⟩
  · fin_cases i
    · exact lf_good (by simp) (by simp) (by norm_num)
    · exact message_good
  · rfl
  · fin_cases i <;> fin_cases j <;> rfl
  · rw [Ne, ← expL_eq_zero_iff, expL_logL (by norm_num)]; norm_num

theorem hmm_pos : PosCh hmm := by
  intro i
  fin_cases i <;> exact (by decide : 1 ≤ 2)

theorem hmm_rep : RepS 0 hmm := by
  refine ⟨fun i => ?_, Nat.one_pos⟩
  fin_cases i
  · exact Nat.one_pos
  · exact ⟨Nat.one_pos, Nat.one_pos⟩

theorem hmm_tensor : tensorR hmm = some 1 := by
  have h : tensorR pair = some 1 := by
    unfold pair
    simp only [Mod.tensorR]
    rw [dif_pos (by norm_num)]
    rw [if_pos]
    · rfl
    · refine ⟨fun i => ?_, fun i => ?_⟩ <;> fin_cases i <;> rfl
  unfold hmm
  simp only [Mod.tensorR, h]
  rfl

theorem wt (n : ℕ) (w : ℕ → ℝ) (h0 : ∀ i, 0 ≤ w i) (h1 : ∑ i ∈ range n, w i = 1) (i : ℕ) :
    softmax n (fun i => logL (w i)) i = w i := by
  rw [softmax_eq]
  simp only [expL_logL (h0 _), h1, div_one]

theorem val_lf (v : Var) (n : ℕ) (x : Row) (ch : ℕ) : val (lf [v] n) 0 x 0 ch = cellVal (Leaves.bernoulliLL (p ch)) (x v) := by
  unfold lf
  rw [Mod.val]
  exact featAt_leaf (q := [v]) (f := 0) (v := v) rfl _ _ _

theorem hmm_value (x : Row) : likelihood hmm x = ∑ z ∈ range 2, 1/2 * (expL (cellVal (Leaves.bernoulliLL (p z)) (x 0)) *
    ∑ z' ∈ range 2, A z' z * expL (cellVal (Leaves.bernoulliLL (p z')) (x 1))) := by
  have hm : ∀ co < 2, expL (val message 0 x 0 co) = ∑ z' ∈ range 2, A z' co * expL (cellVal (Leaves.bernoulliLL (p z')) (x 1)) := by
    intro co hco
    unfold message
    rw [expL_val_sum]
    refine sum_congr rfl fun z _ => ?_
    rw [val_lf]
    congr 1
    refine wt 2 (fun ci => A ci co) (fun i => ?_) ?_ z
    · beta_reduce; unfold A; split_ifs <;> norm_num
    · rw [sum_range_succ, sum_range_one]
      rcases (by omega : co = 0 ∨ co = 1) with rfl | rfl <;> norm_num [A]
  have hp : ∀ z < 2, expL (val pair 0 x 0 z) = expL (cellVal (Leaves.bernoulliLL (p z)) (x 0)) * expL (val message 0 x 0 z) := by
    intro z hz
    unfold pair
    rw [val_mul (outer := false) rfl (by intro i j; fin_cases i <;> fin_cases j <;> rfl) (show 0 < 1 by decide) (show z < 2 from hz),
      Fin.sum_univ_two, expL_add, ← val_lf 0 2]
    rfl
  unfold Mod.likelihood
  rw [show F hmm = 1 from rfl, prod_range_one]
  unfold hmm
  rw [expL_val_sum]
  refine sum_congr rfl fun z hz => ?_
  have hz : z < 2 := mem_range.1 hz
  rw [hp z hz, hm z hz]
  congr 1
  exact wt 2 (fun _ => 1/2) (fun i => by norm_num) (by rw [sum_range_succ, sum_range_one]; norm_num) z

/-- The hypotheses of the C69 theorems are met by a hidden Markov model with two observations, and sampling has the
expected probability: both observations are one with probability 9/32. -/
theorem C69_hmm_example : Good ν hmm ∧ PosCh hmm ∧ RepS 0 hmm ∧ tensorR hmm = some 1 ∧
    mkMul false [lf [0] 2, message] = .ok (mul false 2 [lf [0] 2, message].get) ∧
    (sampleData hmm fun _ => none).prob (fun v => if v = 0 ∨ v = 1 then some 1 else none) = ENNReal.ofReal (9/32) := by
  refine ⟨hmm_good, hmm_pos, hmm_rep, hmm_tensor, rfl, ?_⟩
  have hs : scope hmm = ⟨[0, 1], []⟩ := rfl
  rw [C69_sample_law hmm_good hmm_pos hmm_rep]
  · rw [hmm_value]
    congr 1
    simp only [sum_range_succ, sum_range_zero]
    simp [cellVal, Leaves.bernoulliLL, p, A, expL_logL (show (0:ℝ) ≤ 4⁻¹ by norm_num), expL_logL (show (0:ℝ) ≤ 3/4 by norm_num)]
    norm_num
  · rw [Mod.Completes, hs]
    refine ⟨?_, by simp, ?_⟩
    · intro v hv
      simp at hv
      simp [hv]
    · intro v hv
      simp at hv
      simp [hv]

/-- An outer product of a two-channel and a three-channel leaf has six channels. -/
theorem C69_outer_example : ∃ m, mkMul true [lf [0] 2, lf [1] 3] = .ok m ∧ C m = 6 ∧ Good ν m ∧ ∃ T, logLik m (fun _ => some 1) = .ok T := by
  have hg : ∀ m ∈ [lf [0] 2, lf [1] 3], Good ν m := by
    intro m hm
    simp only [List.mem_cons, List.not_mem_nil, or_false] at hm
    rcases hm with rfl | rfl <;> exact lf_good (by simp) (by simp) (by norm_num)
  have hF : SameFeatures [lf [0] 2, lf [1] 3] := by
    intro a ha b hb
    simp only [List.mem_cons, List.not_mem_nil, or_false] at ha hb
    rcases ha with rfl | rfl <;> rcases hb with rfl | rfl <;> rfl
  refine ⟨mul true 2 [lf [0] 2, lf [1] 3].get, rfl, rfl, (C69_constructors hg).1 true _ hF rfl, _, logLik_of (t := 1) ?_ _⟩
  simp only [Mod.tensorR]
  rw [dif_pos (by norm_num), if_pos]
  · rfl
  · refine ⟨fun i => ?_, rfl, fun i => .inl ?_⟩
    · fin_cases i <;> exact .inl rfl
    · fin_cases i <;> rfl

/-- **C69 (finding).** The example of the documentation, inputs of shapes (3, 4) and (1, 4): ElementwiseProduct accepts
them, but `log_likelihood` and `sample` always raise; OuterProduct accepts them and computes `log_likelihood`, but
`sample` always raises. -/
theorem C69_broadcast_example :
    (∃ m, mkMul false [lf [0, 1, 2] 4, lf [3] 4] = .ok m ∧ (∀ x, logLik m x = .error .runtimeError) ∧
      ∀ y, Fails (sampleData m y)) ∧
    ∃ m, mkMul true [lf [0, 1, 2] 4, lf [3] 4] = .ok m ∧ (∀ x, ∃ T, logLik m x = .ok T) ∧ ∀ y, Fails (sampleData m y) := by
  have hF : ¬ SameFeatures [lf [0, 1, 2] 4, lf [3] 4] := by
    intro h
    have : (3 : ℕ) = 1 := h (lf [0, 1, 2] 4) (by simp) (lf [3] 4) (by simp)
    omega
  refine ⟨⟨mul false 2 [lf [0, 1, 2] 4, lf [3] 4].get, rfl, fun x => (C69_elementwise_broadcast_raises rfl hF x).1, fun y => ?_⟩,
    mul true 2 [lf [0, 1, 2] 4, lf [3] 4].get, rfl, fun x => ⟨_, logLik_of (t := 1) ?_ x⟩, fun y => ?_⟩
  · exact C69_broadcast_sampling_raises (l := [lf [0, 1, 2] 4, lf [3] 4]) (outer := false) rfl (show (3 : ℕ) ≠ 1 by decide)
      (a := lf [3] 4) (by simp) (show (1 : ℕ) ≠ 3 by decide) _ _ _ _ _
  · simp only [Mod.tensorR]
    rw [dif_pos (by norm_num), if_pos]
    · rfl
    · refine ⟨fun i => ?_, rfl, fun i => .inl ?_⟩
      · fin_cases i
        · exact .inl rfl
        · exact .inr rfl
      · fin_cases i <;> rfl
  · exact C69_broadcast_sampling_raises (l := [lf [0, 1, 2] 4, lf [3] 4]) (outer := true) rfl (show (3 : ℕ) ≠ 1 by decide)
      (a := lf [3] 4) (by simp) (show (1 : ℕ) ≠ 3 by decide) _ _ _ _ _

example : mkMul true [lf [0, 1] 2] = .error .typeError :=
  C69_outer_single_raises (lf_good (by simp) (by simp) (by norm_num)) (show (2 : ℕ) ≠ 1 by decide)

end Verif.LP.Wit

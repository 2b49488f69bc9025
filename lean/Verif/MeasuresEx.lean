import Verif.MeasuresLaws
import Verif.MeasuresWoe

/-!
# C40/C59: concrete circuits

A mixture over a Bernoulli and a three-valued Categorical variable meets the hypotheses of the theorems; a Bernoulli leaf with three
channels shows that `channel_agg="logsumexp"` gives negative "entropies".
-/

open MeasureTheory

namespace Verif
namespace Measures

open Circ

/-- Bernoulli(1/3), Bernoulli(2/3) on variable 0 and two three-valued Categoricals on variable 1, multiplied channel by channel and mixed. -/
noncomputable def exM : MC :=
  .sum (.prod (.cat1 2 ![.leaf [0] 2 1 (.bernoulli fun _ c _ => if c = 0 then 1 / 3 else 2 / 3),
    .leaf [1] 2 1 (.categorical 3 fun _ c _ k => ((c * k : ℕ) : ℝ))])) 1 1 fun _ _ _ _ => 0

noncomputable def exMμ : Var → Measure ℝ := fun v => if v = 0 then Leaves.countBelow 2 else Leaves.countBelow 3

def exDom : Var → ℕ := fun v => if v = 0 then 2 else 3

theorem exM_ok : Ok exMμ exM 1 ∧ exM.circ.scope.query = [0, 1] ∧ exM.circ.C = 1 := by
  refine ⟨⟨⟨⟨fun i => ?_, ?_⟩, le_rfl, ?_⟩, fun i => ?_, fun i => ?_, rfl, le_rfl, le_rfl⟩, rfl, rfl⟩
  · fin_cases i <;> rfl
  · rfl
  · intro f _ co _ r _
    exact ⟨0, by decide, WithBot.coe_ne_bot (a := (0 : ℝ))⟩
  · fin_cases i <;> exact trivial
  · fin_cases i
    · intro i hi ch _ r _
      obtain rfl : i = 0 := by simpa using hi
      refine ⟨Leaves.bernoulli_measurable _, Leaves.bernoulli_normalised ?_ ?_⟩ <;> (beta_reduce; split_ifs <;> norm_num)
    · intro i hi ch _ r _
      obtain rfl : i = 0 := by simpa using hi
      exact ⟨Leaves.categorical_measurable _ _, Leaves.categorical_normalised ⟨0, by norm_num, WithBot.coe_ne_bot⟩⟩

theorem exM_target {v : Var} (hv : v = 0 ∨ v = 1) : Target exMμ exM exDom ⟨[v], []⟩ := by
  have hs : HasSize exM v (exDom v) := by
    rcases hv with rfl | rfl
    · refine ⟨⟨_, List.mem_cons_self, by decide⟩, fun l hl hv => ?_⟩
      have hl' : l ∈ [_, _] := hl
      rcases List.mem_pair.1 hl' with rfl | rfl
      · exact .inl ⟨_, rfl, rfl⟩
      · exact absurd hv (by decide)
    · refine ⟨⟨_, List.mem_cons_of_mem _ List.mem_cons_self, by decide⟩, fun l hl hv => ?_⟩
      have hl' : l ∈ [_, _] := hl
      rcases List.mem_pair.1 hl' with rfl | rfl
      · exact absurd hv (by decide)
      · exact .inr ⟨_, rfl, by decide⟩
  refine ⟨⟨?_, by simp, by simp, by simp, by simp, by simp⟩, by simp, ?_, ?_⟩
  · rcases hv with rfl | rfl <;> simp
  · intro w hw
    obtain rfl : w = v := by simpa using hw
    exact hs
  · intro w hw
    obtain rfl : w = v := by simpa using hw
    rcases hv with rfl | rfl <;> simp [exMμ, exDom]

/-- The hypotheses of the entropy and mutual-information theorems are met: the mutual information of the two variables is returned, is
non-negative and bounded by both entropies. -/
example : ∃ e0 e1 mi, entropy exM .logmeanexp .logmeanexp ⟨[0], []⟩ = .ok e0 ∧
    entropy exM .logmeanexp .logmeanexp ⟨[1], []⟩ = .ok e1 ∧
    mutualInformation exM .logmeanexp .logmeanexp ⟨[0], []⟩ ⟨[1], []⟩ = .ok mi ∧
    0 ≤ e0 ∧ 0 ≤ e1 ∧ 0 ≤ mi := by
  obtain ⟨hok, hq, hC⟩ := exM_ok
  have hcont : ∀ v ∈ exM.circ.scope.query, v < exM.circ.scope.query.length := by
    rw [hq]; decide
  obtain ⟨e0, a0, b0, -⟩ := C40_entropy_bounds hok (chA := .logmeanexp) (rpA := .logmeanexp) (.inl hC) (.inl rfl) hcont (exM_target (.inl rfl))
  obtain ⟨e1, a1, b1, -⟩ := C40_entropy_bounds hok (chA := .logmeanexp) (rpA := .logmeanexp) (.inl hC) (.inl rfl) hcont (exM_target (.inr rfl))
  obtain ⟨mi, _, _, a, -, -, b, -⟩ := C40_mutual_information_laws hok (chA := .logmeanexp) (rpA := .logmeanexp) (.inl hC) (.inl rfl) hcont (exM_target (.inl rfl))
    (exM_target (.inr rfl)) (by simp)
  exact ⟨e0, e1, mi, a0, a1, a, b0, b1, b⟩

/-- A Bernoulli(1/2) leaf with three channels. -/
noncomputable def exNeg : MC := .leaf [0] 3 1 (.bernoulli fun _ _ _ => 1 / 2)

/-- C40 (violated): with `channel_agg="logsumexp"` and more than one channel the aggregated values are not probabilities; the exact
entropy of a fair coin with three channels is `-3 log (3/2)`, a negative number. -/
theorem C40_logsumexp_negative :
    Ok (fun _ => Leaves.countBelow 2) exNeg 1 ∧
      ∃ e, entropy exNeg .logsumexp .first ⟨[0], []⟩ = .ok e ∧ e = - (3 * Real.log (3 / 2)) ∧ e < 0 := by
  have hok : Ok (fun _ => Leaves.countBelow 2) exNeg 1 := by
    refine ⟨rfl, trivial, ?_, rfl, by decide, le_rfl⟩
    intro i hi ch _ r _
    obtain rfl : i = 0 := by simpa using hi
    exact ⟨Leaves.bernoulli_measurable _, Leaves.bernoulli_normalised (by norm_num) (by norm_num)⟩
  refine ⟨hok, _, C40_entropy hok (.inr (by decide)) (.inl rfl) (by simp) (by simp) ?_ (dom := fun _ => 2) ?_, ?_, ?_⟩
  · show ∀ v ∈ ([0] : List Var), v < ((1 : ℕ) : Int)
    simp
  · intro v hv
    obtain rfl : v = 0 := by simpa using hv
    refine ⟨⟨_, List.mem_cons_self, by decide⟩, fun l hl _ => ?_⟩
    have : l = ([0], .bernoulli fun _ _ _ => 1 / 2) := by simpa [exNeg, MC.leaves] using hl
    exact .inl ⟨_, by rw [this], rfl⟩
  all_goals
    have hP : ∀ a : Asg (fun _ => 2) (([0] : List Var).toFinset), P exNeg 1 .logsumexp .first (row a) = 3 / 2 := by
      intro a
      have hb : ∀ i : Fin 2, expL (Leaves.bernoulliLL (1 / 2) ((i : ℕ) : ℝ)) = 1 / 2 := by
        intro i
        fin_cases i
        · simp only [Leaves.bernoulliLL]
          norm_num [expL_logL (show (0 : ℝ) ≤ 1 / 2 by norm_num)]
        · simp only [Leaves.bernoulliLL]
          norm_num [expL_logL (show (0 : ℝ) ≤ 1 / 2 by norm_num)]
      have hr : row a 0 = some (((a ⟨0, by simp⟩ : Fin 2) : ℕ) : ℝ) := by
        unfold row; rw [dif_pos (by simp)]
      have hf : ∀ c : ℕ, expL (featAt (den exNeg.circ) 0 (row a) 0 c) = 1 / 2 := by
        intro c
        rw [show featAt (den exNeg.circ) 0 (row a) 0 c = Leaves.bernoulliLL (1 / 2) (((a ⟨0, by simp⟩ : Fin 2) : ℕ) : ℝ) by
          show (match row a 0 with | none => 0 | some t => Leaves.bernoulliLL (1 / 2) t) = _
          rw [hr]]
        exact hb _
      show avg 3 .logsumexp (fun c => avg 1 .first fun r => ∏ f ∈ Finset.range 1, expL (featAt (den exNeg.circ) f (row a) r c)) = 3 / 2
      simp only [avg, Finset.prod_range_one, if_true, hf]
      norm_num
    have hS : ∑ a : Asg (fun _ => 2) (([0] : List Var).toFinset), Real.negMulLog (P exNeg 1 .logsumexp .first (row a))
        = - (3 * Real.log (3 / 2)) := by
      rw [Finset.sum_congr rfl fun a _ => by rw [hP a], Finset.sum_const, Finset.card_univ, Fintype.card_pi]
      simp [Real.negMulLog]
      ring
  · exact hS
  · show ∑ a : Asg (fun _ => 2) (([0] : List Var).toFinset), _ < 0
    rw [hS]
    have := Real.log_pos (show (1 : ℝ) < 3 / 2 by norm_num)
    linarith

/-- The hypotheses of the conditional-probability and weight-of-evidence theorems are met by `exM`. -/
example (e : Row) (he : P exM 1 .first .first (Function.update e 0 none) ≠ 0) :
    ∃ p : ℕ → ℝ, (∀ i : ℕ, condProb exM .first .first 2 0 i e = .ok (some (p i))) ∧ ∑ i ∈ Finset.range 2, p i = 1 := by
  obtain ⟨hok, hq, hC⟩ := exM_ok
  obtain ⟨p, h1, -, h2⟩ := C40_conditional_sums_to_one hok (chA := .first) (rpA := .first) (.inl hC) (.inl rfl) (d := 2) (by rw [hq]; decide)
    (y := 0) ((exM_target (.inl rfl)).size 0 (by simp)) (by simp [exMμ, exDom]) le_rfl e he
  exact ⟨p, h1, h2⟩

end Measures
end Verif

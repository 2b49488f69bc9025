import Verif.CmsTree

/-!
# Property C64: where it fails
-/

namespace Verif.Cms

open Verif Verif.CLTree Verif.LeafFit Finset

/-! ## Sampling a mixture of trees -/

/-- The tree with root 0 and child 1. -/
abbrev pair : List ℤ := [-1, 0]

theorem pair_tree : IsTree pair := by
  refine ⟨⟨⟨0, rfl, ?_⟩, ?_⟩, ?_⟩
  · intro j hj
    fin_cases j
    · rfl
    · simp at hj
  · intro i; fin_cases i <;> simp
  · have h0 : Reach pair 0 := .root rfl
    intro i
    fin_cases i
    · exact h0
    · exact .step (p := 0) rfl h0

/-- Decoder outputs: both variables are 0 with probability 3/4 at the first point, 1/4 at the second. -/
noncomputable def outA : ℕ → ℝ := fun n => if n = 0 ∨ n = 6 ∨ n = 7 then Real.log 3 else 0
noncomputable def outB : ℕ → ℝ := fun n => if n = 1 ∨ n = 8 ∨ n = 9 then Real.log 3 else 0

/-- The decoded tables. -/
noncomputable def tabs : ℕ → Fin pair.length → ℕ → ℕ → LogV := fun i =>
  decodeCpt 2 0 (if i = 0 then outA else outB)

/-- The probability of a value at a point. -/
noncomputable def pr (i v : ℕ) : ℝ := if i = 0 then (if v = 0 then 3 / 4 else 1 / 4) else (if v = 0 then 1 / 4 else 3 / 4)

theorem tabs_eq {i v y : ℕ} (hi : i < 2) (hv : v < 2) (hy : y < 2) (f : Fin 2) : expL (tabs i f v y) = pr i v := by
  have e3 : Real.exp (Real.log 3) = 3 := Real.exp_log (by norm_num)
  unfold tabs decodeCpt
  interval_cases i <;> interval_cases v <;> interval_cases y <;> fin_cases f <;>
    simp [expL_logSoftmax, sum_range_succ, outA, outB, pr, e3] <;> norm_num

theorem joint_tabs {i : ℕ} (hi : i < 2) {u v : ℕ} (hu : u < 2) (hv : v < 2) :
    joint pair (tabs i) ![u, v] = pr i u * pr i v := by
  unfold joint
  show (∏ k : Fin 2, _) = _
  rw [Fin.prod_univ_two]
  have h0 := tabs_eq hi hu Nat.zero_lt_two 0
  have h1 := tabs_eq hi hv hu 1
  rw [← h0, ← h1]
  rfl

/-- The values of a cell. -/
def cand : Option ℕ → Finset ℕ
  | none => range 2
  | some c => {c}

theorem sum_completions (o : Fin 2 → Option ℕ) (ho : RowOk 2 o) {M : Type} [AddCommMonoid M] (f : (Fin 2 → ℕ) → M) :
    ∑ x ∈ completions (F := 2) 2 o, f x = ∑ u ∈ cand (o 0), ∑ v ∈ cand (o 1), f ![u, v] := by
  classical
  have hmem : ∀ i u, u ∈ cand (o i) ↔ u < 2 ∧ ∀ c, o i = some c → u = c := by
    intro i u
    cases h : o i with
    | none => simp [cand]
    | some c =>
      simp only [cand, mem_singleton, Option.some.injEq, forall_eq']
      constructor
      · rintro rfl; exact ⟨ho i _ h, rfl⟩
      · rintro ⟨_, h⟩; exact h
  have : completions (F := 2) 2 o = (cand (o 0) ×ˢ cand (o 1)).image fun p => ![p.1, p.2] := by
    ext x
    simp only [completions, mem_filter, Fintype.mem_piFinset, mem_range, mem_image, mem_product, hmem, Prod.exists]
    constructor
    · rintro ⟨h1, h2⟩
      refine ⟨x 0, x 1, ⟨⟨h1 0, h2 0⟩, h1 1, h2 1⟩, ?_⟩
      funext i; fin_cases i <;> rfl
    · rintro ⟨a, b, ⟨⟨h1, h2⟩, h3, h4⟩, rfl⟩
      refine ⟨fun i => ?_, fun i => ?_⟩
      · fin_cases i
        · exact h1
        · exact h3
      · fin_cases i
        · exact h2
        · exact h4
  rw [this, sum_image, sum_product]
  intro p _ q _ h
  have h0 := congrFun h 0
  have h1 := congrFun h 1
  exact Prod.ext h0 h1

/-- One tree, evaluated. -/
theorem E_tree {i : ℕ} (hi : i < 2) (o : Fin 2 → Option ℕ) (ho : RowOk 2 o) (h : (Fin 2 → ℕ) → ENNReal) :
    (sampleRow (par pair) (tabs i) 2 [0, 1] [1, 0] 0 o).E h =
      ∑ u ∈ cand (o 0), ∑ v ∈ cand (o 1), ENNReal.ofReal (pr i u * pr i v /
        ∑ u ∈ cand (o 0), ∑ v ∈ cand (o 1), pr i u * pr i v) * h ![u, v] := by
  have hlt : ∀ k u, u ∈ cand (o k) → u < 2 := by
    intro k u hu
    cases hk : o k with
    | none => rw [hk] at hu; exact mem_range.1 hu
    | some c => rw [hk] at hu; rw [mem_singleton.1 hu]; exact ho k c hk
  have hpr : ∀ u, 0 < pr i u := by intro u; unfold pr; split_ifs <;> norm_num
  have hj : ∑ y ∈ completions (F := 2) 2 o, joint pair (tabs i) y = ∑ u ∈ cand (o 0), ∑ v ∈ cand (o 1), pr i u * pr i v := by
    rw [sum_completions o ho]
    exact sum_congr rfl fun u hu => sum_congr rfl fun v hv => joint_tabs hi (hlt 0 u hu) (hlt 1 v hv)
  have hne : ∀ k, (cand (o k)).Nonempty := by
    intro k
    cases o k with
    | none => exact ⟨0, by simp [cand]⟩
    | some c => exact ⟨c, by simp [cand]⟩
  have hp : 0 < ∑ u ∈ cand (o 0), ∑ v ∈ cand (o 1), pr i u * pr i v :=
    sum_pos (fun u _ => sum_pos (fun v _ => mul_pos (hpr u) (hpr v)) (hne 1)) (hne 0)
  have hj' : ∑ y ∈ completions (F := pair.length) 2 o, joint pair (tabs i) y =
      ∑ u ∈ cand (o 0), ∑ v ∈ cand (o 1), pr i u * pr i v := hj
  have hne' : ∑ y ∈ completions (F := pair.length) 2 o, joint pair (tabs i) y ≠ 0 := by rw [hj']; exact hp.ne'
  have main := E_sampleRow (ps := pair) (pre := [0, 1]) (post := [1, 0]) (root := 0) (by simp) pair_tree rfl rfl (K := 2)
    (obs := o) ho (tabs i) hne' h
  rw [hj'] at main
  refine main.trans ((sum_completions o ho _).trans ?_)
  refine sum_congr rfl fun u hu => sum_congr rfl fun v hv => ?_
  have := joint_tabs hi (hlt 0 u hu) (hlt 1 v hv)
  rw [this]

/-- Features not owned by any later tree are left alone. -/
theorem run_last {i : ℕ} (hi : i < 2) (step : ℕ → (Fin 2 → Option ℕ) → Prog (Fin 2 → ℕ))
    (hstep : step i = fun o => sampleRow (par pair) (tabs i) 2 [0, 1] [1, 0] 0 o) (g : Fin 2 → ℕ) (o : Fin 2 → Option ℕ)
    (ho : RowOk 2 o) (l : List ℕ) (hex : ∃ f, g f = i ∧ o f = none) (h : (Fin 2 → Option ℕ) → ENNReal) :
    (runTrees step g (i :: l) o).E h = ∑ u ∈ cand (o 0), ∑ v ∈ cand (o 1), ENNReal.ofReal (pr i u * pr i v /
        ∑ u ∈ cand (o 0), ∑ v ∈ cand (o 1), pr i u * pr i v) *
      (runTrees step g l fun f => if g f = i ∧ o f = none then some ((![u, v] : Fin 2 → ℕ) f) else o f).E h := by
  rw [runTrees, if_pos hex, Prog.E_bind, hstep, E_tree hi o ho]

/-- The second variable of `sum_range 2`. -/
theorem sum_two {M : Type} [AddCommMonoid M] (f : ℕ → M) : ∑ u ∈ range 2, f u = f 0 + f 1 := by
  simp [sum_range_succ]

/-- The two trees. -/
noncomputable abbrev step2 : ℕ → (Fin 2 → Option ℕ) → Prog (Fin 2 → ℕ) := fun i o =>
  sampleRow (par pair) (tabs i) 2 [0, 1] [1, 0] 0 o

open Classical in
/-- The indicator of the row `(0, 0)`. -/
noncomputable def ind00 : (Fin 2 → Option ℕ) → ENNReal := fun b => if b = fun _ => some 0 then 1 else 0

theorem prob_ind (p : Prog (Fin 2 → Option ℕ)) : p.prob (fun _ => some 0) = p.E ind00 := by
  unfold Prog.prob
  congr 1
  funext b
  unfold ind00
  by_cases h : b = fun _ => some 0
  · rw [if_pos h, if_pos h]
  · rw [if_neg h, if_neg h]

theorem ind00_eq (b : Fin 2 → Option ℕ) : ind00 b = if b 0 = some 0 ∧ b 1 = some 0 then 1 else 0 := by
  unfold ind00
  congr 1
  rw [funext_iff, Fin.forall_fin_two]

theorem pr_pos (i v : ℕ) : 0 < pr i v := by unfold pr; split_ifs <;> norm_num

theorem pr_sum (i : ℕ) : pr i 0 + pr i 1 = 1 := by by_cases h : i = 0 <;> simp [pr, h] <;> norm_num

/-- The last tree fills feature 1. -/
theorem last1 (g : Fin 2 → ℕ) (i : ℕ) (hi : i < 2) (e1 : g 1 = i) (o : Fin 2 → Option ℕ) (a : ℕ) (ha : a < 2)
    (h0 : o 0 = some a) (h1 : o 1 = none) :
    (runTrees step2 g [i] o).E ind00 = if a = 0 then ENNReal.ofReal (pr i 0) else 0 := by
  have ho : RowOk 2 o := by
    intro k v h
    fin_cases k
    · have : some a = some v := h0.symm.trans h
      injection this with this; omega
    · have : none = some v := h1.symm.trans h
      cases this
  rw [run_last hi step2 rfl g o ho _ ⟨1, e1, h1⟩]
  simp only [h0, h1, cand, sum_singleton, sum_two, runTrees, Prog.E, ind00_eq, e1, and_false, if_false, true_and,
    if_true, Matrix.cons_val_one, Matrix.cons_val_fin_one, reduceCtorEq]
  rw [← mul_add, pr_sum, mul_one, mul_div_cancel_left₀ _ (pr_pos i a).ne', mul_div_cancel_left₀ _ (pr_pos i a).ne']
  by_cases h : a = 0 <;> simp [h]

/-- The last tree fills feature 0. -/
theorem last0 (g : Fin 2 → ℕ) (i : ℕ) (hi : i < 2) (e1 : g 0 = i) (o : Fin 2 → Option ℕ) (a : ℕ) (ha : a < 2)
    (h0 : o 1 = some a) (h1 : o 0 = none) :
    (runTrees step2 g [i] o).E ind00 = if a = 0 then ENNReal.ofReal (pr i 0) else 0 := by
  have ho : RowOk 2 o := by
    intro k v h
    fin_cases k
    · have : none = some v := h1.symm.trans h
      cases this
    · have : some a = some v := h0.symm.trans h
      injection this with this; omega
  rw [run_last hi step2 rfl g o ho _ ⟨0, e1, h1⟩]
  simp only [h0, h1, cand, sum_singleton, sum_two, runTrees, Prog.E, ind00_eq, e1, and_false, if_false, true_and,
    if_true, Matrix.cons_val_zero, reduceCtorEq]
  rw [← add_mul, pr_sum, one_mul, mul_div_cancel_right₀ _ (pr_pos i a).ne', mul_div_cancel_right₀ _ (pr_pos i a).ne']
  by_cases h : a = 0 <;> simp [h]

/-- Whatever components own the two features, the result is `(0, 0)` with the product of the two components'
probabilities. -/
theorem run_zero (g : Fin 2 → ℕ) (h0 : g 0 < 2) (h1 : g 1 < 2) :
    (runTrees step2 g [0, 1] fun _ => none).E ind00 = ENNReal.ofReal (pr (g 0) 0 * pr (g 1) 0) := by
  have none_ok : RowOk 2 (fun _ : Fin 2 => none) := fun i v h => by cases h
  have hg0 : g 0 = 0 ∨ g 0 = 1 := by omega
  have hg1 : g 1 = 0 ∨ g 1 = 1 := by omega
  rcases hg0 with e0 | e0 <;> rcases hg1 with e1 | e1
  · rw [run_last Nat.zero_lt_two step2 rfl g _ none_ok _ ⟨0, e0, rfl⟩]
    simp only [cand, sum_two, runTrees, Fin.exists_fin_two, e0, e1, ind00_eq]
    simp [Prog.E, pr, e0, e1, ind00_eq]
    norm_num
  · rw [run_last Nat.zero_lt_two step2 rfl g _ none_ok _ ⟨0, e0, rfl⟩]
    have inner : ∀ u v : ℕ, u < 2 → (runTrees step2 g [1] fun f => if g f = 0 ∧ (none : Option ℕ) = none then
        some ((![u, v] : Fin 2 → ℕ) f) else none).E ind00 = if u = 0 then ENNReal.ofReal (pr 1 0) else 0 :=
      fun u v hu => last1 g 1 Nat.one_lt_two e1 _ u hu (by simp [e0]) (by simp [e1])
    refine (sum_congr rfl fun u hu => sum_congr rfl fun v hv => congrArg _ (inner u v (mem_range.1 hu))).trans ?_
    simp only [cand, sum_two, if_true, one_ne_zero, if_false, mul_zero, add_zero]
    rw [← ENNReal.ofReal_mul (by unfold pr; norm_num), ← ENNReal.ofReal_mul (by unfold pr; norm_num),
      ← ENNReal.ofReal_add (by unfold pr; norm_num) (by unfold pr; norm_num), e0, e1]
    congr 1
    unfold pr; norm_num
  · rw [run_last Nat.zero_lt_two step2 rfl g _ none_ok _ ⟨1, e1, rfl⟩]
    have inner : ∀ u v : ℕ, v < 2 → (runTrees step2 g [1] fun f => if g f = 0 ∧ (none : Option ℕ) = none then
        some ((![u, v] : Fin 2 → ℕ) f) else none).E ind00 = if v = 0 then ENNReal.ofReal (pr 1 0) else 0 :=
      fun u v hu => last0 g 1 Nat.one_lt_two e0 _ v hu (by simp [e1]) (by simp [e0])
    refine (sum_congr rfl fun u hu => sum_congr rfl fun v hv => congrArg _ (inner u v (mem_range.1 hv))).trans ?_
    simp only [cand, sum_two, if_true, one_ne_zero, if_false, mul_zero, add_zero]
    rw [← ENNReal.ofReal_mul (by unfold pr; norm_num), ← ENNReal.ofReal_mul (by unfold pr; norm_num),
      ← ENNReal.ofReal_add (by unfold pr; norm_num) (by unfold pr; norm_num), e0, e1]
    congr 1
    unfold pr; norm_num
  · rw [runTrees, if_neg (by rintro ⟨f, hf, _⟩; fin_cases f <;> simp_all),
      run_last Nat.one_lt_two step2 rfl g _ none_ok _ ⟨0, e0, rfl⟩]
    simp only [cand, sum_two, runTrees, e0, e1, ind00_eq, Prog.E]
    simp only [pr, e0, e1]
    norm_num

/-- The sampler of the compiled mixture. -/
noncomputable abbrev exSampler : Prog (Fin 2 → Option ℕ) :=
  cltSample pair 2 [1 / 2, 1 / 2] tabs [0, 1] [1, 0] 0 fun _ => none

theorem E_two (a b : ℝ) (h : (Fin 2 → Option ℕ) → ENNReal) :
    (cltSample pair 2 [a, b] tabs [0, 1] [1, 0] 0 fun _ => none).E h =
      (drawComponents 2 (fun i => logL (([a, b] : List ℝ).getD i 0)) (List.finRange 2) fun _ => 0).E
        fun g => (runTrees step2 g [0, 1] fun _ => none).E h := by
  unfold cltSample
  rw [Prog.E_bind]
  rfl

theorem half_softmax {i : ℕ} (hi : i < 2) :
    softmax 2 (fun i => logL (([1 / 2, 1 / 2] : List ℝ).getD i 0)) i = 1 / 2 := by
  rw [softmax_eq]
  simp only [sum_two]
  interval_cases i <;> simp [expL_logL] <;> norm_num

/-- **C64 fails for a mixture of trees.** Two trees with weight 1/2 each, `P(0,0)` being `(3/4)²` and `(1/4)²`: the
compiled module gives the row `(0, 0)` the likelihood 5/16, but samples it with probability 1/4, because a component is
drawn for every feature separately. -/
theorem C64_cltree_sampling_wrong :
    treeMixture pair 2 [1 / 2, 1 / 2] [tabs 0, tabs 1] (fun _ => some 0) = 5 / 16 ∧
      exSampler.prob (fun _ => some 0) = ENNReal.ofReal (1 / 4) := by
  constructor
  · unfold treeMixture
    have hc : completions (F := pair.length) 2 (fun _ => some 0) = {fun _ => 0} :=
      completions_complete fun j => by norm_num
    rw [hc]
    have hj : ∀ i < 2, joint pair (tabs i) (fun _ : Fin pair.length => 0) = pr i 0 * pr i 0 := by
      intro i hi
      refine Eq.trans ?_ (joint_tabs hi Nat.zero_lt_two Nat.zero_lt_two)
      refine congrArg (joint pair (tabs i)) ?_
      funext f; fin_cases f <;> rfl
    have h0 := hj 0 (by norm_num)
    have h1 := hj 1 (by norm_num)
    rw [show range ([1 / 2, 1 / 2] : List ℝ).length = range 2 from rfl, sum_two, sum_singleton, sum_singleton]
    show 1 / 2 * joint pair (tabs 0) _ + 1 / 2 * joint pair (tabs 1) _ = _
    rw [h0, h1]
    unfold pr; norm_num
  · have hE : exSampler.prob (fun _ => some 0) = (drawComponents 2 (fun i => logL (([1 / 2, 1 / 2] : List ℝ).getD i 0))
        (List.finRange 2) fun _ => 0).E fun g => (runTrees step2 g [0, 1] fun _ => none).E ind00 := by
      rw [prob_ind]
      exact E_two (1 / 2) (1 / 2) ind00
    rw [hE]
    have hdraw : ∀ H : (Fin 2 → ℕ) → ENNReal, (drawComponents 2 (fun i => logL (([1 / 2, 1 / 2] : List ℝ).getD i 0))
        (List.finRange 2) fun _ => 0).E H = ∑ i ∈ range 2, ENNReal.ofReal (1 / 2) * ∑ j ∈ range 2, ENNReal.ofReal (1 / 2) *
          H (Function.update (Function.update (fun _ => 0) 0 i) 1 j) := by
      intro H
      rw [show List.finRange 2 = [0, 1] from rfl]
      simp only [drawComponents, Prog.E]
      refine sum_congr rfl fun i hi => ?_
      rw [half_softmax (mem_range.1 hi)]
      refine congrArg _ (sum_congr rfl fun j hj => ?_)
      rw [half_softmax (mem_range.1 hj)]
    rw [hdraw]
    have hval : ∀ i < 2, ∀ j < 2, (runTrees step2 (Function.update (Function.update (fun _ => 0) 0 i) 1 j : Fin 2 → ℕ) [0, 1]
        fun _ => none).E ind00 = ENNReal.ofReal (pr i 0 * pr j 0) := fun i hi j hj => by
      refine (run_zero _ ?_ ?_).trans ?_ <;> simp [Function.update, hi, hj]
    refine (sum_congr rfl fun i hi => congrArg _ (sum_congr rfl fun j hj =>
      congrArg _ (hval i (mem_range.1 hi) j (mem_range.1 hj)))).trans ?_
    have hn : ∀ a b, 0 ≤ pr a 0 * pr b 0 := fun a b => (mul_pos (pr_pos a 0) (pr_pos b 0)).le
    simp only [sum_two]
    simp only [← ENNReal.ofReal_mul (show (0 : ℝ) ≤ 1 / 2 by norm_num)]
    have hn' : ∀ a b, 0 ≤ 1 / 2 * (pr a 0 * pr b 0) := fun a b => mul_nonneg (by norm_num) (hn a b)
    rw [← ENNReal.ofReal_add (hn' _ _) (hn' _ _), ← ENNReal.ofReal_add (hn' _ _) (hn' _ _),
      ← ENNReal.ofReal_mul (by norm_num), ← ENNReal.ofReal_mul (by norm_num),
      ← ENNReal.ofReal_add (mul_nonneg (by norm_num) (add_nonneg (hn' _ _) (hn' _ _)))
        (mul_nonneg (by norm_num) (add_nonneg (hn' _ _) (hn' _ _)))]
    congr 1
    unfold pr; norm_num

/-! ## Values that training and the compiled module read differently -/

/-- **C64 fails for values that are only nearly integers.** The categorical learner accepts 0.999999 (it is within the
tolerance of `allclose`) and scores it as class 0 instead of class 1. -/
theorem C64_near_integer_truncated (F : ℕ) (out : ℕ → ℝ) (j : ℕ) :
    okValue (.categorical 2) 0.999999 ∧
      perFeat F out j (.categorical 2) 0.999999 = perFeat F out j (.categorical 2) 0 ∧
      (out (j * 2) ≠ out (j * 2 + 1) →
        perFeat F out j (.categorical 2) 0.999999 ≠ perFeat F out j (.categorical 2) 1) := by
  have hr : round (0.999999 : ℝ) = 1 := by
    rw [round_eq, Int.floor_eq_iff]; norm_num
  have hf : ⌊(0.999999 : ℝ)⌋₊ = 0 := Nat.floor_eq_zero.2 (by norm_num)
  refine ⟨⟨?_, by norm_num, by norm_num⟩, ?_, fun h => ?_⟩
  · unfold nearInt
    rw [hr]; norm_num [abs_le]
  · simp [perFeat, hf]
  · simp only [perFeat, hf, Nat.floor_one, Nat.add_zero]
    intro he
    exact h (by linarith)

/-- **C64 fails for infinite entries.** Training scores an infinite entry like a missing one. -/
theorem C64_infinite_is_missing (F : ℕ) (out : ℕ → ℝ) (j : ℕ) (fam : Fam) :
    perCell F out j fam .pinf = perCell F out j fam .nan ∧ perCell F out j fam .ninf = perCell F out j fam .nan :=
  ⟨rfl, rfl⟩

/-! ## Witnesses -/

/-- Two quadrature points meet the hypotheses of the C64 theorems. -/
example : ∃ c, compile (.categorical 2) 3 [fun _ => 0, fun n => n] [1 / 2, 1 / 2] = .ok c := by
  obtain ⟨c, h, _⟩ := C64_compiled_is_objective (fam := .categorical 2) (F := 3) (outs := [fun _ => 0, fun n => n])
    (ws := [1 / 2, 1 / 2]) le_rfl (by norm_num) (by simp) rfl (by simp; norm_num) (by norm_num)
  exact ⟨c, h⟩

example : rqmcWeights 2 3 (1 / 100) = .ok [1 / 2, 1 / 2] := by
  unfold rqmcWeights
  norm_num
  rfl

end Verif.Cms

import Verif.CltFit
import Verif.ChowLiu
import Verif.PrimProps
import Verif.LeafFitProps

/-! C57: fitting Chow-Liu tree leaves: which data are accepted, and the conditional probability tables. -/

namespace Verif.CltFit

open Finset
open Verif.Hclt (states parState)
open Verif.ChowLiu (IsCpt treeDist gibbs)

variable {F : ℕ}

/-! ### Specification -/

/-- One complete data item: the values of the leaf's variables, and its weight for feature, channel, repetition. -/
abbrev Item (F : ℕ) := (Fin F → ℕ) × (ℕ → ℕ → ℕ → ℝ)

/-- The row of the data tensor holds this item, the value of variable `i` being in column `cols i`. -/
def Holds (cols : Fin F → ℕ) (row : LeafFit.Row) (d : Item F) : Prop :=
  (∀ i, row.val (cols i) = some (d.1 i : ℝ)) ∧ row.w = d.2

/-- Weight of the items in which variable `i` is `a`. -/
noncomputable def seen1 (data : List (Item F)) (c r : ℕ) (i : Fin F) (a : ℕ) : ℝ :=
  (data.map fun d => if d.1 i = a then d.2 0 c r else 0).sum

/-- Weight of the items in which variable `i` is `a` and variable `p` is `b`. -/
noncomputable def seen2 (data : List (Item F)) (c r : ℕ) (i p : Fin F) (a b : ℕ) : ℝ :=
  (data.map fun d => if d.1 i = a ∧ d.1 p = b then d.2 0 c r else 0).sum

/-- Weight of all items. -/
noncomputable def seen0 (data : List (Item F)) (c r : ℕ) : ℝ := (data.map fun d => d.2 0 c r).sum

/-- Sum of the whole weight tensor. -/
noncomputable def allWeights (C R : ℕ) (data : List (Item F)) : ℝ :=
  (data.map fun d => ∑ f ∈ range F, ∑ c ∈ range C, ∑ r ∈ range R, d.2 f c r).sum

/-- The pseudo-count that `alpha` amounts to. -/
noncomputable def pseudo (α : ℝ) (C R : ℕ) (data : List (Item F)) : ℝ := α * allWeights C R data / data.length

/-- Relative frequencies with pseudo-count `β`: of `a` given that the parent is `b`. -/
noncomputable def smoothCpt (K : ℕ) (data : List (Item F)) (β : ℝ) (par : Fin F → Option (Fin F)) (c r : ℕ) (i : Fin F) (a b : ℕ) : ℝ :=
  match par i with
  | none => (seen1 data c r i a + β) / (seen0 data c r + K * β)
  | some p => (seen2 data c r i p a b + β) / (seen1 data c r p b + K * β)

/-- Log-likelihood of the items under the tree distribution. -/
noncomputable def logLik (data : List (Item F)) (c r : ℕ) (par : Fin F → Option (Fin F)) (A : Fin F → ℕ → ℕ → ℝ) : ℝ :=
  (data.map fun d => d.2 0 c r * Real.log (treeDist par A d.1)).sum

/-- Log of the (unnormalised) symmetric Dirichlet prior with parameter `1 + β` on every table: the root has one, the others
have one per value of the parent. -/
noncomputable def logPrior (K : ℕ) (β : ℝ) (par : Fin F → Option (Fin F)) (A : Fin F → ℕ → ℕ → ℝ) : ℝ :=
  β * ∑ v, match par v with
    | none => ∑ a ∈ range K, Real.log (A v a 0)
    | some _ => ∑ b ∈ range K, ∑ a ∈ range K, Real.log (A v a b)

/-! ### Preparation -/

theorem tiny_pos : 0 < tiny := by unfold tiny; positivity

theorem validEntry_nat {K n : ℕ} (h : n < K) : CLTree.validEntry K (some (n : ℝ)) := by
  refine ⟨?_, by positivity, by exact_mod_cast h⟩
  have : round (n : ℝ) = (n : ℤ) := by simpa using round_natCast (α := ℝ) n
  rw [this]
  simp only [Int.cast_natCast, sub_self, abs_zero]
  positivity

section prep

variable {query cols : Fin F → ℕ} {D K C R : ℕ} {rows : List LeafFit.Row} {data : List (Item F)}

/-- The prepared rows. -/
noncomputable def prepared (cols : Fin F → ℕ) (C R : ℕ) (rows : List LeafFit.Row) : List LeafFit.Row :=
  LeafFit.rescale F C R (rows.map (takeCols cols))

theorem takeCols_val (cols : Fin F → ℕ) (row : LeafFit.Row) (i : Fin F) : (takeCols cols row).val i = row.val (cols i) := by
  unfold takeCols
  simp

theorem complete_takeCols (cols : Fin F → ℕ) (row : LeafFit.Row) :
    LeafFit.complete F (takeCols cols row) = true ↔ ∀ i, (row.val (cols i)).isSome := by
  unfold LeafFit.complete
  rw [List.all_eq_true]
  constructor
  · intro h i
    have := h i (List.mem_range.2 i.2)
    rwa [takeCols_val] at this
  · intro h f hf
    have := h ⟨f, List.mem_range.1 hf⟩
    rwa [← takeCols_val] at this

theorem totalW_prep (h : List.Forall₂ (Holds cols) rows data) :
    LeafFit.totalW F C R (rows.map (takeCols cols)) = allWeights C R data := by
  unfold LeafFit.totalW allWeights
  rw [List.map_map]
  congr 1
  induction h with
  | nil => rfl
  | cons h _ ih =>
    rw [List.map_cons, List.map_cons, ih, ← h.2]
    rfl

theorem prepare_ok [NeZero F] (h : List.Forall₂ (Holds cols) rows data) (hne : data ≠ []) :
    LeafFit.prepare true F C R (rows.map (takeCols cols)) = .ok (prepared cols C R rows) := by
  have hc : ∀ row ∈ rows, LeafFit.complete F (takeCols cols row) = true := by
    intro row hrow
    rw [complete_takeCols]
    intro i
    clear hne
    induction h with
    | nil => cases hrow
    | cons h _ ih =>
      rcases List.mem_cons.1 hrow with rfl | hrow
      · rw [h.1]; rfl
      · exact ih hrow
  unfold LeafFit.prepare
  rw [if_neg, if_pos]
  · rfl
  · rw [List.all_eq_true]
    intro x hx
    obtain ⟨row, hrow, rfl⟩ := List.mem_map.1 hx
    exact hc row hrow
  · intro ha
    cases h with
    | nil => exact hne rfl
    | @cons row d l1 l2 h _ =>
      unfold LeafFit.allNan at ha
      rw [List.all_eq_true] at ha
      have h1 := ha _ (List.mem_map_of_mem (f := takeCols cols) (List.mem_cons_self (a := row)))
      rw [List.all_eq_true] at h1
      have h2 := h1 0 (List.mem_range.2 (Nat.pos_of_neZero F))
      have h3 := takeCols_val cols row 0
      rw [Fin.val_zero] at h3
      rw [h3, h.1] at h2
      cases h2

theorem toX_holds {row : LeafFit.Row} {d : Item F} (h : Holds cols row d) : toX (takeCols cols row) = d.1 := by
  funext i
  unfold toX CLTree.truncObs
  beta_reduce
  rw [takeCols_val, h.1]
  simp

theorem prepared_map (h : List.Forall₂ (Holds cols) rows data) (g : (Fin F → ℕ) → (ℕ → ℕ → ℕ → ℝ) → ℝ) :
    (prepared cols C R rows).map (fun row => (toX row, g (toX row) row.w)) =
      data.map fun d => (d.1, g d.1 fun f c r => d.2 f c r * ((data.length : ℝ) / allWeights C R data)) := by
  unfold prepared LeafFit.rescale
  rw [totalW_prep h, List.length_map, List.map_map, List.map_map, h.length_eq]
  generalize (data.length : ℝ) / allWeights C R data = κ
  induction h with
  | nil => rfl
  | @cons row d l1 l2 h _ ih =>
    rw [List.map_cons, List.map_cons, ih]
    congr 1
    have e1 : toX (F := F) ⟨(takeCols cols row).val, fun f c r => (takeCols cols row).w f c r * κ⟩ = d.1 := toX_holds h
    have e2 : (takeCols cols row).w = d.2 := h.2
    simp only [Function.comp_apply, e2] at e1 ⊢
    rw [e1]

theorem valid_prep (h : List.Forall₂ (Holds cols) rows data) (hK : ∀ d ∈ data, ∀ i, d.1 i < K) :
    ∀ row ∈ prepared cols C R rows, ∀ i : Fin F, CLTree.validEntry K (row.val i) := by
  intro row hrow i
  unfold prepared LeafFit.rescale at hrow
  obtain ⟨row1, hrow1, rfl⟩ := List.mem_map.1 hrow
  obtain ⟨row2, hrow2, rfl⟩ := List.mem_map.1 hrow1
  show CLTree.validEntry K ((takeCols cols row2).val i)
  rw [takeCols_val]
  clear hrow hrow1
  induction h with
  | nil => cases hrow2
  | @cons _ d _ _ h _ ih =>
    rcases List.mem_cons.1 hrow2 with rfl | hrow2
    · rw [h.1]
      exact validEntry_nat (hK d List.mem_cons_self i)
    · exact ih (fun d hd => hK d (List.mem_cons_of_mem _ hd)) hrow2

theorem prepared_length : (prepared cols C R rows).length = rows.length := by
  unfold prepared LeafFit.rescale
  rw [List.length_map, List.length_map]

open Classical in
theorem mle_eq [NeZero F] (hq : resolve query D = .ok cols) (h : List.Forall₂ (Holds cols) rows data) (hN : 2 ≤ data.length)
    (hK : ∀ d ∈ data, ∀ i, d.1 i < K) (α : ℝ) (s : State F) : mle query D K C R α s rows =
      (if hasStructure s.parents then pure s.parents
        else fitStructure query F K α (prepared cols C R rows) (wScalar C R (prepared cols C R rows))).map
          fun p => ⟨p, tables α K (prepared cols C R rows) p⟩ := by
  unfold mle
  have hp := prepare_ok (C := C) (R := R) h (by intro e; rw [e] at hN; simp at hN)
  simp only [bind, Except.bind, pure, Except.pure, throw, throwThe, MonadExceptOf.throw, hq, hp]
  rw [if_neg (by rw [prepared_length, h.length_eq]; omega), if_neg (not_not.2 (valid_prep h hK))]
  split_ifs
  · rfl
  · cases fitStructure query F K α (prepared cols C R rows) (wScalar C R (prepared cols C R rows)) <;> rfl

end prep

/-! ### Tables -/

section tables

variable {query cols : Fin F → ℕ} {D K C R : ℕ} {rows : List LeafFit.Row} {data : List (Item F)}

theorem seen1_sum (hK : ∀ d ∈ data, ∀ i, d.1 i < K) (c r : ℕ) (i : Fin F) :
    ∑ a ∈ range K, seen1 data c r i a = seen0 data c r := by
  unfold seen1 seen0
  induction data with
  | nil => simp
  | cons d l ih =>
    simp only [List.map_cons, List.sum_cons, sum_add_distrib]
    rw [ih fun d hd => hK d (List.mem_cons_of_mem _ hd), sum_ite_eq, if_pos (mem_range.2 (hK d List.mem_cons_self i))]

theorem seen2_sum (hK : ∀ d ∈ data, ∀ i, d.1 i < K) (c r : ℕ) (i p : Fin F) (b : ℕ) :
    ∑ a ∈ range K, seen2 data c r i p a b = seen1 data c r p b := by
  unfold seen1 seen2
  induction data with
  | nil => simp
  | cons d l ih =>
    simp only [List.map_cons, List.sum_cons, sum_add_distrib]
    rw [ih fun d hd => hK d (List.mem_cons_of_mem _ hd)]
    congr 1
    by_cases hb : d.1 p = b
    · simp only [hb, and_true, if_true]
      rw [sum_ite_eq, if_pos (mem_range.2 (hK d List.mem_cons_self i))]
    · simp [hb]

theorem cellRows_eq (h : List.Forall₂ (Holds cols) rows data) (c r : ℕ) : cellRows (prepared cols C R rows) c r =
    data.map fun d => (d.1, d.2 0 c r * ((data.length : ℝ) / allWeights C R data)) :=
  prepared_map h fun _ w => w 0 c r

theorem count1_eq (κ : ℝ) (c r : ℕ) (i : Fin F) (a : ℕ) :
    count1 (data.map fun d => (d.1, d.2 0 c r * κ)) i a = κ * seen1 data c r i a := by
  unfold count1 seen1
  rw [List.map_map, ← List.sum_map_mul_left]
  congr 1
  refine List.map_congr_left fun d _ => ?_
  simp only [Function.comp_apply]
  split_ifs <;> ring

theorem count2_eq (κ : ℝ) (c r : ℕ) (i p : Fin F) (a b : ℕ) :
    count2 (data.map fun d => (d.1, d.2 0 c r * κ)) p i b a = κ * seen2 data c r i p a b := by
  unfold count2 seen2
  rw [List.map_map, ← List.sum_map_mul_left]
  congr 1
  refine List.map_congr_left fun d _ => ?_
  simp only [Function.comp_apply]
  by_cases h1 : d.1 i = a <;> by_cases h2 : d.1 p = b <;> simp [h1, h2, mul_comm]

theorem exp_logc (x : ℝ) : Real.exp (logc x) = max x tiny := Real.exp_log (lt_max_of_lt_right tiny_pos)

theorem ratio_eq {α κ s S : ℝ} (hκ : 0 < κ) : (α + κ * s) / (K * α + κ * S) = (s + α / κ) / (S + K * (α / κ)) := by
  have e1 : α + κ * s = κ * (s + α / κ) := by field_simp; ring
  have e2 : K * α + κ * S = κ * (S + K * (α / κ)) := by field_simp; ring
  rw [e1, e2, mul_div_mul_left _ _ hκ.ne']

theorem seen1_nonneg (hw : ∀ d ∈ data, ∀ f c r, 0 ≤ d.2 f c r) (c r : ℕ) (i : Fin F) (a : ℕ) : 0 ≤ seen1 data c r i a :=
  List.sum_nonneg fun t ht => by
    obtain ⟨d, hd, rfl⟩ := List.mem_map.1 ht
    split_ifs
    · exact hw d hd _ _ _
    · exact le_rfl

theorem seen2_nonneg (hw : ∀ d ∈ data, ∀ f c r, 0 ≤ d.2 f c r) (c r : ℕ) (i p : Fin F) (a b : ℕ) : 0 ≤ seen2 data c r i p a b :=
  List.sum_nonneg fun t ht => by
    obtain ⟨d, hd, rfl⟩ := List.mem_map.1 ht
    split_ifs
    · exact hw d hd _ _ _
    · exact le_rfl

theorem seen0_nonneg (hw : ∀ d ∈ data, ∀ f c r, 0 ≤ d.2 f c r) (c r : ℕ) : 0 ≤ seen0 data c r :=
  List.sum_nonneg fun t ht => by
    obtain ⟨d, hd, rfl⟩ := List.mem_map.1 ht
    exact hw d hd _ _ _

theorem exp_tables (h : List.Forall₂ (Holds cols) rows data) (hN : data ≠ []) (hK : ∀ d ∈ data, ∀ i, d.1 i < K)
    (hw : ∀ d ∈ data, ∀ f c r, 0 ≤ d.2 f c r) (hW : 0 < allWeights C R data) {α : ℝ} (hα : tiny ≤ K * α)
    (par : Fin F → Option (Fin F)) (i : Fin F) (c r a b : ℕ) :
    Real.exp (tables α K (prepared cols C R rows) par i c r a b) =
      max (smoothCpt K data (pseudo α C R data) par c r i a b) tiny := by
  have hlen : (0 : ℝ) < data.length := by exact_mod_cast List.length_pos_iff.2 hN
  have hκ : 0 < (data.length : ℝ) / allWeights C R data := div_pos hlen hW
  have hβ : pseudo α C R data = α / ((data.length : ℝ) / allWeights C R data) := by
    unfold pseudo
    field_simp
  unfold tables smoothCpt
  rw [cellRows_eq h, hβ]
  generalize (data.length : ℝ) / allWeights C R data = κ at hκ
  cases par i with
  | none =>
    simp only []
    unfold cptRoot
    rw [exp_logc]
    congr 1
    simp only [count1_eq]
    rw [sum_add_distrib, ← mul_sum, seen1_sum hK, sum_const, card_range, nsmul_eq_mul, max_eq_left, ratio_eq hκ]
    have := mul_nonneg hκ.le (seen0_nonneg hw c r)
    linarith
  | some p =>
    simp only []
    unfold cptNode
    rw [exp_logc]
    congr 1
    simp only [count2_eq]
    rw [sum_add_distrib, ← mul_sum, seen2_sum hK, sum_const, card_range, nsmul_eq_mul, max_eq_left, ratio_eq hκ]
    have := mul_nonneg hκ.le (seen1_nonneg hw c r p b)
    linarith

/-! ### Optimality -/

theorem logLik_expand (hK : ∀ d ∈ data, ∀ i, d.1 i < K) (h0 : 0 < K) (par : Fin F → Option (Fin F)) {A : Fin F → ℕ → ℕ → ℝ}
    (hA : ∀ v, ∀ a < K, ∀ b < K, 0 < A v a b) (c r : ℕ) : logLik data c r par A =
      ∑ v, match par v with
        | none => ∑ a ∈ range K, seen1 data c r v a * Real.log (A v a 0)
        | some p => ∑ b ∈ range K, ∑ a ∈ range K, seen2 data c r v p a b * Real.log (A v a b) := by
  induction data with
  | nil =>
    unfold logLik seen1 seen2
    simp only [List.map_nil, List.sum_nil, zero_mul, sum_const_zero]
    refine (sum_eq_zero fun v _ => ?_).symm
    cases par v <;> rfl
  | cons d l ih =>
    have ih' := ih fun d hd => hK d (List.mem_cons_of_mem _ hd)
    have e0 : logLik (d :: l) c r par A = d.2 0 c r * Real.log (treeDist par A d.1) + logLik l c r par A := rfl
    rw [e0, ih']
    have hd := hK d List.mem_cons_self
    have e1 : Real.log (treeDist par A d.1) = ∑ v, Real.log (A v (d.1 v) (parState par d.1 v)) := by
      unfold treeDist
      refine Real.log_prod fun v _ => (hA v _ (hd v) _ ?_).ne'
      unfold parState
      split
      · exact h0
      · exact hd _
    rw [e1, mul_sum, ← sum_add_distrib]
    refine sum_congr rfl fun v _ => ?_
    have s1 : ∀ a, seen1 (d :: l) c r v a = (if d.1 v = a then d.2 0 c r else 0) + seen1 l c r v a := fun a => rfl
    have s2 : ∀ p a b, seen2 (d :: l) c r v p a b = (if d.1 v = a ∧ d.1 p = b then d.2 0 c r else 0) + seen2 l c r v p a b :=
      fun p a b => rfl
    unfold parState
    cases par v with
    | none =>
      simp only [s1, add_mul, sum_add_distrib, ite_mul, zero_mul]
      rw [sum_ite_eq, if_pos (mem_range.2 (hd v))]
    | some p =>
      simp only [s2, add_mul, sum_add_distrib, ite_mul, zero_mul, ite_and]
      congr 1
      have : ∀ b ∈ range K, (∑ a ∈ range K, if d.1 v = a then if d.1 p = b then d.2 0 c r * Real.log (A v a b) else 0 else 0) =
          if d.1 p = b then d.2 0 c r * Real.log (A v (d.1 v) b) else 0 := by
        intro b _
        rw [sum_ite_eq, if_pos (mem_range.2 (hd v))]
      rw [sum_congr rfl this, sum_ite_eq, if_pos (mem_range.2 (hd p))]

/-- Relative frequencies maximise the weighted sum of logarithms. -/
theorem freq_best {n : ℕ → ℝ} {S : ℝ} (hn : ∀ a, 0 < n a) (hS : ∑ a ∈ range K, n a = S) (h0 : 0 < K) {q : ℕ → ℝ}
    (hq : ∀ a < K, 0 < q a) (hq1 : ∑ a ∈ range K, q a = 1) :
    ∑ a ∈ range K, n a * Real.log (q a) ≤ ∑ a ∈ range K, n a * Real.log (n a / S) := by
  have hSp : 0 < S := by
    rw [← hS]
    exact sum_pos (fun a _ => hn a) ⟨0, mem_range.2 h0⟩
  have g := gibbs (range K) (p := fun a => n a / S) (q := q) (fun a _ => (div_pos (hn a) hSp).le)
    (fun a ha => (hq a (mem_range.1 ha)).le) (fun a ha _ => hq a (mem_range.1 ha))
    (by rw [hq1, ← sum_div, hS, div_self hSp.ne'])
  have g2 := mul_le_mul_of_nonneg_left g hSp.le
  rw [mul_sum, mul_sum] at g2
  have e : ∀ a, ∀ t : ℝ, S * (n a / S * t) = n a * t := fun a t => by field_simp
  simp only [e] at g2
  exact g2

theorem smoothCpt_isCpt (hK : ∀ d ∈ data, ∀ i, d.1 i < K) (h0 : 0 < K) (hw : ∀ d ∈ data, ∀ f c r, 0 ≤ d.2 f c r) {β : ℝ} (hβ : 0 < β)
    (par : Fin F → Option (Fin F)) (c r : ℕ) :
    IsCpt K (smoothCpt K data β par c r) ∧ ∀ v a b, 0 < smoothCpt K data β par c r v a b := by
  have hKp : (0 : ℝ) < K := by exact_mod_cast h0
  have hd0 : 0 < seen0 data c r + K * β := by have := seen0_nonneg hw c r; positivity
  have hd1 : ∀ p b, 0 < seen1 data c r p b + K * β := fun p b => by have := seen1_nonneg hw c r p b; positivity
  have hpos : ∀ v a b, 0 < smoothCpt K data β par c r v a b := by
    intro v a b
    unfold smoothCpt
    cases par v with
    | none => exact div_pos (by have := seen1_nonneg hw c r v a; positivity) hd0
    | some p => exact div_pos (by have := seen2_nonneg hw c r v p a b; positivity) (hd1 p b)
  refine ⟨fun v b _ => ⟨fun a _ => (hpos v a b).le, ?_⟩, hpos⟩
  unfold smoothCpt
  cases par v with
  | none =>
    simp only []
    rw [← sum_div, sum_add_distrib, seen1_sum hK, sum_const, card_range, nsmul_eq_mul, div_self hd0.ne']
  | some p =>
    simp only []
    rw [← sum_div, sum_add_distrib, seen2_sum hK, sum_const, card_range, nsmul_eq_mul, div_self (hd1 p b).ne']

theorem smoothCpt_best (hK : ∀ d ∈ data, ∀ i, d.1 i < K) (h0 : 0 < K) (hw : ∀ d ∈ data, ∀ f c r, 0 ≤ d.2 f c r) {β : ℝ} (hβ : 0 < β)
    (par : Fin F → Option (Fin F)) (c r : ℕ) {A : Fin F → ℕ → ℕ → ℝ} (hA : IsCpt K A) (hpos : ∀ v, ∀ a < K, ∀ b < K, 0 < A v a b) :
    logLik data c r par A + logPrior K β par A ≤
      logLik data c r par (smoothCpt K data β par c r) + logPrior K β par (smoothCpt K data β par c r) := by
  have hKp : (0 : ℝ) < K := by exact_mod_cast h0
  obtain ⟨h1, h2⟩ := smoothCpt_isCpt hK h0 hw hβ par c r
  rw [logLik_expand hK h0 par hpos, logLik_expand hK h0 par fun v a _ b _ => h2 v a b]
  unfold logPrior
  rw [mul_sum, mul_sum, ← sum_add_distrib, ← sum_add_distrib]
  refine sum_le_sum fun v _ => ?_
  unfold smoothCpt
  cases hp : par v with
  | none =>
    simp only []
    rw [mul_sum, mul_sum, ← sum_add_distrib, ← sum_add_distrib]
    simp only [← add_mul]
    refine freq_best (fun a => ?_) ?_ h0 (fun a ha => hpos v a ha 0 h0) (hA v 0 h0).2
    · have := seen1_nonneg hw c r v a; positivity
    · rw [sum_add_distrib, seen1_sum hK, sum_const, card_range, nsmul_eq_mul]
  | some p =>
    simp only []
    rw [mul_sum, mul_sum, ← sum_add_distrib, ← sum_add_distrib]
    refine sum_le_sum fun b hb => ?_
    rw [mul_sum, mul_sum, ← sum_add_distrib, ← sum_add_distrib]
    simp only [← add_mul]
    have hb' := mem_range.1 hb
    refine freq_best (fun a => ?_) ?_ h0 (fun a ha => hpos v a ha b hb') (hA v b hb').2
    · have := seen2_nonneg hw c r v p a b; positivity
    · rw [sum_add_distrib, seen2_sum hK, sum_const, card_range, nsmul_eq_mul]

end tables

end Verif.CltFit

import Verif.MeasuresInfo

/-!
# C40: conditional mutual information, conditional probability, rejected calls, witnesses
-/

open MeasureTheory

namespace Verif
namespace Measures

open Circ

/-- Joint probability of assignments of three scopes. -/
noncomputable def Pxyz (m : MC) (R : ℕ) (chA rpA : Agg) {dom : Var → ℕ} {S T U : Finset Var} (a : Asg dom S) (b : Asg dom T)
    (c : Asg dom U) : ℝ := P m R chA rpA (overlay (overlay (row a) (row b)) (row c))

theorem overlay_none_at {x y : Row} {v : Var} (hx : x v = none) (hy : y v = none) : overlay x y v = none := by
  simp [overlay, hx, hy]

/-- C40: exact conditional mutual information is the conditional mutual information of the circuit's distribution
(`Σ p(a,b,c) log (p(a,b,c) p(c) / (p(a,c) p(b,c)))`, written with entropies), symmetric in `x` and `y`, and
non-negative (for every aggregation). -/
theorem C40_conditional_mutual_information {μ : Var → Measure ℝ} {m : MC} {R : ℕ} (h : Ok μ m R) {chA rpA : Agg}
    (hc : chA.Known m.circ.C) (hr : rpA.Known R)
    (hcont : ∀ v ∈ m.circ.scope.query, v < m.circ.scope.query.length) {dom : Var → ℕ} {x y z : Scope}
    (hx : Target μ m dom x) (hy : Target μ m dom y) (hz : Target μ m dom z) (hxy : List.Disjoint x.query y.query)
    (hxz : List.Disjoint x.query z.query) (hyz : List.Disjoint y.query z.query) :
    ∃ i, conditionalMutualInformation m chA rpA x y z = .ok i ∧
      conditionalMutualInformation m chA rpA y x z = .ok i ∧ 0 ≤ i ∧
      i = ∑ a : Asg dom x.query.toFinset, ∑ b : Asg dom y.query.toFinset, ∑ c : Asg dom z.query.toFinset,
        Pxyz m R chA rpA a b c * Real.log (Pxyz m R chA rpA a b c * Pm m R chA rpA dom z.query.toFinset c /
          (Pxy m R chA rpA a c * Pxy m R chA rpA b c)) := by
  have hxyd : List.Disjoint (x.query ++ y.query) z.query := by
    intro v hv; rcases List.mem_append.1 hv with h' | h'
    · exact hxz h'
    · exact hyz h'
  -- value of the measure in terms of three-fold sums
  have value : ∀ {x y : Scope} (hx : Target μ m dom x) (hy : Target μ m dom y) (hxy : List.Disjoint x.query y.query)
      (hxz : List.Disjoint x.query z.query) (hyz : List.Disjoint y.query z.query),
      conditionalMutualInformation m chA rpA x y z = .ok (
        (∑ a : Asg dom x.query.toFinset, ∑ c : Asg dom z.query.toFinset, Real.negMulLog (Pxy m R chA rpA a c)) +
        (∑ b : Asg dom y.query.toFinset, ∑ c : Asg dom z.query.toFinset, Real.negMulLog (Pxy m R chA rpA b c)) -
        (∑ c, Real.negMulLog (Pm m R chA rpA dom z.query.toFinset c)) -
        ∑ a : Asg dom x.query.toFinset, ∑ b : Asg dom y.query.toFinset, ∑ c : Asg dom z.query.toFinset,
          Real.negMulLog (Pxyz m R chA rpA a b c)) := by
    intro x y hx hy hxy hxz hyz
    obtain ⟨mk1, t1⟩ := mk_append hx hz hxz
    obtain ⟨mk2, t2⟩ := mk_append hy hz hyz
    obtain ⟨mk3, t3⟩ := mk_append hx hy hxy
    have hxyd : List.Disjoint (x.query ++ y.query) z.query := by
      intro v hv; rcases List.mem_append.1 hv with h' | h'
      · exact hxz h'
      · exact hyz h'
    obtain ⟨mk4, t4⟩ := mk_append t3 hz hxyd
    have hdup : Scope.hasDup (x.query ++ y.query ++ z.query) = false := by
      rw [← Bool.not_eq_true, Scope.hasDup_iff, not_not]; exact t4.valid.query_nodup
    unfold conditionalMutualInformation
    rw [hdup, entropy_target h hc hr hcont hz, mk1, mk2, show Scope.mk? (x.query ++ y.query ++ z.query) [] = _ from mk4]
    simp only [bind, Except.bind, pure, Except.pure]
    rw [entropy_target h hc hr hcont t1, entropy_target h hc hr hcont t2, entropy_target h hc hr hcont t4]
    show Except.ok _ = Except.ok _
    congr 2
    · congr 2
      · exact sum_asg_append t1.valid.query_nodup fun w => Real.negMulLog (P m R chA rpA w)
      · exact sum_asg_append t2.valid.query_nodup fun w => Real.negMulLog (P m R chA rpA w)
    · have e1 := sum_asg_append (dom := dom) t4.valid.query_nodup fun w => Real.negMulLog (P m R chA rpA w)
      refine e1.trans ?_
      exact sum_asg_append t3.valid.query_nodup fun w =>
        ∑ c : Asg dom z.query.toFinset, Real.negMulLog (P m R chA rpA (overlay w (row c)))
  have hA : ∀ (a : Asg dom x.query.toFinset) (c : Asg dom z.query.toFinset),
      ∑ b : Asg dom y.query.toFinset, Pxyz m R chA rpA a b c = Pxy m R chA rpA a c := by
    intro a c
    have := P_sum_asg h chA rpA hy.valid.query_nodup hy.size hy.meas (overlay (row a) (row c)) fun v hv =>
      overlay_none_at (row_none a (by simpa using fun h' => hxy h' hv)) (row_none c (by simpa using fun h' => hyz hv h'))
    rw [show Pxy m R chA rpA a c = _ from this.symm]
    refine Finset.sum_congr rfl fun b _ => ?_
    unfold Pxyz
    rw [overlay_right_comm (row_disjoint hyz b c)]
  have hB : ∀ (b : Asg dom y.query.toFinset) (c : Asg dom z.query.toFinset),
      ∑ a : Asg dom x.query.toFinset, Pxyz m R chA rpA a b c = Pxy m R chA rpA b c := by
    intro b c
    have := P_sum_asg h chA rpA hx.valid.query_nodup hx.size hx.meas (overlay (row b) (row c)) fun v hv =>
      overlay_none_at (row_none b (by simpa using fun h' => hxy hv h')) (row_none c (by simpa using fun h' => hxz hv h'))
    rw [show Pxy m R chA rpA b c = _ from this.symm]
    refine Finset.sum_congr rfl fun a _ => ?_
    unfold Pxyz
    rw [overlay_comm (row_disjoint hxy a b), overlay_right_comm (row_disjoint hxz a c)]
  have hZ : ∀ c : Asg dom z.query.toFinset,
      ∑ a : Asg dom x.query.toFinset, Pxy m R chA rpA a c = Pm m R chA rpA dom z.query.toFinset c :=
    fun c => sum_left h chA rpA hx hxz c
  have hq : ∀ (a : Asg dom x.query.toFinset) (b : Asg dom y.query.toFinset) (c : Asg dom z.query.toFinset),
      0 ≤ Pxyz m R chA rpA a b c := fun a b c => P_nonneg h.C1 h.R1 _ _ _
  refine ⟨_, value hx hy hxy hxz hyz, ?_, ?_, ?_⟩
  · rw [value hy hx hxy.symm hyz hxz]
    congr 1
    rw [add_comm (∑ a : Asg dom y.query.toFinset, _)]
    congr 1
    rw [Finset.sum_comm]
    refine Finset.sum_congr rfl fun a _ => Finset.sum_congr rfl fun b _ => Finset.sum_congr rfl fun c _ => ?_
    unfold Pxyz
    rw [overlay_comm (row_disjoint hxy a b)]
  · have := cmi_nonneg (fun (a : Asg dom x.query.toFinset) (b : Asg dom y.query.toFinset) (c : Asg dom z.query.toFinset) =>
      Pxyz m R chA rpA a b c) hq
    simp only [hA, hB, hZ] at this
    exact this
  · have e1 : ∑ a : Asg dom x.query.toFinset, ∑ c : Asg dom z.query.toFinset, Real.negMulLog (Pxy m R chA rpA a c)
        = ∑ a : Asg dom x.query.toFinset, ∑ b : Asg dom y.query.toFinset, ∑ c : Asg dom z.query.toFinset,
          Pxyz m R chA rpA a b c * (- Real.log (Pxy m R chA rpA a c)) := by
      refine Finset.sum_congr rfl fun a _ => ?_
      rw [Finset.sum_comm]
      refine Finset.sum_congr rfl fun c _ => ?_
      rw [← Finset.sum_mul, hA]; unfold Real.negMulLog; ring
    have e2 : ∑ b : Asg dom y.query.toFinset, ∑ c : Asg dom z.query.toFinset, Real.negMulLog (Pxy m R chA rpA b c)
        = ∑ a : Asg dom x.query.toFinset, ∑ b : Asg dom y.query.toFinset, ∑ c : Asg dom z.query.toFinset,
          Pxyz m R chA rpA a b c * (- Real.log (Pxy m R chA rpA b c)) := by
      symm
      rw [Finset.sum_comm]
      refine Finset.sum_congr rfl fun b _ => ?_
      rw [Finset.sum_comm]
      refine Finset.sum_congr rfl fun c _ => ?_
      rw [← Finset.sum_mul, hB]; unfold Real.negMulLog; ring
    have e3 : ∑ c, Real.negMulLog (Pm m R chA rpA dom z.query.toFinset c)
        = ∑ a : Asg dom x.query.toFinset, ∑ b : Asg dom y.query.toFinset, ∑ c : Asg dom z.query.toFinset,
          Pxyz m R chA rpA a b c * (- Real.log (Pm m R chA rpA dom z.query.toFinset c)) := by
      symm
      rw [Finset.sum_congr rfl fun a _ => Finset.sum_comm, Finset.sum_comm]
      refine Finset.sum_congr rfl fun c _ => ?_
      simp only [← Finset.sum_mul, hA, hZ]; unfold Real.negMulLog; ring
    rw [e1, e2, e3]
    simp only [← Finset.sum_add_distrib, ← Finset.sum_sub_distrib]
    refine Finset.sum_congr rfl fun a _ => Finset.sum_congr rfl fun b _ => Finset.sum_congr rfl fun c _ => ?_
    rcases (hq a b c).eq_or_lt with h0 | h0
    · rw [← h0]; simp
    · have ha : 0 < Pxy m R chA rpA a c := by
        rw [← hA a c]
        exact h0.trans_le (Finset.single_le_sum (f := fun b => Pxyz m R chA rpA a b c) (fun b _ => hq a b c) (Finset.mem_univ b))
      have hb : 0 < Pxy m R chA rpA b c := by
        rw [← hB b c]
        exact h0.trans_le (Finset.single_le_sum (f := fun a => Pxyz m R chA rpA a b c) (fun a _ => hq a b c) (Finset.mem_univ a))
      have hz' : 0 < Pm m R chA rpA dom z.query.toFinset c := by
        rw [← hZ c]
        exact ha.trans_le (Finset.single_le_sum (f := fun a => Pxy m R chA rpA a c)
          (fun a _ => Pxy_nonneg h chA rpA a c) (Finset.mem_univ a))
      rw [Real.log_div (mul_pos h0 hz').ne' (mul_pos ha hb).ne', Real.log_mul h0.ne' hz'.ne', Real.log_mul ha.ne' hb.ne']
      unfold Real.negMulLog; ring

/-! ## Conditional probability -/

/-- C40: `conditional_probability(y = t | e)` is `P(e, y = t) / P(e)`, for any evidence row `e` (the cell of `y` is ignored), and
NaN exactly when the evidence has probability zero. -/
theorem C40_conditional_probability {μ : Var → Measure ℝ} {m : MC} {R : ℕ} (h : Ok μ m R) {chA rpA : Agg}
    (hc : chA.Known m.circ.C) (hr : rpA.Known R) {d : ℕ} (hd : ∀ v ∈ m.circ.scope.query, v < d) {y : Var} (hy0 : 0 ≤ y)
    (hyd : y < d) (t : ℝ) (e : Row) :
    condProb m chA rpA d y t e = .ok (if P m R chA rpA (Function.update e y none) = 0 then none
      else some (P m R chA rpA (Function.update e y (some t)) / P m R chA rpA (Function.update e y none))) := by
  unfold condProb
  rw [evalRows_ok h hc hr hd, evalRows_ok h hc hr hd, if_neg (not_or.2 ⟨not_le.2 hyd, not_lt.2 hy0⟩)]
  simp only [bind, Except.bind, pure, Except.pure, List.map_cons, List.map_nil, List.getD_cons_zero]
  congr 1
  have e1 := expL_reduced h chA rpA (Function.update e y (some t))
  have e2 := expL_reduced h chA rpA (Function.update e y none)
  rw [← e1, ← e2]
  generalize reduced m.circ.F m.circ.C R chA rpA (fun f ch r => featAt (den m.circ) f (Function.update e y (some t)) r ch) = a
  generalize reduced m.circ.F m.circ.C R chA rpA (fun f ch r => featAt (den m.circ) f (Function.update e y none) r ch) = b
  induction b using WithBot.recBotCoe with
  | bot => simp [expDiff]
  | coe b =>
    rw [if_neg (by simp)]
    show some _ = some _
    rw [expL_add, expL_coe, Real.exp_neg, expL_coe, div_eq_mul_inv]

/-- C40: over all values of a discrete target the conditional probabilities lie in [0,1] and sum to one, for every
evidence of positive probability and every aggregation. -/
theorem C40_conditional_sums_to_one {μ : Var → Measure ℝ} {m : MC} {R : ℕ} (h : Ok μ m R) {chA rpA : Agg}
    (hc : chA.Known m.circ.C) (hr : rpA.Known R) {d : ℕ} (hd : ∀ v ∈ m.circ.scope.query, v < d) {y : Var} {k : ℕ}
    (hk : HasSize m y k) (hμ : μ y = Leaves.countBelow k) (hy0 : 0 ≤ y) (e : Row)
    (hpos : P m R chA rpA (Function.update e y none) ≠ 0) :
    ∃ p : ℕ → ℝ, (∀ i : ℕ, condProb m chA rpA d y i e = .ok (some (p i))) ∧ (∀ i < k, 0 ≤ p i ∧ p i ≤ 1) ∧
      ∑ i ∈ Finset.range k, p i = 1 := by
  have hmem := hk.mem_scope h
  have hsum := P_sum_one h chA rpA hmem hμ e
  have hD : 0 < P m R chA rpA (Function.update e y none) := lt_of_le_of_ne (P_nonneg h.C1 h.R1 _ _ _) (Ne.symm hpos)
  have h1 : ∑ i ∈ Finset.range k, P m R chA rpA (Function.update e y (some (i : ℝ))) /
      P m R chA rpA (Function.update e y none) = 1 := by
    rw [← Finset.sum_div, hsum, div_self hpos]
  refine ⟨fun i => P m R chA rpA (Function.update e y (some (i : ℝ))) / P m R chA rpA (Function.update e y none), ?_, ?_, h1⟩
  · intro i
    rw [C40_conditional_probability h hc hr hd hy0 (hd y hmem) i e, if_neg hpos]
  · intro i hi
    have h0 : ∀ i : ℕ, 0 ≤ P m R chA rpA (Function.update e y (some (i : ℝ))) / P m R chA rpA (Function.update e y none) :=
      fun i => div_nonneg (P_nonneg h.C1 h.R1 _ _ _) hD.le
    refine ⟨h0 i, ?_⟩
    rw [← h1]
    exact Finset.single_le_sum (f := fun i : ℕ => P m R chA rpA (Function.update e y (some (i : ℝ))) /
      P m R chA rpA (Function.update e y none)) (fun i _ => h0 i) (Finset.mem_range.2 hi)

/-! ## Rejected calls -/

/-- C40: calls of `entropy` that raise: empty scope; a variable without a unique Bernoulli/Categorical domain; a model whose
variable ids are not `0..d-1`; an unknown aggregation name (looked at only on an axis of size other than one). -/
theorem C40_entropy_raises {m : MC} {R : ℕ} (chA rpA : Agg) {s : Scope} :
    (s.query = [] → entropy m chA rpA s = .error .invalidParameter) ∧
    (s.query ≠ [] → (¬ ∀ v ∈ s.query, ∃ k, HasSize m v k) → entropy m chA rpA s = .error .unsupported) ∧
    (s.query ≠ [] → (∀ v ∈ s.query, ∃ k, HasSize m v k) →
      (∃ v ∈ m.circ.scope.query, (m.circ.scope.query.length : Int) ≤ v) → entropy m chA rpA s = .error .indexError) ∧
    (∀ {μ : Var → Measure ℝ}, Ok μ m R → s.query ≠ [] → (∀ v ∈ s.query, ∃ k, HasSize m v k) →
      (∀ v ∈ m.circ.scope.query, v < m.circ.scope.query.length) → ¬ (chA.Known m.circ.C ∧ rpA.Known R) →
      entropy m chA rpA s = .error .invalidParameter) := by
  have hE : ∀ hne : s.query ≠ [], s.isEmpty = false := fun hne => by
    unfold Scope.isEmpty; rw [List.isEmpty_eq_false_iff]; exact hne
  refine ⟨fun h => ?_, fun hne h => ?_, fun hne h hg => ?_, fun hok hne h hcont hag => ?_⟩
  · unfold entropy Scope.isEmpty; rw [h]; rfl
  · unfold entropy; rw [hE hne, (C40_domains m s.query).2 h]; rfl
  · obtain ⟨dom, hi, -⟩ := (C40_domains m s.query).1 h
    unfold entropy evalRows; rw [hE hne, hi]
    have : m.circ.scope.query.any (fun v => decide ((m.circ.scope.query.length : Int) ≤ v)) = true := by
      rw [List.any_eq_true]; obtain ⟨v, hv, hl⟩ := hg; exact ⟨v, hv, by simpa using hl⟩
    simp only [bind, Except.bind, this]
    rfl
  · obtain ⟨dom, hi, -⟩ := (C40_domains m s.query).1 h
    have h1 : m.circ.scope.query.any (fun v => decide ((m.circ.scope.query.length : Int) ≤ v)) = false := by
      rw [List.any_eq_false]
      intro v hv
      have := hcont v hv
      simp; omega
    have h2 : ∀ rows : List Row, rows.mapM m.circ.logLik = .ok (rows.map fun x f ch r => featAt (den m.circ) f x r ch) := by
      intro rows
      induction rows with
      | nil => rfl
      | cons x l ih =>
        rw [List.mapM_cons, ih]
        have : m.circ.logLik x = .ok fun f ch r => featAt (den m.circ) f x r ch := by
          unfold logLik; rw [hok.tr]
        rw [this]; rfl
    have hbad : ∀ {n : ℕ} {a : Agg}, ¬ a.Known n → aggCheck n a = .error .invalidParameter := by
      intro n a ha
      unfold Agg.Known at ha
      rw [not_or, not_not] at ha
      unfold aggCheck; rw [if_neg ha.1, if_pos ha.2]
    unfold entropy evalRows
    rw [hE hne, hi]
    simp only [bind, Except.bind, h1, h2, hok.tr, reduceLL]
    by_cases hr : rpA.Known R
    · rw [aggCheck_ok hr, hbad fun hc => hag ⟨hc, hr⟩]; rfl
    · rw [hbad hr]; rfl

end Measures
end Verif

import Verif.MeasuresProps
import Verif.SamplingLaw

/-!
# C40: laws of the exact information measures
-/

open MeasureTheory

namespace Verif
namespace Measures

open Circ

/-! ## Evaluation -/

theorem leaf_mem_scope {m : MC} (h : Accepted m.circ) (hal : Aligned m.circ) {l : List Var × LeafClass}
    (hl : l ∈ m.leaves) {v : Var} (hv : v ∈ l.1) : v ∈ m.circ.scope.query := by
  induction m with
  | leaf q C R k =>
    simp only [MC.leaves, List.mem_singleton] at hl
    subst hl; exact hv
  | cat1 n cs ih =>
    simp only [MC.leaves, List.mem_flatten, List.mem_ofFn] at hl
    obtain ⟨_, ⟨i, rfl⟩, hl⟩ := hl
    have hac : Accepted (cat1 n fun i => (cs i).circ) := h
    have := ih i (hac.1 i) (hal i) hl
    obtain ⟨f, hf, hvf⟩ := (mem_scope_iff (hac.1 i) v).1 this
    refine (mem_scope_iff h v).2 ⟨offF (fun i => (cs i).circ) i + f, offF_lt (cs := fun i => (cs i).circ) i hf, ?_⟩
    show v ∈ fscope (cat1 n fun i => (cs i).circ) _
    rw [fscope_cat1 (cs := fun i => (cs i).circ) i hf]; exact hvf
  | cat2 n cs ih =>
    simp only [MC.leaves, List.mem_flatten, List.mem_ofFn] at hl
    obtain ⟨_, ⟨i, rfl⟩, hl⟩ := hl
    have hac : Accepted (cat2 n fun i => (cs i).circ) := h
    have hal' : Aligned (cat2 n fun i => (cs i).circ) := hal
    have := ih i (hac.1 i) (hal'.1 i) hl
    obtain ⟨f, hf, hvf⟩ := (mem_scope_iff (hac.1 i) v).1 this
    refine (mem_scope_iff h v).2 ⟨f, ?_, ?_⟩
    · show f < F (cat2 n fun i => (cs i).circ)
      rw [← cat2_F hac.2 i]; exact hf
    · show v ∈ fscope (cat2 n fun i => (cs i).circ) _
      rw [fscope_cat2 hal'.2 i]; exact hvf
  | prod c ih => exact ih h hal hl
  | sum c Co R θ ih => exact ih h.1 hal hl

theorem HasSize.mem_scope {μ : Var → Measure ℝ} {m : MC} {R : ℕ} (h : Ok μ m R) {v : Var} {k : ℕ} (hk : HasSize m v k) :
    v ∈ m.circ.scope.query := by
  obtain ⟨⟨l, hl, hv⟩, -⟩ := hk
  exact leaf_mem_scope h.acc h.al hl hv

/-- The aggregation names are ones the code knows (or never looked at). -/
def Agg.Known (n : ℕ) (m : Agg) : Prop := n = 1 ∨ m ≠ .other

theorem Agg.Norm.known {n : ℕ} {m : Agg} (h : m.Norm n) : m.Known n := by
  rcases h with h | rfl | rfl
  · exact .inl h
  · exact .inr (by simp)
  · exact .inr (by simp)

theorem aggCheck_ok {n : ℕ} {m : Agg} (h : m.Known n) : aggCheck n m = .ok () := by
  unfold aggCheck
  split_ifs with h1 h2
  · rfl
  · exact absurd h2 (h.resolve_left h1)
  · rfl

theorem evalRows_ok {μ : Var → Measure ℝ} {m : MC} {R : ℕ} (h : Ok μ m R) {chA rpA : Agg} (hc : chA.Known m.circ.C)
    (hr : rpA.Known R) {d : ℕ} (hd : ∀ v ∈ m.circ.scope.query, v < d) (rows : List Row) :
    evalRows m chA rpA d rows
      = .ok (rows.map fun x => reduced m.circ.F m.circ.C R chA rpA fun f ch r => featAt (den m.circ) f x r ch) := by
  have h1 : m.circ.scope.query.any (fun v => decide ((d : Int) ≤ v)) = false := by
    rw [List.any_eq_false]
    intro v hv
    have := hd v hv
    simp; omega
  have h2 : rows.mapM m.circ.logLik = .ok (rows.map fun x f ch r => featAt (den m.circ) f x r ch) := by
    induction rows with
    | nil => rfl
    | cons x l ih =>
      rw [List.mapM_cons, ih]
      have : m.circ.logLik x = .ok fun f ch r => featAt (den m.circ) f x r ch := by
        unfold logLik; rw [h.tr]
      rw [this]; rfl
  unfold evalRows
  rw [h1, h2]
  simp only [bind, Except.bind, pure, Except.pure, h.tr, reduceLL, aggCheck_ok hc, aggCheck_ok hr, List.map_map]
  rfl

theorem expL_reduced {μ : Var → Measure ℝ} {m : MC} {R : ℕ} (h : Ok μ m R) (chA rpA : Agg) (x : Row) :
    expL (reduced m.circ.F m.circ.C R chA rpA fun f ch r => featAt (den m.circ) f x r ch) = P m R chA rpA x :=
  C40_reduction h.C1 h.R1 _ _ _

theorem neg_pLogP (l : LogV) : - pLogP l = Real.negMulLog (expL l) := by
  induction l using WithBot.recBotCoe with
  | bot => show -(0 : ℝ) = _; simp [Real.negMulLog]
  | coe x => show -(Real.exp x * x) = _; simp [Real.negMulLog]

theorem neg_list_sum (l : List ℝ) : - l.sum = (l.map fun x => -x).sum := by
  induction l with
  | nil => simp
  | cons a l ih => simp [← ih]; ring

/-- C40: the exact entropy is the Shannon entropy of the distribution `P` over the assignments of the scope. -/
theorem C40_entropy {μ : Var → Measure ℝ} {m : MC} {R : ℕ} (h : Ok μ m R) {chA rpA : Agg} (hc : chA.Known m.circ.C)
    (hr : rpA.Known R) {s : Scope} (hne : s.query ≠ []) (hnd : s.query.Nodup)
    (hcont : ∀ v ∈ m.circ.scope.query, v < m.circ.scope.query.length) {dom : Var → ℕ}
    (hdom : ∀ v ∈ s.query, HasSize m v (dom v)) :
    entropy m chA rpA s = .ok (∑ a : Asg dom s.query.toFinset, Real.negMulLog (P m R chA rpA (row a))) := by
  obtain ⟨dom', hi, hd'⟩ := (C40_domains m s.query).1 fun v hv => ⟨_, hdom v hv⟩
  have hgrid : ∀ T : List Var, (∀ v ∈ T, dom' v = dom v) → gridRows dom' T = gridRows dom T := by
    intro T hT
    induction T with
    | nil => rfl
    | cons v T ih => rw [gridRows, gridRows, ih fun w hw => hT w (by simp [hw]), hT v (by simp)]
  have hsz : gridRows dom' s.query = gridRows dom s.query :=
    hgrid _ fun v hv => (hd' v hv).unique (hdom v hv)
  have he : s.isEmpty = false := by
    unfold Scope.isEmpty; rw [List.isEmpty_eq_false_iff]; exact hne
  unfold entropy
  rw [he, hi]
  simp only [bind, Except.bind, pure, Except.pure, hsz, evalRows_ok h hc hr hcont]
  show Except.ok _ = Except.ok _
  congr 1
  rw [List.map_map, ← sum_grid hnd (fun x => Real.negMulLog (P m R chA rpA x))]
  rw [neg_list_sum, List.map_map]
  congr 1
  refine List.map_congr_left fun x _ => ?_
  simp only [Function.comp_apply]
  rw [neg_pLogP, expL_reduced h]

/-! ## Inequalities -/

section ineq
variable {α β γ : Type*} [Fintype α] [Fintype β] [Fintype γ]

/-- Conditional mutual information of a non-negative array is non-negative (`γ` is the conditioning variable). -/
theorem cmi_nonneg (q : α → β → γ → ℝ) (hq : ∀ a b c, 0 ≤ q a b c) :
    0 ≤ (∑ a, ∑ c, Real.negMulLog (∑ b, q a b c)) + (∑ b, ∑ c, Real.negMulLog (∑ a, q a b c))
      - (∑ c, Real.negMulLog (∑ a, ∑ b, q a b c)) - ∑ a, ∑ b, ∑ c, Real.negMulLog (q a b c) := by
  set A : α → γ → ℝ := fun a c => ∑ b, q a b c with hA
  set B : β → γ → ℝ := fun b c => ∑ a, q a b c with hB
  set Z : γ → ℝ := fun c => ∑ a, ∑ b, q a b c with hZ
  have hA0 : ∀ a c, 0 ≤ A a c := fun a c => Finset.sum_nonneg fun b _ => hq a b c
  have hB0 : ∀ b c, 0 ≤ B b c := fun b c => Finset.sum_nonneg fun a _ => hq a b c
  have hZ0 : ∀ c, 0 ≤ Z c := fun c => Finset.sum_nonneg fun a _ => hA0 a c
  have e1 : ∑ a, ∑ c, Real.negMulLog (A a c) = ∑ c, ∑ a, ∑ b, q a b c * (-Real.log (A a c)) := by
    rw [Finset.sum_comm]
    refine Finset.sum_congr rfl fun c _ => Finset.sum_congr rfl fun a _ => ?_
    rw [← Finset.sum_mul]; unfold Real.negMulLog; show -A a c * _ = A a c * _; ring
  have e2 : ∑ b, ∑ c, Real.negMulLog (B b c) = ∑ c, ∑ a, ∑ b, q a b c * (-Real.log (B b c)) := by
    rw [Finset.sum_comm]
    refine Finset.sum_congr rfl fun c _ => ?_
    rw [Finset.sum_comm]
    refine Finset.sum_congr rfl fun b _ => ?_
    rw [← Finset.sum_mul]; unfold Real.negMulLog; show -B b c * _ = B b c * _; ring
  have e3 : ∑ c, Real.negMulLog (Z c) = ∑ c, ∑ a, ∑ b, q a b c * (-Real.log (Z c)) := by
    refine Finset.sum_congr rfl fun c _ => ?_
    simp only [← Finset.sum_mul]; unfold Real.negMulLog; show -Z c * _ = Z c * _; ring
  have e4 : ∑ a, ∑ b, ∑ c, Real.negMulLog (q a b c) = ∑ c, ∑ a, ∑ b, q a b c * (-Real.log (q a b c)) := by
    rw [Finset.sum_congr rfl fun a _ => Finset.sum_comm, Finset.sum_comm]
    refine Finset.sum_congr rfl fun c _ => Finset.sum_congr rfl fun a _ => Finset.sum_congr rfl fun b _ => ?_
    unfold Real.negMulLog; ring
  rw [e1, e2, e3, e4, ← Finset.sum_add_distrib, ← Finset.sum_sub_distrib, ← Finset.sum_sub_distrib]
  refine Finset.sum_nonneg fun c _ => ?_
  rw [← Finset.sum_add_distrib, ← Finset.sum_sub_distrib, ← Finset.sum_sub_distrib]
  have hterm : ∀ a b, q a b c - A a c * B b c / Z c ≤
      q a b c * (-Real.log (A a c)) + q a b c * (-Real.log (B b c)) - q a b c * (-Real.log (Z c))
        - q a b c * (-Real.log (q a b c)) := by
    intro a b
    rcases (hq a b c).eq_or_lt with h0 | h0
    · rw [← h0]
      have : 0 ≤ A a c * B b c / Z c := div_nonneg (mul_nonneg (hA0 a c) (hB0 b c)) (hZ0 c)
      linarith
    · have a0 : 0 < A a c := h0.trans_le (Finset.single_le_sum (f := fun b => q a b c) (fun b _ => hq a b c) (Finset.mem_univ b))
      have b0 : 0 < B b c := h0.trans_le (Finset.single_le_sum (f := fun a => q a b c) (fun a _ => hq a b c) (Finset.mem_univ a))
      have z0 : 0 < Z c := a0.trans_le (Finset.single_le_sum (f := fun a => A a c) (fun a _ => hA0 a c) (Finset.mem_univ a))
      have ht : 0 < A a c * B b c / (q a b c * Z c) := by positivity
      have hl := Real.log_le_sub_one_of_pos ht
      rw [Real.log_div (by positivity) (by positivity), Real.log_mul a0.ne' b0.ne', Real.log_mul h0.ne' z0.ne'] at hl
      have := mul_le_mul_of_nonneg_left hl h0.le
      have e : q a b c * (A a c * B b c / (q a b c * Z c) - 1) = A a c * B b c / Z c - q a b c := by
        field_simp
      rw [e] at this
      linarith
  have hsum : ∑ a, ∑ b, (q a b c - A a c * B b c / Z c) ≥ 0 := by
    simp only [Finset.sum_sub_distrib]
    have e : ∑ a, ∑ b, A a c * B b c / Z c = (∑ a, A a c) * (∑ b, B b c) / Z c := by
      rw [Finset.sum_mul_sum, Finset.sum_div]
      refine Finset.sum_congr rfl fun a _ => ?_
      rw [Finset.sum_div]
    have e' : ∑ b, B b c = Z c := Finset.sum_comm
    rw [e, e']
    show Z c - Z c * Z c / Z c ≥ 0
    rcases (hZ0 c).eq_or_lt with hz | hz
    · rw [← hz]; simp
    · rw [mul_div_assoc, div_self hz.ne', mul_one, sub_self]
  refine hsum.le.trans (Finset.sum_le_sum fun a _ => ?_)
  rw [← Finset.sum_add_distrib, ← Finset.sum_sub_distrib, ← Finset.sum_sub_distrib]
  exact Finset.sum_le_sum fun b _ => hterm a b

end ineq

/-! ## Decomposition of joint assignments -/

theorem sum_asg_append {dom : Var → ℕ} {S T : List Var} (hST : (S ++ T).Nodup) (g : Row → ℝ) :
    ∑ a : Asg dom (S ++ T).toFinset, g (row a)
      = ∑ a : Asg dom S.toFinset, ∑ b : Asg dom T.toFinset, g (overlay (row a) (row b)) := by
  obtain ⟨hS, hT, -⟩ := List.nodup_append.1 hST
  rw [← sum_grid hST, sum_grid_append, sum_grid hS]
  exact Finset.sum_congr rfl fun a _ => sum_grid hT _

theorem row_none {dom : Var → ℕ} {S : Finset Var} (a : Asg dom S) {v : Var} (hv : v ∉ S) : row a v = none := by
  simp [row, hv]

theorem overlay_comm {x y : Row} (h : ∀ v, x v = none ∨ y v = none) : overlay x y = overlay y x := by
  funext v
  rcases h v with h | h <;> simp [overlay, h]

theorem overlay_right_comm {x y z : Row} (h : ∀ v, y v = none ∨ z v = none) :
    overlay (overlay x y) z = overlay (overlay x z) y := by
  funext v
  rcases h v with h | h <;> simp [overlay, h]

theorem row_disjoint {dom : Var → ℕ} {S T : List Var} (hd : List.Disjoint S T) (a : Asg dom S.toFinset)
    (b : Asg dom T.toFinset) (v : Var) : row a v = none ∨ row b v = none := by
  by_cases h : v ∈ S
  · exact .inr (row_none b (by simpa using fun h' => hd h h'))
  · exact .inl (row_none a (by simpa using h))

theorem P_sum_asg {μ : Var → Measure ℝ} {m : MC} {R : ℕ} (h : Ok μ m R) (chA rpA : Agg) {dom : Var → ℕ} {T : List Var}
    (hT : T.Nodup) (hv : ∀ v ∈ T, HasSize m v (dom v)) (hμ : ∀ v ∈ T, μ v = Leaves.countBelow (dom v)) (x : Row)
    (hx : ∀ v ∈ T, x v = none) :
    ∑ b : Asg dom T.toFinset, P m R chA rpA (overlay x (row b)) = P m R chA rpA x := by
  rw [← sum_grid hT fun y => P m R chA rpA (overlay x y)]
  exact P_sum_grid h chA rpA hT (fun v hv' => (hv v hv').mem_scope h) hμ x hx

theorem P_total {μ : Var → Measure ℝ} {m : MC} {R : ℕ} (h : Ok μ m R) {chA rpA : Agg} (hc : chA.Norm m.circ.C)
    (hr : rpA.Norm R) {dom : Var → ℕ} {T : List Var}
    (hT : T.Nodup) (hv : ∀ v ∈ T, HasSize m v (dom v)) (hμ : ∀ v ∈ T, μ v = Leaves.countBelow (dom v)) :
    ∑ b : Asg dom T.toFinset, P m R chA rpA (row b) = 1 := by
  have := P_sum_asg h chA rpA hT hv hμ (fun _ => none) (fun _ _ => rfl)
  simp only [none_overlay] at this
  rw [this]
  exact P_missing h hc hr fun _ _ => rfl

/-- The specification of entropy: Shannon entropy (in nats) of a distribution over assignments. -/
noncomputable def H {dom : Var → ℕ} {S : Finset Var} (p : Asg dom S → ℝ) : ℝ := ∑ a, Real.negMulLog (p a)

/-- Hypotheses on a scope argument: valid, non-empty, all variables discrete with the declared domain sizes. -/
structure Target (μ : Var → Measure ℝ) (m : MC) (dom : Var → ℕ) (s : Scope) : Prop where
  valid : Scope.Valid s
  ne : s.query ≠ []
  size : ∀ v ∈ s.query, HasSize m v (dom v)
  meas : ∀ v ∈ s.query, μ v = Leaves.countBelow (dom v)

/-- `P` restricted to the assignments of a scope. -/
noncomputable def Pm (m : MC) (R : ℕ) (chA rpA : Agg) (dom : Var → ℕ) (S : Finset Var) : Asg dom S → ℝ :=
  fun a => P m R chA rpA (row a)

theorem entropy_target {μ : Var → Measure ℝ} {m : MC} {R : ℕ} (h : Ok μ m R) {chA rpA : Agg} (hc : chA.Known m.circ.C)
    (hr : rpA.Known R) (hcont : ∀ v ∈ m.circ.scope.query, v < m.circ.scope.query.length) {dom : Var → ℕ} {s : Scope}
    (hs : Target μ m dom s) :
    entropy m chA rpA s = .ok (H (Pm m R chA rpA dom s.query.toFinset)) :=
  C40_entropy h hc hr hs.ne hs.valid.query_nodup hcont hs.size

/-- C40: the exact entropy of a normalised circuit lies between zero and the logarithm of the number of assignments. -/
theorem C40_entropy_bounds {μ : Var → Measure ℝ} {m : MC} {R : ℕ} (h : Ok μ m R) {chA rpA : Agg} (hc : chA.Norm m.circ.C)
    (hr : rpA.Norm R) (hcont : ∀ v ∈ m.circ.scope.query, v < m.circ.scope.query.length) {dom : Var → ℕ} {s : Scope}
    (hs : Target μ m dom s) :
    ∃ e, entropy m chA rpA s = .ok e ∧ 0 ≤ e ∧ e ≤ ∑ v ∈ s.query.toFinset, Real.log (dom v) := by
  refine ⟨_, entropy_target h hc.known hr.known hcont hs, ?_, ?_⟩
  · refine Finset.sum_nonneg fun a _ => Real.negMulLog_nonneg (P_nonneg h.C1 h.R1 _ _ _) ?_
    rw [← P_total h hc hr hs.valid.query_nodup hs.size hs.meas]
    exact Finset.single_le_sum (f := fun a : Asg dom s.query.toFinset => P m R chA rpA (row a))
      (fun a _ => P_nonneg h.C1 h.R1 _ _ _) (Finset.mem_univ a)
  · have htot := P_total h hc hr hs.valid.query_nodup hs.size hs.meas
    have hpos : ∀ v ∈ s.query.toFinset, (0 : ℝ) < dom v := by
      intro v hv
      obtain ⟨⟨l, hl, hvl⟩, hk⟩ := hs.size v (by simpa using hv)
      rcases hk l hl hvl with ⟨_, _, h2⟩ | ⟨_, _, h1⟩
      · rw [h2]; norm_num
      · exact_mod_cast h1
    rw [← Real.log_prod (fun v hv => (hpos v hv).ne')]
    set N : ℝ := ∏ v ∈ s.query.toFinset, (dom v : ℝ) with hN
    have hN0 : 0 < N := Finset.prod_pos hpos
    have hcard : ((Fintype.card (Asg dom s.query.toFinset) : ℕ) : ℝ) = N := by
      rw [Fintype.card_pi]
      simp only [Fintype.card_fin]
      rw [Finset.prod_coe_sort s.query.toFinset dom]
      push_cast; rfl
    have hterm : ∀ a : Asg dom s.query.toFinset, Real.negMulLog (P m R chA rpA (row a))
        ≤ P m R chA rpA (row a) * Real.log N + (1 / N - P m R chA rpA (row a)) := by
      intro a
      have h0 := P_nonneg h.C1 h.R1 chA rpA (row a)
      generalize P m R chA rpA (row a) = p at h0 ⊢
      rcases h0.eq_or_lt with h0 | h0
      · rw [← h0]; simp; positivity
      · have := Real.log_le_sub_one_of_pos (x := 1 / (N * p)) (by positivity)
        rw [Real.log_div one_ne_zero (by positivity), Real.log_one, Real.log_mul hN0.ne' h0.ne'] at this
        have h2 := mul_le_mul_of_nonneg_left this h0.le
        have e : p * (1 / (N * p) - 1) = 1 / N - p := by field_simp
        rw [e] at h2
        unfold Real.negMulLog
        linarith
    calc H (Pm m R chA rpA dom s.query.toFinset)
        ≤ ∑ a : Asg dom s.query.toFinset, (P m R chA rpA (row a) * Real.log N + (1 / N - P m R chA rpA (row a))) :=
          Finset.sum_le_sum fun a _ => hterm a
      _ = Real.log N := by
          rw [Finset.sum_add_distrib, Finset.sum_sub_distrib, ← Finset.sum_mul, htot, Finset.sum_const, Finset.card_univ,
            nsmul_eq_mul, hcard]
          field_simp
          ring

/-! ## Mutual information -/

theorem mk_append {μ : Var → Measure ℝ} {m : MC} {dom : Var → ℕ} {x y : Scope} (hx : Target μ m dom x)
    (hy : Target μ m dom y) (hd : List.Disjoint x.query y.query) :
    Scope.mk? (x.query ++ y.query) [] = .ok ⟨x.query ++ y.query, []⟩ ∧ Target μ m dom ⟨x.query ++ y.query, []⟩ := by
  have hval : Scope.Valid ⟨x.query ++ y.query, []⟩ :=
    { query_nonneg := by
        intro q hq
        rcases List.mem_append.1 hq with h | h
        · exact hx.valid.query_nonneg q h
        · exact hy.valid.query_nonneg q h
      evidence_nonneg := by simp
      query_nodup := List.nodup_append.2 ⟨hx.valid.query_nodup, hy.valid.query_nodup, fun a ha b hb h => hd ha (h ▸ hb)⟩
      evidence_nodup := by simp
      disjoint := by simp
      evidence_needs_query := by simp }
  refine ⟨(Scope.mk?_ok_iff _ _ _).2 ⟨rfl, hval⟩, hval, by simp [hx.ne], ?_, ?_⟩
  · intro v hv
    rcases List.mem_append.1 hv with h | h
    · exact hx.size v h
    · exact hy.size v h
  · intro v hv
    rcases List.mem_append.1 hv with h | h
    · exact hx.meas v h
    · exact hy.meas v h

/-- Joint probability of an assignment of `x` and one of `y`. -/
noncomputable def Pxy (m : MC) (R : ℕ) (chA rpA : Agg) {dom : Var → ℕ} {S T : Finset Var} (a : Asg dom S) (b : Asg dom T) : ℝ :=
  P m R chA rpA (overlay (row a) (row b))

theorem mi_value {μ : Var → Measure ℝ} {m : MC} {R : ℕ} (h : Ok μ m R) {chA rpA : Agg} (hc : chA.Known m.circ.C)
    (hr : rpA.Known R) (hcont : ∀ v ∈ m.circ.scope.query, v < m.circ.scope.query.length) {dom : Var → ℕ} {x y : Scope}
    (hx : Target μ m dom x) (hy : Target μ m dom y) (hd : List.Disjoint x.query y.query) :
    mutualInformation m chA rpA x y = .ok (H (Pm m R chA rpA dom x.query.toFinset) + H (Pm m R chA rpA dom y.query.toFinset)
      - ∑ a : Asg dom x.query.toFinset, ∑ b : Asg dom y.query.toFinset, Real.negMulLog (Pxy m R chA rpA a b)) := by
  obtain ⟨hmk, hxy⟩ := mk_append hx hy hd
  have hno : x.query.any y.query.contains = false := by
    rw [List.any_eq_false]
    intro v hv
    simpa using fun h' => hd hv h'
  unfold mutualInformation
  rw [hno, entropy_target h hc hr hcont hx, entropy_target h hc hr hcont hy, hmk]
  simp only [bind, Except.bind, pure, Except.pure]
  rw [entropy_target h hc hr hcont hxy]
  show Except.ok _ = Except.ok _
  congr 2
  exact sum_asg_append hxy.valid.query_nodup fun z => Real.negMulLog (P m R chA rpA z)

section margs
variable {μ : Var → Measure ℝ} {m : MC} {R : ℕ} (h : Ok μ m R) (chA rpA : Agg) {dom : Var → ℕ} {x y : Scope}
  (hx : Target μ m dom x) (hy : Target μ m dom y) (hd : List.Disjoint x.query y.query)
include h hd

include hy in
theorem sum_right (a : Asg dom x.query.toFinset) :
    ∑ b : Asg dom y.query.toFinset, Pxy m R chA rpA a b = Pm m R chA rpA dom _ a :=
  P_sum_asg h chA rpA hy.valid.query_nodup hy.size hy.meas (row a) fun v hv => row_none a (by simpa using fun h' => hd h' hv)

include hx in
theorem sum_left (b : Asg dom y.query.toFinset) :
    ∑ a : Asg dom x.query.toFinset, Pxy m R chA rpA a b = Pm m R chA rpA dom _ b := by
  rw [← sum_right h chA rpA hx hd.symm b]
  refine Finset.sum_congr rfl fun a _ => ?_
  unfold Pxy
  rw [overlay_comm (row_disjoint hd a b)]

end margs

theorem Pxy_nonneg {μ : Var → Measure ℝ} {m : MC} {R : ℕ} (h : Ok μ m R) (chA rpA : Agg) {dom : Var → ℕ} {S T : Finset Var}
    (a : Asg dom S) (b : Asg dom T) : 0 ≤ Pxy m R chA rpA a b := P_nonneg h.C1 h.R1 _ _ _

/-- C40: exact mutual information is the Kullback-Leibler divergence between the joint distribution and the product of the
marginals of the two scopes (any aggregation); it is symmetric in its arguments. -/
theorem C40_mutual_information {μ : Var → Measure ℝ} {m : MC} {R : ℕ} (h : Ok μ m R) {chA rpA : Agg}
    (hc : chA.Known m.circ.C) (hr : rpA.Known R)
    (hcont : ∀ v ∈ m.circ.scope.query, v < m.circ.scope.query.length) {dom : Var → ℕ} {x y : Scope}
    (hx : Target μ m dom x) (hy : Target μ m dom y) (hd : List.Disjoint x.query y.query) :
    mutualInformation m chA rpA x y = .ok (∑ a : Asg dom x.query.toFinset, ∑ b : Asg dom y.query.toFinset,
        Pxy m R chA rpA a b * Real.log (Pxy m R chA rpA a b /
          (Pm m R chA rpA dom x.query.toFinset a * Pm m R chA rpA dom y.query.toFinset b))) ∧
      mutualInformation m chA rpA y x = mutualInformation m chA rpA x y := by
  have hval := mi_value h hc hr hcont hx hy hd
  constructor
  · rw [hval]
    congr 1
    have e1 : H (Pm m R chA rpA dom x.query.toFinset) = ∑ a : Asg dom x.query.toFinset, ∑ b : Asg dom y.query.toFinset,
        Pxy m R chA rpA a b * (- Real.log (Pm m R chA rpA dom x.query.toFinset a)) := by
      refine Finset.sum_congr rfl fun a _ => ?_
      rw [← Finset.sum_mul, sum_right h chA rpA hy hd]
      unfold Real.negMulLog; ring
    have e2 : H (Pm m R chA rpA dom y.query.toFinset) = ∑ a : Asg dom x.query.toFinset, ∑ b : Asg dom y.query.toFinset,
        Pxy m R chA rpA a b * (- Real.log (Pm m R chA rpA dom y.query.toFinset b)) := by
      rw [Finset.sum_comm]
      refine Finset.sum_congr rfl fun b _ => ?_
      rw [← Finset.sum_mul, sum_left h chA rpA hx hd]
      unfold Real.negMulLog; ring
    rw [e1, e2, ← Finset.sum_add_distrib, ← Finset.sum_sub_distrib]
    refine Finset.sum_congr rfl fun a _ => ?_
    rw [← Finset.sum_add_distrib, ← Finset.sum_sub_distrib]
    refine Finset.sum_congr rfl fun b _ => ?_
    have hab := Pxy_nonneg h chA rpA a b
    rcases hab.eq_or_lt with h0 | h0
    · rw [← h0]; simp
    · have ha : 0 < Pm m R chA rpA dom x.query.toFinset a := by
        rw [← sum_right h chA rpA hy hd a]
        exact h0.trans_le (Finset.single_le_sum (f := fun b => Pxy m R chA rpA a b)
          (fun b _ => Pxy_nonneg h chA rpA a b) (Finset.mem_univ b))
      have hb : 0 < Pm m R chA rpA dom y.query.toFinset b := by
        rw [← sum_left h chA rpA hx hd b]
        exact h0.trans_le (Finset.single_le_sum (f := fun a => Pxy m R chA rpA a b)
          (fun a _ => Pxy_nonneg h chA rpA a b) (Finset.mem_univ a))
      rw [Real.log_div h0.ne' (mul_pos ha hb).ne', Real.log_mul ha.ne' hb.ne']
      unfold Real.negMulLog; ring
  · rw [hval, mi_value h hc hr hcont hy hx hd.symm]
    congr 1
    rw [Finset.sum_comm]
    rw [add_comm]
    congr 1
    refine Finset.sum_congr rfl fun a _ => Finset.sum_congr rfl fun b _ => ?_
    unfold Pxy
    rw [overlay_comm (row_disjoint hd a b)]

/-- C40: with normalising aggregations exact mutual information is non-negative, at most the entropy of either scope, and zero
exactly when the two scopes are independent under the circuit. -/
theorem C40_mutual_information_laws {μ : Var → Measure ℝ} {m : MC} {R : ℕ} (h : Ok μ m R) {chA rpA : Agg}
    (hc : chA.Norm m.circ.C) (hr : rpA.Norm R)
    (hcont : ∀ v ∈ m.circ.scope.query, v < m.circ.scope.query.length) {dom : Var → ℕ} {x y : Scope}
    (hx : Target μ m dom x) (hy : Target μ m dom y) (hd : List.Disjoint x.query y.query) :
    ∃ i ex ey, mutualInformation m chA rpA x y = .ok i ∧ entropy m chA rpA x = .ok ex ∧ entropy m chA rpA y = .ok ey ∧
      0 ≤ i ∧ i ≤ ex ∧ i ≤ ey ∧
      (i = 0 ↔ ∀ (a : Asg dom x.query.toFinset) (b : Asg dom y.query.toFinset),
        Pxy m R chA rpA a b = Pm m R chA rpA dom x.query.toFinset a * Pm m R chA rpA dom y.query.toFinset b) := by
  have hkl := (C40_mutual_information h hc.known hr.known hcont hx hy hd).1
  have hval := mi_value h hc.known hr.known hcont hx hy hd
  have hA : ∀ a, ∑ b : Asg dom y.query.toFinset, Pxy m R chA rpA a b = Pm m R chA rpA dom x.query.toFinset a :=
    sum_right h chA rpA hy hd
  have hB : ∀ b, ∑ a : Asg dom x.query.toFinset, Pxy m R chA rpA a b = Pm m R chA rpA dom y.query.toFinset b :=
    sum_left h chA rpA hx hd
  have hq : ∀ (a : Asg dom x.query.toFinset) (b : Asg dom y.query.toFinset), 0 ≤ Pxy m R chA rpA a b :=
    fun a b => Pxy_nonneg h chA rpA a b
  have htx : ∑ a, Pm m R chA rpA dom x.query.toFinset a = 1 := P_total h hc hr hx.valid.query_nodup hx.size hx.meas
  have hty : ∑ a, Pm m R chA rpA dom y.query.toFinset a = 1 := P_total h hc hr hy.valid.query_nodup hy.size hy.meas
  have hle1 : ∀ (a : Asg dom x.query.toFinset) (b : Asg dom y.query.toFinset), Pxy m R chA rpA a b ≤ Pm m R chA rpA dom _ a :=
    fun a b => by rw [← hA a]; exact Finset.single_le_sum (f := fun b => Pxy m R chA rpA a b) (fun b _ => hq a b) (Finset.mem_univ b)
  have hle2 : ∀ (a : Asg dom x.query.toFinset) (b : Asg dom y.query.toFinset), Pxy m R chA rpA a b ≤ Pm m R chA rpA dom _ b :=
    fun a b => by rw [← hB b]; exact Finset.single_le_sum (f := fun a => Pxy m R chA rpA a b) (fun a _ => hq a b) (Finset.mem_univ a)
  have hi := Except.ok.inj (hval.symm.trans hkl)
  refine ⟨_, _, _, hval, entropy_target h hc.known hr.known hcont hx, entropy_target h hc.known hr.known hcont hy, ?_, ?_, ?_, ?_⟩
  · have := cmi_nonneg (γ := Unit) (fun (a : Asg dom x.query.toFinset) (b : Asg dom y.query.toFinset) _ => Pxy m R chA rpA a b)
      (fun a b _ => hq a b)
    simp only [Finset.univ_unique, Finset.sum_singleton, hA, hB, htx, Real.negMulLog_one, sub_zero] at this
    exact this
  · have : H (Pm m R chA rpA dom y.query.toFinset) ≤
        ∑ a : Asg dom x.query.toFinset, ∑ b : Asg dom y.query.toFinset, Real.negMulLog (Pxy m R chA rpA a b) := by
      rw [Finset.sum_comm]
      refine Finset.sum_le_sum fun b _ => ?_
      rw [← hB b]
      have e : Real.negMulLog (∑ a : Asg dom x.query.toFinset, Pxy m R chA rpA a b)
          = ∑ a : Asg dom x.query.toFinset, Pxy m R chA rpA a b * (- Real.log (Pm m R chA rpA dom y.query.toFinset b)) := by
        rw [← Finset.sum_mul, hB b]; unfold Real.negMulLog; ring
      rw [e]
      refine Finset.sum_le_sum fun a _ => ?_
      rcases (hq a b).eq_or_lt with h0 | h0
      · rw [← h0]; simp
      · have := Real.log_le_log h0 (hle2 a b)
        unfold Real.negMulLog
        nlinarith
    linarith
  · have : H (Pm m R chA rpA dom x.query.toFinset) ≤
        ∑ a : Asg dom x.query.toFinset, ∑ b : Asg dom y.query.toFinset, Real.negMulLog (Pxy m R chA rpA a b) := by
      refine Finset.sum_le_sum fun a _ => ?_
      rw [← hA a]
      have e : Real.negMulLog (∑ b : Asg dom y.query.toFinset, Pxy m R chA rpA a b)
          = ∑ b : Asg dom y.query.toFinset, Pxy m R chA rpA a b * (- Real.log (Pm m R chA rpA dom x.query.toFinset a)) := by
        rw [← Finset.sum_mul, hA a]; unfold Real.negMulLog; ring
      rw [e]
      refine Finset.sum_le_sum fun b _ => ?_
      rcases (hq a b).eq_or_lt with h0 | h0
      · rw [← h0]; simp
      · have := Real.log_le_log h0 (hle1 a b)
        unfold Real.negMulLog
        nlinarith
    linarith
  · rw [hi]
    constructor
    · intro h0
      -- every term is at least `q - A B`, these sum to zero
      have hterm : ∀ (a : Asg dom x.query.toFinset) (b : Asg dom y.query.toFinset),
          Pxy m R chA rpA a b - Pm m R chA rpA dom x.query.toFinset a * Pm m R chA rpA dom y.query.toFinset b ≤
          Pxy m R chA rpA a b * Real.log (Pxy m R chA rpA a b /
            (Pm m R chA rpA dom x.query.toFinset a * Pm m R chA rpA dom y.query.toFinset b)) ∧
          (Pxy m R chA rpA a b - Pm m R chA rpA dom x.query.toFinset a * Pm m R chA rpA dom y.query.toFinset b =
            Pxy m R chA rpA a b * Real.log (Pxy m R chA rpA a b /
              (Pm m R chA rpA dom x.query.toFinset a * Pm m R chA rpA dom y.query.toFinset b)) →
            Pxy m R chA rpA a b = Pm m R chA rpA dom x.query.toFinset a * Pm m R chA rpA dom y.query.toFinset b) := by
        intro a b
        have hA0 : 0 ≤ Pm m R chA rpA dom x.query.toFinset a := (hq a b).trans (hle1 a b)
        have hB0 : 0 ≤ Pm m R chA rpA dom y.query.toFinset b := (hq a b).trans (hle2 a b)
        have h1 := hq a b; have h2 := hle1 a b; have h3 := hle2 a b
        generalize Pxy m R chA rpA a b = q at h1 h2 h3 ⊢
        generalize Pm m R chA rpA dom x.query.toFinset a = A at h2 hA0 ⊢
        generalize Pm m R chA rpA dom y.query.toFinset b = B at h3 hB0 ⊢
        rcases h1.eq_or_lt with h0 | h0
        · subst h0
          have := mul_nonneg hA0 hB0
          refine ⟨by simp; exact this, fun he => ?_⟩
          simp at he
          simpa using he
        · have a0 : 0 < A := h0.trans_le h2
          have b0 : 0 < B := h0.trans_le h3
          have hlog : Real.log (q / (A * B)) = - Real.log (A * B / q) := by
            rw [← Real.log_inv, inv_div]
          have hs : q * (A * B / q) = A * B := by field_simp
          have hle := Real.log_le_sub_one_of_pos (x := A * B / q) (by positivity)
          refine ⟨?_, fun he => ?_⟩
          · rw [hlog]
            nlinarith [mul_le_mul_of_nonneg_left hle h0.le]
          · by_contra hne
            have hne1 : A * B / q ≠ 1 := fun h1 => hne (by rw [div_eq_one_iff_eq h0.ne'] at h1; exact h1.symm)
            have hlt := Real.log_lt_sub_one_of_pos (x := A * B / q) (by positivity) hne1
            rw [hlog] at he
            nlinarith [mul_lt_mul_of_pos_left hlt h0]
      have hz : ∑ a : Asg dom x.query.toFinset, ∑ b : Asg dom y.query.toFinset, (Pxy m R chA rpA a b -
          Pm m R chA rpA dom x.query.toFinset a * Pm m R chA rpA dom y.query.toFinset b) = 0 := by
        simp only [Finset.sum_sub_distrib, hA, ← Finset.mul_sum, hty, mul_one]
        exact sub_self _
      have hzero : ∑ a : Asg dom x.query.toFinset, ∑ b : Asg dom y.query.toFinset, (Pxy m R chA rpA a b * Real.log
          (Pxy m R chA rpA a b / (Pm m R chA rpA dom x.query.toFinset a * Pm m R chA rpA dom y.query.toFinset b)) -
          (Pxy m R chA rpA a b - Pm m R chA rpA dom x.query.toFinset a * Pm m R chA rpA dom y.query.toFinset b)) = 0 := by
        simp only [Finset.sum_sub_distrib] at hz ⊢
        rw [h0]; linarith
      intro a b
      have n1 := (Finset.sum_eq_zero_iff_of_nonneg (fun a _ => Finset.sum_nonneg fun b _ => by
        have := (hterm a b).1; linarith)).1 hzero a (Finset.mem_univ a)
      have n2 := (Finset.sum_eq_zero_iff_of_nonneg (fun b _ => by have := (hterm a b).1; linarith)).1 n1 b (Finset.mem_univ b)
      exact (hterm a b).2 (by linarith)
    · intro hind
      refine Finset.sum_eq_zero fun a _ => Finset.sum_eq_zero fun b _ => ?_
      rw [← hind a b]
      by_cases h0 : Pxy m R chA rpA a b = 0
      · rw [h0]; simp
      · rw [div_self h0, Real.log_one, mul_zero]

end Measures
end Verif

import Verif.Measures
import Verif.CircuitProps
import Verif.BuildKit
import Mathlib.Algebra.BigOperators.Field

/-!
# C40: exact entropy, mutual information and conditional probability

Specification side: `avg` (what an aggregation name means), `P` (the probability of a partial assignment), `Asg`/`row` (all
assignments of a set of variables), `HasSize` (the domain of a variable as declared by the leaves).
-/

open MeasureTheory

namespace Verif
namespace Measures

open Circ

/-! ## Specification -/

/-- What an aggregation name means on probabilities: nothing to do for size 1, the first entry, the sum, the mean. -/
noncomputable def avg (n : ℕ) (m : Agg) (g : ℕ → ℝ) : ℝ :=
  if n = 1 then g 0 else match m with
    | .first => g 0
    | .logsumexp => ∑ i ∈ Finset.range n, g i
    | .logmeanexp => (∑ i ∈ Finset.range n, g i) / n
    | .other => 0

/-- The probability (density) the measures attribute to a partial row: product over the features, aggregated over repetitions
and channels. -/
noncomputable def P (m : MC) (R : ℕ) (chA rpA : Agg) (x : Row) : ℝ :=
  avg m.circ.C chA fun c => avg R rpA fun r => ∏ f ∈ Finset.range m.circ.F, expL (featAt (den m.circ) f x r c)

/-- Assignments of the variables `S` with domains `{0, .., dom v - 1}`. -/
abbrev Asg (dom : Var → ℕ) (S : Finset Var) := (v : S) → Fin (dom v)

/-- An assignment as a data row: NaN outside `S`. -/
def row {dom : Var → ℕ} {S : Finset Var} (a : Asg dom S) : Row :=
  fun v => if h : v ∈ S then some ((a ⟨v, h⟩ : ℕ) : ℝ) else none

/-- `v` occurs in the circuit, and every leaf over `v` is Bernoulli (`k = 2`) or Categorical with `k ≥ 1` classes. -/
def HasSize (m : MC) (v : Var) (k : ℕ) : Prop :=
  (∃ l ∈ m.leaves, v ∈ l.1) ∧ ∀ l ∈ m.leaves, v ∈ l.1 →
    (∃ p, l.2 = .bernoulli p ∧ k = 2) ∨ (∃ θ, l.2 = .categorical k θ ∧ 1 ≤ k)

/-- The aggregation keeps probabilities normalised. -/
def Agg.Norm (n : ℕ) (m : Agg) : Prop := n = 1 ∨ m = .first ∨ m = .logmeanexp

/-! ## Aggregation -/

theorem avg_nonneg {n : ℕ} {m : Agg} {g : ℕ → ℝ} (h : ∀ i < n, 0 ≤ g i) (hn : 1 ≤ n) : 0 ≤ avg n m g := by
  unfold avg
  have hs : 0 ≤ ∑ i ∈ Finset.range n, g i := Finset.sum_nonneg fun i hi => h i (Finset.mem_range.1 hi)
  split_ifs
  · exact h 0 hn
  · cases m
    · exact h 0 hn
    · exact hs
    · exact div_nonneg hs (Nat.cast_nonneg _)
    · exact le_rfl

theorem expL_aggVal {n : ℕ} (hn : 1 ≤ n) (m : Agg) (t : ℕ → LogV) :
    expL (aggVal n m t) = avg n m fun i => expL (t i) := by
  unfold aggVal avg
  split_ifs
  · rfl
  · cases m
    · rfl
    · exact expL_lse n t
    · show expL (lse n t + _) = _
      have : (0 : ℝ) < n := by exact_mod_cast hn
      rw [expL_add, expL_lse, expL_coe, Real.exp_neg, Real.exp_log this, div_eq_mul_inv]
    · rfl

theorem avg_sum {ι : Type*} (s : Finset ι) (n : ℕ) (m : Agg) (g : ι → ℕ → ℝ) :
    ∑ k ∈ s, avg n m (g k) = avg n m fun i => ∑ k ∈ s, g k i := by
  unfold avg
  split_ifs
  · rfl
  · cases m
    · rfl
    · exact Finset.sum_comm
    · show ∑ k ∈ s, (∑ i ∈ Finset.range n, g k i) / n = _
      rw [← Finset.sum_div, Finset.sum_comm]
    · simp

theorem avg_congr {n : ℕ} (hn : 1 ≤ n) {m : Agg} {g g' : ℕ → ℝ} (h : ∀ i < n, g i = g' i) : avg n m g = avg n m g' := by
  unfold avg
  have hs : ∑ i ∈ Finset.range n, g i = ∑ i ∈ Finset.range n, g' i :=
    Finset.sum_congr rfl fun i hi => h i (Finset.mem_range.1 hi)
  split_ifs
  · exact h 0 hn
  · cases m
    · exact h 0 hn
    · exact hs
    · show _ / _ = _ / _
      rw [hs]
    · rfl

theorem avg_one {n : ℕ} (hn : 1 ≤ n) {m : Agg} (hm : m.Norm n) : (avg n m fun _ => 1) = 1 := by
  unfold avg
  split_ifs with h
  · rfl
  · have hm' : m = .first ∨ m = .logmeanexp := by
      rcases hm with h' | h'
      · exact absurd h' h
      · exact h'
    rcases hm' with rfl | rfl
    · rfl
    · show (∑ i ∈ Finset.range n, (1 : ℝ)) / n = 1
      have : (0 : ℝ) < n := by exact_mod_cast hn
      simp [this.ne']

/-- C40: what the reduction of the log-likelihood tensor means. -/
theorem C40_reduction {F C R : ℕ} (hC : 1 ≤ C) (hR : 1 ≤ R) (chA rpA : Agg) (ll : ℕ → ℕ → ℕ → LogV) :
    expL (reduced F C R chA rpA ll)
      = avg C chA fun c => avg R rpA fun r => ∏ f ∈ Finset.range F, expL (ll f c r) := by
  unfold reduced
  rw [expL_aggVal hC]
  refine avg_congr hC fun c _ => ?_
  rw [expL_aggVal hR]
  refine avg_congr hR fun r _ => expL_sum _ _

/-! ## `P` is a consistent family of probabilities -/

/-- The circuits the theorems are about: built by accepted constructor calls, input features aligned, leaves normalised
with respect to `μ`, tensors of non-zero size. -/
structure Ok (μ : Var → Measure ℝ) (m : MC) (R : ℕ) : Prop where
  acc : Accepted m.circ
  al : Aligned m.circ
  lf : LeafOk μ m.circ
  tr : tensorR m.circ = some R
  C1 : 1 ≤ m.circ.C
  R1 : 1 ≤ R

theorem P_nonneg {m : MC} {R : ℕ} (hC : 1 ≤ m.circ.C) (hR : 1 ≤ R) (chA rpA : Agg) (x : Row) : 0 ≤ P m R chA rpA x :=
  avg_nonneg (fun _ _ => avg_nonneg (fun _ _ => Finset.prod_nonneg fun _ _ => expL_nonneg _) hR) hC

theorem P_missing {μ : Var → Measure ℝ} {m : MC} {R : ℕ} (h : Ok μ m R) {chA rpA : Agg} (hc : chA.Norm m.circ.C)
    (hr : rpA.Norm R) {x : Row} (hx : ∀ v ∈ m.circ.scope.query, x v = none) : P m R chA rpA x = 1 := by
  unfold P
  have key : ∀ c < m.circ.C, ∀ r < R, ∏ f ∈ Finset.range m.circ.F, expL (featAt (den m.circ) f x r c) = 1 := by
    intro c hc r hr
    refine Finset.prod_eq_one fun f hf => ?_
    exact expL_featAt_missing h.acc h.al (repIn_of_tensorR h.tr (.inr hr)) (Finset.mem_range.1 hf) hc
      fun v hv => hx v ((mem_scope_iff h.acc v).2 ⟨f, Finset.mem_range.1 hf, hv⟩)
  rw [avg_congr h.C1 (g' := fun _ => 1), avg_one h.C1 hc]
  intro c hc'
  rw [avg_congr h.R1 (g' := fun _ => 1), avg_one h.R1 hr]
  exact fun r hr' => key c hc' r hr'

theorem P_sum_one {μ : Var → Measure ℝ} {m : MC} {R : ℕ} (h : Ok μ m R) (chA rpA : Agg) {v : Var}
    (hv : v ∈ m.circ.scope.query) {k : ℕ} (hμ : μ v = Leaves.countBelow k) (x : Row) :
    ∑ i ∈ Finset.range k, P m R chA rpA (Function.update x v (some (i : ℝ)))
      = P m R chA rpA (Function.update x v none) := by
  unfold P
  rw [avg_sum]
  refine avg_congr h.C1 fun c hc => ?_
  rw [avg_sum]
  refine avg_congr h.R1 fun r hr => ?_
  obtain ⟨f0, hf0, hvf⟩ := (mem_scope_iff h.acc v).1 hv
  have hr' := repIn_of_tensorR h.tr (.inr hr)
  have hloc : ∀ f ∈ (Finset.range m.circ.F).erase f0, ∀ o : Option ℝ,
      expL (featAt (den m.circ) f (Function.update x v o) r c) = expL (featAt (den m.circ) f x r c) := by
    intro f hf o
    have hf' := Finset.mem_erase.1 hf
    have hfF := Finset.mem_range.1 hf'.2
    rw [featAt_local h.acc h.al (y := x) hfF hc]
    intro w hw
    rw [Function.update_of_ne]
    rintro rfl
    exact (Finset.disjoint_left.1 (fscope_disjoint h.acc hfF hf0 hf'.1)) hw hvf
  have hsplit : ∀ o : Option ℝ, ∏ f ∈ Finset.range m.circ.F, expL (featAt (den m.circ) f (Function.update x v o) r c)
      = expL (featAt (den m.circ) f0 (Function.update x v o) r c)
        * ∏ f ∈ (Finset.range m.circ.F).erase f0, expL (featAt (den m.circ) f x r c) := by
    intro o
    rw [← Finset.mul_prod_erase _ _ (Finset.mem_range.2 hf0)]
    congr 1
    exact Finset.prod_congr rfl fun f hf => hloc f hf o
  simp only [hsplit]
  rw [← Finset.sum_mul]
  congr 1
  have h1 := lintegral_one_var h.acc h.al hr' h.lf (x := x) hf0 hc hvf
  rw [hμ, Leaves.lintegral_countBelow, ← ENNReal.ofReal_sum_of_nonneg fun i _ => expL_nonneg _] at h1
  exact (ENNReal.ofReal_eq_ofReal_iff (Finset.sum_nonneg fun i _ => expL_nonneg _) (expL_nonneg _)).1 h1

/-! ## Assignments and the grid -/

/-- `x` where it is observed, otherwise `y`. -/
def overlay (x y : Row) : Row := fun v => (x v).or (y v)

theorem overlay_none (x : Row) : overlay x (fun _ => none) = x := by
  funext v; simp [overlay]

theorem none_overlay (x : Row) : overlay (fun _ => none) x = x := by
  funext v; simp [overlay]

theorem overlay_update_left (x y : Row) (v : Var) (t : ℝ) :
    overlay (Function.update x v (some t)) y = Function.update (overlay x y) v (some t) := by
  funext w
  by_cases h : w = v
  · subst h; simp [overlay]
  · simp [overlay, Function.update_of_ne h]

theorem overlay_update_right {x : Row} (y : Row) {v : Var} (t : ℝ) (hx : x v = none) :
    overlay x (Function.update y v (some t)) = Function.update (overlay x y) v (some t) := by
  funext w
  by_cases h : w = v
  · subst h; simp [overlay, hx]
  · simp [overlay, Function.update_of_ne h]

theorem sum_flatMap {α β : Type*} (l : List α) (k : α → List β) (g : β → ℝ) :
    ((l.flatMap k).map g).sum = (l.map fun a => ((k a).map g).sum).sum := by
  induction l with
  | nil => simp
  | cons a l ih => simp [ih]

theorem sum_grid_cons (dom : Var → ℕ) (v : Var) (S : List Var) (g : Row → ℝ) :
    ((gridRows dom (v :: S)).map g).sum
      = ∑ k ∈ Finset.range (dom v), ((gridRows dom S).map fun x => g (Function.update x v (some (k : ℝ)))).sum := by
  rw [gridRows, sum_flatMap]
  simp only [List.map_map, Function.comp_def]
  rfl

theorem sum_grid_append (dom : Var → ℕ) (S T : List Var) (g : Row → ℝ) :
    ((gridRows dom (S ++ T)).map g).sum
      = ((gridRows dom S).map fun x => ((gridRows dom T).map fun y => g (overlay x y)).sum).sum := by
  induction S generalizing g with
  | nil => simp [gridRows, none_overlay]
  | cons v S ih =>
    rw [List.cons_append, sum_grid_cons, sum_grid_cons]
    refine Finset.sum_congr rfl fun k _ => ?_
    rw [ih]
    simp only [overlay_update_left]

theorem mem_grid {dom : Var → ℕ} {S : List Var} (hS : S.Nodup) {x : Row} :
    x ∈ gridRows dom S ↔ (∀ v ∈ S, ∃ k < dom v, x v = some (k : ℝ)) ∧ ∀ v ∉ S, x v = none := by
  induction S generalizing x with
  | nil => simp [gridRows, funext_iff]
  | cons w S ih =>
    obtain ⟨hw, hS⟩ := List.nodup_cons.1 hS
    simp only [gridRows, List.mem_flatMap, List.mem_range, List.mem_map]
    constructor
    · rintro ⟨k, hk, y, hy, rfl⟩
      obtain ⟨h1, h2⟩ := (ih hS).1 hy
      refine ⟨fun v hv => ?_, fun v hv => ?_⟩
      · by_cases h : v = w
        · subst h; exact ⟨k, hk, by simp⟩
        · obtain ⟨j, hj, he⟩ := h1 v ((List.mem_cons.1 hv).resolve_left h)
          exact ⟨j, hj, by rw [Function.update_of_ne h, he]⟩
      · rw [List.mem_cons, not_or] at hv
        rw [Function.update_of_ne hv.1, h2 v hv.2]
    · rintro ⟨h1, h2⟩
      obtain ⟨k, hk, he⟩ := h1 w (by simp)
      refine ⟨k, hk, Function.update x w none, (ih hS).2 ⟨fun v hv => ?_, fun v hv => ?_⟩, ?_⟩
      · have hne : v ≠ w := fun h => hw (h ▸ hv)
        obtain ⟨j, hj, hx⟩ := h1 v (List.mem_cons_of_mem _ hv)
        exact ⟨j, hj, by rw [Function.update_of_ne hne, hx]⟩
      · by_cases h : v = w
        · subst h; simp
        · rw [Function.update_of_ne h, h2 v (by simp [h, hv])]
      · rw [Function.update_idem, ← he, Function.update_eq_self]

theorem grid_nodup {dom : Var → ℕ} {S : List Var} (hS : S.Nodup) : (gridRows dom S).Nodup := by
  induction S with
  | nil => simp [gridRows]
  | cons w S ih =>
    obtain ⟨hw, hS⟩ := List.nodup_cons.1 hS
    rw [gridRows, List.nodup_flatMap]
    refine ⟨fun k _ => ?_, ?_⟩
    · refine (ih hS).map_on fun x hx y hy hxy => ?_
      have hx' := ((mem_grid hS).1 hx).2 w hw
      have hy' := ((mem_grid hS).1 hy).2 w hw
      have := congrArg (fun z => Function.update z w none) hxy
      simpa [Function.update_idem, ← hx', ← hy'] using this.trans (by
        rw [Function.update_idem, ← hy', Function.update_eq_self])
    · refine List.nodup_range.imp fun {a b} hab => ?_
      rw [Function.onFun, List.disjoint_left]
      intro z hz hz'
      obtain ⟨x, -, rfl⟩ := List.mem_map.1 hz
      obtain ⟨y, -, hy⟩ := List.mem_map.1 hz'
      have := congrFun hy w
      simp at this
      exact hab this.symm

theorem row_injective {dom : Var → ℕ} {S : Finset Var} : Function.Injective (row (dom := dom) (S := S)) := by
  intro a b hab
  funext v
  have := congrFun hab v.1
  simp only [row, v.2, dif_pos, Option.some.injEq, Nat.cast_inj] at this
  exact Fin.ext this

theorem mem_range_row {dom : Var → ℕ} {S : Finset Var} {x : Row} :
    (∃ a : Asg dom S, row a = x) ↔ (∀ v ∈ S, ∃ k < dom v, x v = some (k : ℝ)) ∧ ∀ v ∉ S, x v = none := by
  constructor
  · rintro ⟨a, rfl⟩
    exact ⟨fun v hv => ⟨a ⟨v, hv⟩, (a ⟨v, hv⟩).2, by simp [row, hv]⟩, fun v hv => by simp [row, hv]⟩
  · rintro ⟨h1, h2⟩
    choose! k hk he using h1
    refine ⟨fun v => ⟨k v.1, hk v.1 v.2⟩, ?_⟩
    funext v
    by_cases hv : v ∈ S
    · simp [row, hv, he v hv]
    · simp [row, hv, h2 v hv]

/-- The grid enumerates every assignment exactly once. -/
theorem sum_grid {dom : Var → ℕ} {S : List Var} (hS : S.Nodup) (g : Row → ℝ) :
    ((gridRows dom S).map g).sum = ∑ a : Asg dom S.toFinset, g (row a) := by
  classical
  rw [← List.sum_toFinset g (grid_nodup hS)]
  rw [← Finset.sum_image (s := Finset.univ) (g := row (dom := dom) (S := S.toFinset)) (f := g)
    (fun a _ b _ h => row_injective h)]
  congr 1
  ext x
  simp only [List.mem_toFinset, Finset.mem_image, Finset.mem_univ, true_and]
  rw [mem_grid hS, mem_range_row]
  simp

theorem P_sum_grid {μ : Var → Measure ℝ} {m : MC} {R : ℕ} (h : Ok μ m R) (chA rpA : Agg) {dom : Var → ℕ} {T : List Var}
    (hT : T.Nodup) (hv : ∀ v ∈ T, v ∈ m.circ.scope.query) (hμ : ∀ v ∈ T, μ v = Leaves.countBelow (dom v)) (x : Row)
    (hx : ∀ v ∈ T, x v = none) :
    ((gridRows dom T).map fun y => P m R chA rpA (overlay x y)).sum = P m R chA rpA x := by
  induction T generalizing x with
  | nil => simp [gridRows, overlay_none]
  | cons v T ih =>
    obtain ⟨hvT, hT⟩ := List.nodup_cons.1 hT
    rw [sum_grid_cons]
    have : ∀ k : ℕ, ((gridRows dom T).map fun y => P m R chA rpA (overlay x (Function.update y v (some (k : ℝ))))).sum
        = P m R chA rpA (Function.update x v (some (k : ℝ))) := by
      intro k
      rw [← ih hT (fun w hw => hv w (List.mem_cons_of_mem _ hw)) (fun w hw => hμ w (List.mem_cons_of_mem _ hw))
        (Function.update x v (some (k : ℝ)))
        (fun w hw => by
          rw [Function.update_of_ne (fun hwv : w = v => hvT (hwv ▸ hw))]
          exact hx w (List.mem_cons_of_mem _ hw))]
      simp only [overlay_update_right _ _ (hx v (by simp)), overlay_update_left]
    simp only [this]
    rw [P_sum_one h chA rpA (hv v (by simp)) (hμ v (by simp))]
    congr 1
    rw [← hx v (by simp), Function.update_eq_self]

/-- `P` is the marginal of `P`: the probability of an assignment of `S` is the sum over its extensions to `U`. -/
theorem C40_marginal {μ : Var → Measure ℝ} {m : MC} {R : ℕ} (h : Ok μ m R) (chA rpA : Agg) {dom : Var → ℕ} {S U : Finset Var}
    (hSU : S ⊆ U) (hv : ∀ v ∈ U, v ∈ m.circ.scope.query) (hμ : ∀ v ∈ U, μ v = Leaves.countBelow (dom v)) (a : Asg dom S) :
    P m R chA rpA (row a)
      = ∑ b : Asg dom U with (∀ v (hvS : v ∈ S), b ⟨v, hSU hvS⟩ = a ⟨v, hvS⟩), P m R chA rpA (row b) := by
  classical
  have hnd := (U \ S).nodup_toList
  rw [← P_sum_grid h chA rpA (T := (U \ S).toList) hnd (fun v hv' => hv v (by simp at hv'; exact hv'.1))
    (fun v hv' => hμ v (by simp at hv'; exact hv'.1)) (row a) (fun v hv' => by simp at hv'; simp [row, hv'.2])]
  rw [← List.sum_toFinset (fun y => P m R chA rpA (overlay (row a) y)) (grid_nodup hnd)]
  symm
  refine Finset.sum_bij (fun b _ v => if v ∈ S then none else row b v) ?_ ?_ ?_ ?_
  · intro b hb
    rw [List.mem_toFinset, mem_grid hnd]
    refine ⟨fun v hv' => ?_, fun v hv' => ?_⟩
    · simp only [Finset.mem_toList, Finset.mem_sdiff] at hv'
      exact ⟨b ⟨v, hv'.1⟩, (b ⟨v, hv'.1⟩).2, by simp [hv'.2, row, hv'.1]⟩
    · simp only [Finset.mem_toList, Finset.mem_sdiff, not_and, not_not] at hv'
      by_cases hS : v ∈ S
      · simp [hS]
      · have : v ∉ U := fun hU => hS (hv' hU)
        simp [hS, row, this]
  · intro b hb b' hb' he
    funext v
    simp only [Finset.mem_filter, Finset.mem_univ, true_and] at hb hb'
    by_cases hS : v.1 ∈ S
    · rw [hb v.1 hS, hb' v.1 hS]
    · have := congrFun he v.1
      simp only [hS, if_false, row, v.2, dif_pos, Option.some.injEq, Nat.cast_inj] at this
      exact Fin.ext this
  · intro y hy
    rw [List.mem_toFinset, mem_grid hnd] at hy
    obtain ⟨h1, h2⟩ := hy
    simp only [Finset.mem_toList, Finset.mem_sdiff] at h1 h2
    choose! k hk he using h1
    refine ⟨fun v => if hS : v.1 ∈ S then a ⟨v.1, hS⟩ else ⟨k v.1, hk v.1 ⟨v.2, hS⟩⟩, ?_, ?_⟩
    · simp only [Finset.mem_filter, Finset.mem_univ, true_and]
      intro v hS; simp [hS]
    · funext v
      by_cases hS : v ∈ S
      · simp [hS, h2 v (by simp [hS])]
      · by_cases hU : v ∈ U
        · simp [hS, row, hU, he v ⟨hU, hS⟩]
        · simp [hS, row, hU, h2 v (by simp [hU])]
  · intro b hb
    simp only [Finset.mem_filter, Finset.mem_univ, true_and] at hb
    congr 1
    funext v
    by_cases hS : v ∈ S
    · simp [overlay, row, hS, hSU hS, hb v hS]
    · simp [overlay, row, hS]

/-! ## Domains -/

theorem record_ok {T : List Var} {l : List Var × LeafClass} {rs : List (Var × ℕ)} (h : record T l = .ok rs) :
    (∀ p ∈ rs, p.1 ∈ l.1 ∧ p.1 ∈ T ∧ ((∃ q, l.2 = .bernoulli q ∧ p.2 = 2) ∨ (∃ θ, l.2 = .categorical p.2 θ ∧ 1 ≤ p.2))) ∧
      ∀ v ∈ l.1, v ∈ T → ∃ k, (v, k) ∈ rs := by
  obtain ⟨q, cl⟩ := l
  unfold record at h
  simp only at h
  by_cases he : (q.filter T.contains).isEmpty
  · rw [if_pos he] at h
    cases h
    refine ⟨by simp, fun v hv hT => ?_⟩
    rw [List.isEmpty_iff, List.filter_eq_nil_iff] at he
    exact absurd (by simpa using hT) (he v hv)
  · rw [if_neg he] at h
    cases cl with
    | bernoulli p =>
      cases h
      refine ⟨?_, fun v hv hT => ⟨2, ?_⟩⟩
      · intro p hp
        obtain ⟨v, hv, rfl⟩ := List.mem_map.1 hp
        simp only [List.mem_filter, List.contains_iff_mem] at hv
        exact ⟨hv.1, hv.2, .inl ⟨_, rfl, rfl⟩⟩
      · exact List.mem_map.2 ⟨v, by simp [hv, hT], rfl⟩
    | categorical K θ =>
      simp only at h
      split_ifs at h with hK
      cases h
      refine ⟨?_, fun v hv hT => ⟨K, ?_⟩⟩
      · intro p hp
        obtain ⟨v, hv, rfl⟩ := List.mem_map.1 hp
        simp only [List.mem_filter, List.contains_iff_mem] at hv
        exact ⟨hv.1, hv.2, .inr ⟨_, rfl, by omega⟩⟩
      · exact List.mem_map.2 ⟨v, by simp [hv, hT], rfl⟩
    | other d => cases h

theorem record_total {T : List Var} {m : MC} {l : List Var × LeafClass} (hl : l ∈ m.leaves)
    (h : ∀ v ∈ T, ∃ k, HasSize m v k) : ∃ rs, record T l = .ok rs := by
  obtain ⟨q, cl⟩ := l
  unfold record
  simp only
  by_cases he : (q.filter T.contains).isEmpty
  · rw [if_pos he]; exact ⟨_, rfl⟩
  · rw [if_neg he]
    have : ∃ v, v ∈ q ∧ v ∈ T := by
      rw [Bool.not_eq_true, List.isEmpty_eq_false_iff_exists_mem] at he
      obtain ⟨v, hv⟩ := he
      exact ⟨v, by simpa using hv⟩
    obtain ⟨v, hv, hT⟩ := this
    obtain ⟨k, -, hk⟩ := h v hT
    rcases hk _ hl hv with ⟨p, hp, -⟩ | ⟨θ, hp, h1⟩
    · simp only at hp; subst hp; exact ⟨_, rfl⟩
    · simp only at hp; subst hp
      simp only
      rw [if_neg (by omega)]; exact ⟨_, rfl⟩

theorem mapM_total {α β : Type} {f : α → Except Exc β} {l : List α} (h : ∀ a ∈ l, ∃ b, f a = .ok b) :
    ∃ bs, l.mapM f = .ok bs := by
  induction l with
  | nil => exact ⟨[], rfl⟩
  | cons a l ih =>
    obtain ⟨b, hb⟩ := h a (by simp)
    obtain ⟨bs, hbs⟩ := ih fun a ha => h a (by simp [ha])
    exact ⟨b :: bs, by rw [List.mapM_cons, hb, hbs]; rfl⟩

theorem mapM_forall₂ {α β : Type} {f : α → Except Exc β} {l : List α} {bs : List β} (h : l.mapM f = .ok bs) :
    List.Forall₂ (fun a b => f a = .ok b) l bs := by
  induction l generalizing bs with
  | nil => cases h; exact .nil
  | cons a l ih =>
    rw [List.mapM_cons] at h
    rcases hb : f a with e | b
    · rw [hb] at h; cases h
    · rcases hbs : l.mapM f with e | bs'
      · rw [hb, hbs] at h; cases h
      · rw [hb, hbs] at h; cases h
        exact .cons hb (ih hbs)

theorem mapM_fails {α β : Type} {f : α → Except Exc β} {l : List α} {e : Exc} (h : l.mapM f = .error e) :
    ∃ a ∈ l, f a = .error e := by
  induction l with
  | nil => cases h
  | cons a l ih =>
    rw [List.mapM_cons] at h
    rcases hb : f a with e' | b
    · rw [hb] at h; cases h; exact ⟨a, by simp, hb⟩
    · rcases hbs : l.mapM f with e' | bs'
      · rw [hb, hbs] at h; cases h
        obtain ⟨c, hc, he⟩ := ih hbs
        exact ⟨c, by simp [hc], he⟩
      · rw [hb, hbs] at h; cases h

theorem mem_recs {T : List Var} {m : MC} {rss : List (List (Var × ℕ))} (h : m.leaves.mapM (record T) = .ok rss) :
    (∀ v k, (v, k) ∈ rss.flatten → v ∈ T ∧ ∃ l ∈ m.leaves, v ∈ l.1 ∧
      ((∃ q, l.2 = .bernoulli q ∧ k = 2) ∨ (∃ θ, l.2 = .categorical k θ ∧ 1 ≤ k))) ∧
    (∀ l ∈ m.leaves, ∀ v ∈ l.1, v ∈ T → ∃ k, (v, k) ∈ rss.flatten ∧
      ((∃ q, l.2 = .bernoulli q ∧ k = 2) ∨ (∃ θ, l.2 = .categorical k θ ∧ 1 ≤ k))) := by
  have h2 := mapM_forall₂ h
  constructor
  · intro v k hk
    obtain ⟨rs, hrs, hk⟩ := List.mem_flatten.1 hk
    obtain ⟨l, hl, hr⟩ : ∃ l ∈ m.leaves, record T l = .ok rs := by
      obtain ⟨i, hi⟩ := List.mem_iff_get.1 hrs
      have hg := (List.forall₂_iff_get.1 h2).2 i (by rw [h2.length_eq]; exact i.2) i.2
      exact ⟨_, List.get_mem _ _, hi ▸ hg⟩
    obtain ⟨h3, h4, h5⟩ := (record_ok hr).1 _ hk
    exact ⟨h4, l, hl, h3, h5⟩
  · intro l hl v hv hT
    obtain ⟨i, hi⟩ := List.mem_iff_get.1 hl
    have hr := (List.forall₂_iff_get.1 h2).2 i i.2 (by rw [← h2.length_eq]; exact i.2)
    rw [show m.leaves.get ⟨i, i.2⟩ = l from hi] at hr
    obtain ⟨k, hk⟩ := (record_ok hr).2 v hv hT
    exact ⟨k, List.mem_flatten.2 ⟨_, List.get_mem _ _, hk⟩, ((record_ok hr).1 _ hk).2.2⟩

theorem HasSize.unique {m : MC} {v : Var} {j k : ℕ} (hj : HasSize m v j) (hk : HasSize m v k) : j = k := by
  obtain ⟨⟨l, hl, hv⟩, hj⟩ := hj
  rcases hj l hl hv with ⟨p, hp, h2⟩ | ⟨θ, hp, _⟩ <;> rcases hk.2 l hl hv with ⟨p', hp', h2'⟩ | ⟨θ', hp', _⟩
  · omega
  · rw [hp] at hp'; cases hp'
  · rw [hp] at hp'; cases hp'
  · rw [hp] at hp'; injection hp'

theorem leafSize_unique {c : LeafClass} {j k : ℕ}
    (hj : (∃ q, c = .bernoulli q ∧ j = 2) ∨ (∃ θ, c = .categorical j θ ∧ 1 ≤ j))
    (hk : (∃ q, c = .bernoulli q ∧ k = 2) ∨ (∃ θ, c = .categorical k θ ∧ 1 ≤ k)) : j = k := by
  rcases hj with ⟨p, hp, h2⟩ | ⟨θ, hp, _⟩ <;> rcases hk with ⟨p', hp', h2'⟩ | ⟨θ', hp', _⟩
  · omega
  · rw [hp] at hp'; cases hp'
  · rw [hp] at hp'; cases hp'
  · rw [hp] at hp'; injection hp'

/-- C40: `infer_discrete_domains` succeeds exactly when every requested variable has one domain size, and then returns it;
otherwise it raises UnsupportedOperationError. -/
theorem C40_domains (m : MC) (T : List Var) :
    ((∀ v ∈ T, ∃ k, HasSize m v k) → ∃ dom, inferDomains m T = .ok dom ∧ ∀ v ∈ T, HasSize m v (dom v)) ∧
    ((¬ ∀ v ∈ T, ∃ k, HasSize m v k) → inferDomains m T = .error .unsupported) := by
  rcases hm : m.leaves.mapM (record T) with e | rss
  · have he : e = .unsupported := by
      obtain ⟨l, hl, he⟩ := mapM_fails hm
      unfold record at he
      simp only at he
      split_ifs at he
      cases hc : l.2 with
      | bernoulli p => rw [hc] at he; cases he
      | categorical K θ =>
        rw [hc] at he; simp only at he
        split_ifs at he
        injection he with he; exact he.symm
      | other d => rw [hc] at he; injection he with he; exact he.symm
    subst he
    refine ⟨fun h => ?_, fun _ => ?_⟩
    · obtain ⟨bs, hbs⟩ := mapM_total (f := record T) fun l hl => record_total (m := m) hl h
      rw [hm] at hbs; cases hbs
    · simp only [inferDomains, hm]; rfl
  · obtain ⟨r1, r2⟩ := mem_recs hm
    have hform : inferDomains m T = (if T.any (fun v => !(rss.flatten.any fun p => p.1 == v)) then .error .unsupported
        else if rss.flatten.any (fun p => rss.flatten.any fun q => p.1 == q.1 && p.2 != q.2) then .error .unsupported
        else .ok fun v => ((rss.flatten.find? fun p => p.1 == v).map Prod.snd).getD 0) := by
      simp only [inferDomains, hm]
      show (if _ then _ else _) = _
      split_ifs <;> rfl
    rw [hform]
    constructor
    · intro h
      rw [if_neg, if_neg]
      · refine ⟨_, rfl, fun v hv => ?_⟩
        obtain ⟨k, hk⟩ := h v hv
        obtain ⟨l, hl, hvl⟩ := hk.1
        obtain ⟨j, hj, -⟩ := r2 l hl v hvl hv
        rcases hf : rss.flatten.find? (fun p => p.1 == v) with _ | p
        · rw [List.find?_eq_none] at hf
          exact absurd (by simp) (hf _ hj)
        · have hp := List.find?_some hf
          have hpm := List.mem_of_find?_eq_some hf
          simp only [beq_iff_eq] at hp
          obtain ⟨l', hl', hv', hs⟩ := (r1 p.1 p.2 hpm).2
          rw [hp] at hv'
          have : p.2 = k := leafSize_unique hs (hk.2 l' hl' hv')
          show HasSize m v (((rss.flatten.find? fun p => p.1 == v).map Prod.snd).getD 0)
          rw [hf]
          show HasSize m v p.2
          rw [this]; exact hk
      · rw [Bool.not_eq_true, List.any_eq_false]
        rintro ⟨v, j⟩ hj hcon
        rw [List.any_eq_true] at hcon
        obtain ⟨⟨w, k⟩, hk, hcon⟩ := hcon
        simp only [Bool.and_eq_true, beq_iff_eq, bne_iff_ne, ne_eq] at hcon
        obtain ⟨rfl, hne⟩ := hcon
        obtain ⟨hT, l, hl, hvl, hs⟩ := r1 v j hj
        obtain ⟨_, l', hl', hvl', hs'⟩ := r1 v k hk
        obtain ⟨s, hsz⟩ := h v hT
        exact hne ((leafSize_unique hs (hsz.2 l hl hvl)).trans (leafSize_unique hs' (hsz.2 l' hl' hvl')).symm)
      · rw [Bool.not_eq_true, List.any_eq_false]
        intro v hv hcon
        obtain ⟨k, hk⟩ := h v hv
        obtain ⟨l, hl, hvl⟩ := hk.1
        obtain ⟨j, hj, -⟩ := r2 l hl v hvl hv
        simp only [Bool.not_eq_true', List.any_eq_false] at hcon
        exact hcon _ hj (by simp)
    · intro h
      split_ifs with h1 h2
      · rfl
      · rfl
      · exfalso
        apply h
        intro v hv
        rw [Bool.not_eq_true, List.any_eq_false] at h1 h2
        have := h1 v hv
        simp only [Bool.not_eq_true', Bool.not_eq_false, List.any_eq_true] at this
        obtain ⟨⟨w, k⟩, hk, hw⟩ := this
        simp only [beq_iff_eq] at hw; subst hw
        obtain ⟨_, l, hl, hvl, hs⟩ := r1 w k hk
        refine ⟨k, ⟨l, hl, hvl⟩, fun l' hl' hvl' => ?_⟩
        obtain ⟨j, hj, hs'⟩ := r2 l' hl' w hvl' hv
        have := h2 _ hk
        rw [Bool.not_eq_true, List.any_eq_false] at this
        have := this _ hj
        simp only [beq_self_eq_true, Bool.true_and, bne_iff_ne, ne_eq, not_not] at this
        rw [this]; exact hs'

end Measures
end Verif

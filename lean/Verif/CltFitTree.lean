import Verif.CltFitProps
import Verif.MiTrees

/-! C57: the tree that a Chow-Liu tree leaf learns. -/

namespace Verif.CltFit

open Finset
open Verif.Hclt (states parState Rooted)
open Verif.Span (Edge Adj IsSpanningTree)
open Verif.Mst (treeEdges mem_treeEdges LeadsTo canon)
open Verif.ChowLiu (IsCpt treeDist gibbs m1 m2 mutualInfo)
open Verif.Mi (smoothed)

variable {F : ℕ}

/-! ### A parent function as a rooted tree -/

theorem rooted_of_leads {p : Fin F → Option (Fin F)} {r : Fin F} (h0 : p r = none) (h1 : ∀ v, v ≠ r → ∃ u, p v = some u ∧ u ≠ v)
    (h2 : ∀ v, LeadsTo p v r) : ∃ d, Rooted (treeEdges p) r p d := by
  classical
  let next : Fin F → Fin F := fun v => (p v).getD r
  have hreach : ∀ v, ∃ k, next^[k] v = r := by
    intro v
    have h := h2 v
    unfold LeadsTo at h
    induction h using Relation.ReflTransGen.head_induction_on with
    | refl => exact ⟨0, rfl⟩
    | @head a b hab _ ih =>
      obtain ⟨k, hk⟩ := ih
      refine ⟨k + 1, ?_⟩
      rw [Function.iterate_succ_apply]
      have : next a = b := by show (p a).getD r = b; rw [hab]; rfl
      rw [this, hk]
  let d : Fin F → ℕ := fun v => Nat.find (hreach v)
  have hd : ∀ v, next^[d v] v = r := fun v => Nat.find_spec (hreach v)
  have hdep : ∀ v u, p v = some u → d v = d u + 1 := by
    intro v u hv
    have hn : next v = u := by show (p v).getD r = u; rw [hv]; rfl
    refine (Nat.find_eq_iff (hreach v)).2 ⟨?_, ?_⟩
    · rw [Function.iterate_succ_apply, hn]; exact hd u
    · intro m hm
      cases m with
      | zero =>
        intro e
        have e' : v = r := e
        rw [e', h0] at hv; cases hv
      | succ m =>
        rw [Function.iterate_succ_apply, hn]
        exact Nat.find_min (hreach u) (Nat.lt_of_succ_lt_succ hm)
  have hdz : ∀ v, d v ≠ 0 → ∃ u, p v = some u := by
    intro v hv
    have : v ≠ r := by
      rintro rfl
      exact hv ((Nat.find_eq_zero (hreach v)).2 rfl)
    obtain ⟨u, hu, -⟩ := h1 v this
    exact ⟨u, hu⟩
  have hit : ∀ j v, j ≤ d v → d (next^[j] v) + j = d v := by
    intro j
    induction j with
    | zero => intro v _; rfl
    | succ j ih =>
      intro v hj
      obtain ⟨u, hu⟩ := hdz v (by omega)
      have hn : next v = u := by show (p v).getD r = u; rw [hu]; rfl
      have h3 := hdep v u hu
      rw [Function.iterate_succ_apply, hn]
      have := ih u (by omega)
      omega
  refine ⟨d, h0, (Nat.find_eq_zero (hreach r)).2 rfl, fun v hv => (h1 v hv).imp fun u hu => hu.1, hdep, ?_, ?_⟩
  · intro u v
    unfold Adj
    rw [mem_treeEdges, mem_treeEdges]
    constructor
    · rintro (⟨a, b, hab, he⟩ | ⟨a, b, hab, he⟩) <;> unfold canon at he <;> split_ifs at he <;>
        (injection he with e1 e2; subst e1 e2) <;> first | exact Or.inl hab | exact Or.inr hab
    · rintro (h | h)
      · by_cases hle : v ≤ u
        · exact Or.inr ⟨u, v, h, by unfold canon; rw [if_pos hle]⟩
        · exact Or.inl ⟨u, v, h, by unfold canon; rw [if_neg hle]⟩
      · by_cases hle : u ≤ v
        · exact Or.inl ⟨v, u, h, by unfold canon; rw [if_pos hle]⟩
        · exact Or.inr ⟨v, u, h, by unfold canon; rw [if_neg hle]⟩
  · intro v
    have hinj : Set.InjOn (fun j => next^[j] v) (range (d v + 1) : Set ℕ) := by
      intro a ha b hb hab
      have ha' := hit a v (by have := mem_range.1 ha; omega)
      have hb' := hit b v (by have := mem_range.1 hb; omega)
      have hab' : next^[a] v = next^[b] v := hab
      rw [hab'] at ha'
      omega
    have := card_le_card_of_injOn (t := (univ : Finset (Fin F))) (fun j => next^[j] v) (fun _ _ => mem_univ _) hinj
    rw [card_range, card_univ, Fintype.card_fin] at this
    omega

/-! ### What is computed as mutual information -/

/-- The empirical distribution of the weighted rows, smoothed so that every pair of values gets pseudo-count `α`. -/
noncomputable def empirical (α : ℝ) (K : ℕ) (l : WRows F) : (Fin F → ℕ) → ℝ := smoothed K l ((K : ℝ) ^ 2 * α)

/-- Relative frequency of one value with pseudo-count `α`. -/
noncomputable def single (α : ℝ) (K : ℕ) (l : WRows F) (i : Fin F) (a : ℕ) : ℝ :=
  ((l.map fun p => if p.1 i = a then p.2 else 0).sum + α) / ((l.map Prod.snd).sum + K * α)

/-- Relative entropy between the marginal of `empirical` (in which a single value has pseudo-count `K α`) and `single` (in
which it has pseudo-count `α`). -/
noncomputable def excess (α : ℝ) (K : ℕ) (l : WRows F) (i : Fin F) : ℝ :=
  ∑ a ∈ range K, m1 K (empirical α K l) i a * Real.log (m1 K (empirical α K l) i a / single α K l i a)

/-- The weights the tree is chosen by. -/
noncomputable def score (α : ℝ) (K : ℕ) (l : WRows F) (i j : Fin F) : ℝ :=
  mutualInfo K (empirical α K l) i j + excess α K l i + excess α K l j

section mi

variable {K : ℕ} {l : WRows F} {α : ℝ}

theorem count1_ite (i : Fin F) (a : ℕ) : count1 l i a = (l.map fun p => if p.1 i = a then p.2 else 0).sum := by
  unfold count1
  congr 1
  exact List.map_congr_left fun p _ => by split_ifs <;> simp

theorem count2_ite (i j : Fin F) (a b : ℕ) : count2 l i j a b = (l.map fun p => if p.1 i = a ∧ p.1 j = b then p.2 else 0).sum := by
  unfold count2
  congr 1
  exact List.map_congr_left fun p _ => by
    by_cases h1 : p.1 i = a <;> by_cases h2 : p.1 j = b <;> simp [h1, h2]

theorem wsum_nonneg (hw : ∀ p ∈ l, 0 ≤ p.2) (c : (Fin F → ℕ) × ℝ → Prop) [DecidablePred c] :
    0 ≤ (l.map fun p => if c p then p.2 else 0).sum :=
  List.sum_nonneg fun t ht => by
    obtain ⟨p, hp, rfl⟩ := List.mem_map.1 ht
    split_ifs
    · exact hw p hp
    · exact le_rfl

theorem wsum_total (hw : ∀ p ∈ l, 0 ≤ p.2) : 0 ≤ (l.map Prod.snd).sum :=
  List.sum_nonneg fun t ht => by
    obtain ⟨p, hp, rfl⟩ := List.mem_map.1 ht
    exact hw p hp

theorem count1_sum (hr : ∀ p ∈ l, p.1 ∈ states F K) (i : Fin F) : ∑ a ∈ range K, count1 l i a = (l.map Prod.snd).sum := by
  simp only [count1_ite]
  induction l with
  | nil => simp
  | cons d l ih =>
    simp only [List.map_cons, List.sum_cons, sum_add_distrib]
    rw [ih fun p hp => hr p (List.mem_cons_of_mem _ hp), sum_ite_eq, if_pos (Fintype.mem_piFinset.1 (hr d List.mem_cons_self) i)]

theorem count2_sum (hr : ∀ p ∈ l, p.1 ∈ states F K) (i j : Fin F) :
    ∑ a ∈ range K, ∑ b ∈ range K, count2 l i j a b = (l.map Prod.snd).sum := by
  rw [← count1_sum hr i]
  refine sum_congr rfl fun a _ => ?_
  simp only [count1_ite, count2_ite]
  induction l with
  | nil => simp
  | cons d l ih =>
    simp only [List.map_cons, List.sum_cons, sum_add_distrib]
    rw [ih fun p hp => hr p (List.mem_cons_of_mem _ hp)]
    congr 1
    by_cases ha : d.1 i = a
    · simp only [ha, true_and, if_true]
      rw [sum_ite_eq, if_pos (Fintype.mem_piFinset.1 (hr d List.mem_cons_self) j)]
    · simp [ha]

/-- The pseudo-count keeps all probabilities away from the clamp. -/
def Unclamped (α : ℝ) (K : ℕ) (W : ℝ) : Prop := 0 < α ∧ tiny * (W + (K : ℝ) ^ 2 * α) ≤ α ∧ tiny ≤ α

variable (h0 : 0 < K) (hr : ∀ p ∈ l, p.1 ∈ states F K) (hw : ∀ p ∈ l, 0 ≤ p.2) (hα : Unclamped α K (l.map Prod.snd).sum)

include h0 hr hw hα

theorem probs1_eq (i : Fin F) (a : ℕ) : probs1 α K l i a = single α K l i a ∧ tiny ≤ single α K l i a := by
  have hKp : (1 : ℝ) ≤ K := by exact_mod_cast h0
  have hW := wsum_total hw
  obtain ⟨ha, hb, hc⟩ := hα
  have hd : 0 < (l.map Prod.snd).sum + K * α := by positivity
  have hd2 : tiny ≤ K * α + (l.map Prod.snd).sum := by nlinarith
  constructor
  · unfold probs1 single
    rw [sum_add_distrib, count1_sum hr, sum_const, card_range, nsmul_eq_mul, max_eq_left hd2, count1_ite, add_comm α, add_comm (_ * _)]
  · unfold single
    rw [le_div_iff₀ hd]
    have h1 := wsum_nonneg hw fun p => p.1 i = a
    have h2 : tiny * ((l.map Prod.snd).sum + K * α) ≤ tiny * ((l.map Prod.snd).sum + (K : ℝ) ^ 2 * α) := by
      refine mul_le_mul_of_nonneg_left ?_ tiny_pos.le
      have : (K : ℝ) * α ≤ (K : ℝ) ^ 2 * α := mul_le_mul_of_nonneg_right (by nlinarith) ha.le
      linarith
    linarith

theorem probs2_eq {i j : Fin F} (hij : i ≠ j) {a b : ℕ} (ha' : a < K) (hb' : b < K) :
    probs2 α K l i j a b = m2 K (empirical α K l) i j a b ∧ tiny ≤ m2 K (empirical α K l) i j a b := by
  have hKp : (1 : ℝ) ≤ K := by exact_mod_cast h0
  have hW := wsum_total hw
  obtain ⟨ha, hb, hc⟩ := hα
  have hK2 : (1 : ℝ) ≤ (K : ℝ) ^ 2 := by nlinarith
  have hd : 0 < (l.map Prod.snd).sum + (K : ℝ) ^ 2 * α := by positivity
  have hd2 : tiny ≤ (K : ℝ) ^ 2 * α + (l.map Prod.snd).sum := by nlinarith
  have e : m2 K (empirical α K l) i j a b = ((l.map fun p => if p.1 i = a ∧ p.1 j = b then p.2 else 0).sum + α) /
      ((l.map Prod.snd).sum + (K : ℝ) ^ 2 * α) := by
    unfold empirical
    rw [Mi.m2_smoothed h0 hr hij ha' hb']
    congr 2
    field_simp
  constructor
  · rw [e]
    unfold probs2
    simp only [sum_add_distrib]
    rw [count2_sum hr, sum_const, sum_const, card_range, nsmul_eq_mul, nsmul_eq_mul, count2_ite, add_comm α, add_comm (_ * _),
      show (K : ℝ) * (K * α) = (K : ℝ) ^ 2 * α by ring, max_eq_left (by linarith)]
  · rw [e, le_div_iff₀ hd]
    have h1 := wsum_nonneg hw fun p => p.1 i = a ∧ p.1 j = b
    linarith

/-- **What the code calls mutual information.** -/
theorem miEntry_eq {i j : Fin F} (hij : i ≠ j) : miEntry α K l i j = score α K l i j := by
  have hpos : ∀ a < K, ∀ b < K, 0 < m2 K (empirical α K l) i j a b := fun a ha b hb =>
    lt_of_lt_of_le tiny_pos (probs2_eq h0 hr hw hα hij ha hb).2
  have hnn : ∀ x ∈ states F K, 0 ≤ empirical α K l x := fun x _ =>
    Mi.smoothed_nonneg hw (by have := hα.1; positivity) x
  have hp1 : ∀ a < K, 0 < m1 K (empirical α K l) i a := fun a ha =>
    lt_of_lt_of_le (hpos a ha 0 h0) (ChowLiu.m2_le_left hnn i j a 0)
  have hp2 : ∀ b < K, 0 < m1 K (empirical α K l) j b := fun b hb =>
    lt_of_lt_of_le (hpos 0 h0 b hb) (ChowLiu.m2_le_right hnn i j 0 b)
  have hs : ∀ u a, 0 < single α K l u a := fun u a => lt_of_lt_of_le tiny_pos (probs1_eq h0 hr hw hα u a).2
  have e1 : ∑ a ∈ range K, ∑ b ∈ range K, m2 K (empirical α K l) i j a b *
      Real.log (m1 K (empirical α K l) i a / single α K l i a) = excess α K l i := by
    unfold excess
    refine sum_congr rfl fun a _ => ?_
    rw [← sum_mul, ChowLiu.m2_left]
  have e2 : ∑ a ∈ range K, ∑ b ∈ range K, m2 K (empirical α K l) i j a b *
      Real.log (m1 K (empirical α K l) j b / single α K l j b) = excess α K l j := by
    unfold excess
    rw [sum_comm]
    refine sum_congr rfl fun b _ => ?_
    rw [← sum_mul, ChowLiu.m2_right]
  unfold miEntry score mutualInfo
  rw [← e1, ← e2, ← sum_add_distrib, ← sum_add_distrib]
  refine sum_congr rfl fun a ha => ?_
  rw [← sum_add_distrib, ← sum_add_distrib]
  refine sum_congr rfl fun b hb => ?_
  have ha' := mem_range.1 ha
  have hb' := mem_range.1 hb
  obtain ⟨q1, q2⟩ := probs2_eq h0 hr hw hα hij ha' hb'
  obtain ⟨q3, q4⟩ := probs1_eq h0 hr hw hα i a
  obtain ⟨q5, q6⟩ := probs1_eq h0 hr hw hα j b
  unfold logc
  rw [q1, q3, q5, max_eq_left q2, max_eq_left q4, max_eq_left q6,
    Real.log_div (hpos a ha' b hb').ne' (mul_pos (hp1 a ha') (hp2 b hb')).ne', Real.log_mul (hp1 a ha').ne' (hp2 b hb').ne',
    Real.log_div (hp1 a ha').ne' (hs i a).ne', Real.log_div (hp2 b hb').ne' (hs j b).ne']
  ring

omit h0 hr hw hα in
theorem score_comm (i j : Fin F) : score α K l i j = score α K l j i := by
  unfold score
  rw [ChowLiu.mutualInfo_comm]
  ring

end mi

end Verif.CltFit

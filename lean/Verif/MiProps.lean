import Verif.Mi
import Verif.ChowLiu
import Verif.MstTopk
import Mathlib.Algebra.BigOperators.Field

/-! Lemmas for C71: the tables of mi.py are the marginals of the smoothed empirical distribution. -/

namespace Verif.Mi

open Finset
open Verif.Span (Edge IsSpanningTree)
open Verif.Hclt (states)
open Verif.ChowLiu

variable {f : ℕ}

/-! ### Specification -/

/-- The smoothed empirical distribution of weighted rows: every row counts with its weight, and a total mass `pc` is spread
evenly over all `K ^ f` joint assignments. -/
noncomputable def smoothed (K : ℕ) (rows : List ((Fin f → ℕ) × ℝ)) (pc : ℝ) (x : Fin f → ℕ) : ℝ :=
  ((rows.map fun p => if p.1 = x then p.2 else 0).sum + pc / (K : ℝ) ^ f) / ((rows.map Prod.snd).sum + pc)

/-- No probability is so small that the clamp at `eps` changes it. -/
def Resolved (eps : ℝ) (K : ℕ) (P : (Fin f → ℕ) → ℝ) : Prop :=
  ∀ u v a b, 0 < m2 K P u v a b → eps ≤ m2 K P u v a b ∧ eps ≤ m1 K P u a * m1 K P v b

/-! ### Marginals of the smoothed empirical distribution -/

section

variable {K : ℕ} {rows : List ((Fin f → ℕ) × ℝ)} {pc : ℝ}

theorem sum_rows (s : Finset (Fin f → ℕ)) : ∀ rows : List ((Fin f → ℕ) × ℝ),
    ∑ x ∈ s, (rows.map fun p => if p.1 = x then p.2 else 0).sum = (rows.map fun p => if p.1 ∈ s then p.2 else 0).sum
  | [] => by simp
  | p :: l => by
    simp only [List.map_cons, List.sum_cons]
    rw [sum_add_distrib, sum_rows s l]
    congr 1
    rw [Finset.sum_ite_eq]

theorem card_one (u : Fin f) {a : ℕ} (ha : a < K) :
    (((states f K).filter fun x => x u = a).card : ℝ) * K = (K : ℝ) ^ f := by
  have h : (states f K).filter (fun x => x u = a) = Fintype.piFinset fun i => if i = u then {a} else range K := by
    ext x
    simp only [mem_filter, states, Fintype.mem_piFinset, Finset.mem_range]
    constructor
    · rintro ⟨h1, h2⟩ i
      by_cases hi : i = u
      · subst hi; simp [h2]
      · simp [hi, h1 i]
    · intro h
      refine ⟨fun i => ?_, ?_⟩
      · have := h i
        by_cases hi : i = u
        · rw [if_pos hi, Finset.mem_singleton] at this; rw [this]; exact ha
        · rw [if_neg hi, Finset.mem_range] at this; exact this
      · have := h u
        rwa [if_pos rfl, Finset.mem_singleton] at this
  rw [h, Fintype.card_piFinset]
  have e : (K : ℝ) = ∏ i : Fin f, if i = u then (K : ℝ) else 1 := by rw [prod_ite_eq']; simp
  rw [show (K : ℝ) ^ f = ∏ _i : Fin f, (K : ℝ) by simp]
  refine (congrArg (_ * ·) e).trans ?_
  push_cast
  rw [← prod_mul_distrib]
  refine prod_congr rfl fun i _ => ?_
  by_cases hi : i = u <;> simp [hi]

theorem card_two {u v : Fin f} (huv : u ≠ v) {a b : ℕ} (ha : a < K) (hb : b < K) :
    (((states f K).filter fun x => x u = a ∧ x v = b).card : ℝ) * (K * K) = (K : ℝ) ^ f := by
  have h : (states f K).filter (fun x => x u = a ∧ x v = b) =
      Fintype.piFinset fun i => if i = u then {a} else if i = v then {b} else range K := by
    ext x
    simp only [mem_filter, states, Fintype.mem_piFinset, Finset.mem_range]
    constructor
    · rintro ⟨h1, h2, h3⟩ i
      by_cases hi : i = u
      · subst hi; simp [h2]
      · by_cases hj : i = v
        · subst hj; simp [hi, h3]
        · simp [hi, hj, h1 i]
    · intro h
      refine ⟨fun i => ?_, ?_, ?_⟩
      · have := h i
        by_cases hi : i = u
        · rw [if_pos hi, Finset.mem_singleton] at this; rw [this]; exact ha
        · rw [if_neg hi] at this
          by_cases hj : i = v
          · rw [if_pos hj, Finset.mem_singleton] at this; rw [this]; exact hb
          · rw [if_neg hj, Finset.mem_range] at this; exact this
      · have := h u
        rwa [if_pos rfl, Finset.mem_singleton] at this
      · have := h v
        rwa [if_neg huv.symm, if_pos rfl, Finset.mem_singleton] at this
  rw [h, Fintype.card_piFinset]
  have e : ∀ u : Fin f, (K : ℝ) = ∏ i : Fin f, if i = u then (K : ℝ) else 1 := fun u => by rw [prod_ite_eq']; simp
  rw [show ((K : ℝ) * K) = (∏ i : Fin f, if i = u then (K : ℝ) else 1) * ∏ i : Fin f, if i = v then (K : ℝ) else 1 by
    rw [← e, ← e]]
  push_cast
  rw [← prod_mul_distrib, ← prod_mul_distrib]
  rw [show (K : ℝ) ^ f = ∏ _i : Fin f, (K : ℝ) by simp]
  refine prod_congr rfl fun i _ => ?_
  by_cases hi : i = u
  · subst hi; simp [huv]
  · by_cases hj : i = v
    · subst hj; simp [hi]
    · simp [hi, hj]

theorem sum_smoothed (s : Finset (Fin f → ℕ)) : ∑ x ∈ s, smoothed K rows pc x =
    ((rows.map fun p => if p.1 ∈ s then p.2 else 0).sum + s.card * (pc / (K : ℝ) ^ f)) / ((rows.map Prod.snd).sum + pc) := by
  unfold smoothed
  rw [← Finset.sum_div, sum_add_distrib, sum_rows, sum_const, nsmul_eq_mul]

variable (hK : 0 < K) (hr : ∀ p ∈ rows, p.1 ∈ states f K)

include hK hr

theorem m1_smoothed (u : Fin f) {a : ℕ} (ha : a < K) : m1 K (smoothed K rows pc) u a =
    ((rows.map fun p => if p.1 u = a then p.2 else 0).sum + pc / K) / ((rows.map Prod.snd).sum + pc) := by
  unfold m1
  rw [sum_smoothed]
  congr 2
  · congr 1
    refine List.map_congr_left fun p hp => ?_
    simp only [mem_filter, hr p hp, true_and]
  · rw [← card_one (f := f) u ha]
    have h1 : (K : ℝ) ≠ 0 := by positivity
    have h2 : (((states f K).filter fun x => x u = a).card : ℝ) ≠ 0 := by
      intro h
      have := card_one (f := f) u ha
      rw [h, zero_mul] at this
      exact absurd this.symm (by positivity)
    field_simp

theorem m2_smoothed {u v : Fin f} (huv : u ≠ v) {a b : ℕ} (ha : a < K) (hb : b < K) : m2 K (smoothed K rows pc) u v a b =
    ((rows.map fun p => if p.1 u = a ∧ p.1 v = b then p.2 else 0).sum + pc / (K * K)) / ((rows.map Prod.snd).sum + pc) := by
  unfold m2
  rw [sum_smoothed]
  congr 2
  · congr 1
    refine List.map_congr_left fun p hp => ?_
    simp only [mem_filter, hr p hp, true_and]
  · rw [← card_two (f := f) huv ha hb]
    have h1 : (K : ℝ) ≠ 0 := by positivity
    have h2 : (((states f K).filter fun x => x u = a ∧ x v = b).card : ℝ) ≠ 0 := by
      intro h
      have := card_two (f := f) huv ha hb
      rw [h, zero_mul] at this
      exact absurd this.symm (by positivity)
    field_simp

theorem sum_one (hZ : 0 < (rows.map Prod.snd).sum + pc) : ∑ x ∈ states f K, smoothed K rows pc x = 1 := by
  rw [sum_smoothed]
  have h1 : (rows.map fun p => if p.1 ∈ states f K then p.2 else 0) = rows.map Prod.snd :=
    List.map_congr_left fun p hp => if_pos (hr p hp)
  have h2 : ((states f K).card : ℝ) = (K : ℝ) ^ f := by simp [states]
  have h3 : (K : ℝ) ^ f ≠ 0 := by positivity
  rw [h1, h2, mul_div_cancel₀ _ h3, div_self hZ.ne']

end

theorem smoothed_nonneg {K : ℕ} {rows : List ((Fin f → ℕ) × ℝ)} {pc : ℝ} (hw : ∀ p ∈ rows, 0 ≤ p.2) (hpc : 0 ≤ pc)
    (x : Fin f → ℕ) : 0 ≤ smoothed K rows pc x := by
  unfold smoothed
  have h1 : 0 ≤ (rows.map fun p => if p.1 = x then p.2 else 0).sum := by
    refine List.sum_nonneg fun t ht => ?_
    obtain ⟨p, hp, rfl⟩ := List.mem_map.1 ht
    split_ifs
    · exact hw p hp
    · exact le_rfl
  have h2 : 0 ≤ (rows.map Prod.snd).sum := List.sum_nonneg fun t ht => by
    obtain ⟨p, hp, rfl⟩ := List.mem_map.1 ht
    exact hw p hp
  positivity

end Verif.Mi

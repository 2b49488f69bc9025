import Verif.CltFitMain

/-! C57: worked examples, and where the learned tree is not the best one. -/

namespace Verif.CltFit

open Finset
open Verif.Hclt (states parState Rooted)
open Verif.Span (Edge Adj Conn IsSpanningTree)
open Verif.Mst (treeEdges)
open Verif.ChowLiu (IsCpt treeDist mutualInfo m1 m2 clCpt)

variable {F : ℕ}

/-- Complete data without weights are a data set in the sense of the theorems. -/
theorem C57_unit_weights {query cols : Fin F → ℕ} {D K C R : ℕ} {rows : List LeafFit.Row} {data : List (Item F)}
    (hq : Found query D cols) (h : List.Forall₂ (Holds cols) rows data) (h2 : 2 ≤ data.length) (hK : ∀ d ∈ data, ∀ i, d.1 i < K)
    (hw : ∀ d ∈ data, ∀ f c r, d.2 f c r = 1) (hF : 0 < F) (hF' : F ≤ 10 ^ 12) (hC : 0 < C) (hR : 0 < R) :
    Dataset query cols D K C R rows data := by
  have hN : (2 : ℝ) ≤ data.length := by exact_mod_cast h2
  have e1 : allWeights C R data = data.length * (F * C * R) := by
    unfold allWeights
    rw [List.map_congr_left (g := fun _ => ((F : ℝ) * C * R)) fun d hd => ?_]
    · simp
    · simp only [hw d hd, sum_const, card_range, nsmul_eq_mul, mul_one]
      ring
  have e2 : rowWeights C R data = data.length * (C * R) := by
    unfold rowWeights
    rw [List.map_congr_left (g := fun _ => ((C : ℝ) * R)) fun d hd => ?_]
    · simp
    · unfold rowWeight
      simp only [hw d hd, sum_const, card_range, nsmul_eq_mul, mul_one]
  have hFp : (0 : ℝ) < F := by exact_mod_cast hF
  have hCp : (0 : ℝ) < C := by exact_mod_cast hC
  have hRp : (0 : ℝ) < R := by exact_mod_cast hR
  have hF2 : (F : ℝ) ≤ 10 ^ 12 := by exact_mod_cast hF'
  have hN' : (0 : ℝ) < data.length := by linarith
  refine ⟨(resolve_iff _ _ _).2 hq, h, h2, hK, fun d hd f c r => by rw [hw d hd]; exact zero_le_one, ?_, ?_⟩
  · rw [e1]; positivity
  · rw [e1, e2]
    have h3 : tiny * F ≤ 1 := by
      unfold tiny
      rw [div_mul_eq_mul_div, div_le_one (by positivity), one_mul]
      exact hF2
    calc tiny * (data.length * (F * C * R)) = tiny * F * (data.length * (C * R)) := by ring
      _ ≤ data.length * (data.length * (C * R)) := mul_le_mul_of_nonneg_right (by linarith) (by positivity)

namespace Wit

/-! ### Trees on three variables -/

theorem pick_star {w : Fin 3 → Fin 3 → ℝ} {T : Finset (Edge 3)} (hT : IsSpanningTree T)
    (h : ∑ e ∈ ({(0, 1), (0, 2)} : Finset (Edge 3)), w e.1 e.2 ≤ ∑ e ∈ T, w e.1 e.2) (h1 : w 1 2 < w 0 1) (h2 : w 1 2 < w 0 2) :
    T = {(0, 1), (0, 2)} := by
  have hsub : T ⊆ ({(0, 1), (0, 2), (1, 2)} : Finset (Edge 3)) := by
    intro e he
    have := hT.1 e he
    clear he
    revert this
    revert e
    decide
  have hcard : T.card = 2 := by have := hT.2.1; omega
  have hmem : T ∈ ({(0, 1), (0, 2), (1, 2)} : Finset (Edge 3)).powersetCard 2 := mem_powersetCard.2 ⟨hsub, hcard⟩
  have hlist : ({(0, 1), (0, 2), (1, 2)} : Finset (Edge 3)).powersetCard 2 =
      {{(0, 1), (0, 2)}, {(0, 1), (1, 2)}, {(0, 2), (1, 2)}} := by decide
  rw [hlist] at hmem
  simp only [mem_insert, mem_singleton] at hmem
  rcases hmem with rfl | rfl | rfl
  · rfl
  · rw [sum_pair (by decide), sum_pair (by decide)] at h
    simp only [] at h
    linarith
  · rw [sum_pair (by decide), sum_pair (by decide)] at h
    simp only [] at h
    linarith

/-- The path `0 — 1 — 2`, rooted in the middle. -/
def mid : Fin 3 → Option (Fin 3) := ![some 1, none, some 1]

theorem rooted_mid : Rooted (n := 3) {(0, 1), (1, 2)} 1 mid ![1, 0, 1] := by
  refine ⟨rfl, rfl, ?_, ?_, ?_, ?_⟩
  · decide
  · decide
  · unfold Adj; decide
  · decide

/-- If variables 0 and 2 are less dependent than 1 and 2, the star at 0 is not the best tree. -/
theorem star_not_best {P : (Fin 3 → ℕ) → ℝ} {K : ℕ} (hP : ∀ x ∈ states 3 K, 0 ≤ P x) (h1 : ∀ b < K, 0 < m1 K P 1 b)
    (hs : ∑ a ∈ range K, m1 K P 1 a = 1)
    (h : mutualInfo K P 0 2 < mutualInfo K P 1 2) : ¬ Mi.MostLikely K P {(0, 1), (0, 2)} := by
  intro hm
  obtain ⟨hT, hT'⟩ := Mst.C27_triangle
  obtain ⟨par, d, hr⟩ := Hclt.rooted hT 0
  have hA : IsCpt K (clCpt K P mid) := by
    intro v b hb
    have hcases : v = 1 ∨ mid v = some 1 := by revert v; decide
    unfold clCpt
    rcases hcases with rfl | hv
    · exact ⟨fun a _ => ChowLiu.m1_nonneg hP _ _, hs⟩
    · rw [hv]
      refine ⟨fun a _ => div_nonneg (ChowLiu.m2_nonneg hP _ _ _ _) (ChowLiu.m1_nonneg hP _ _), ?_⟩
      simp only []
      rw [← sum_div, ChowLiu.m2_right, div_self (h1 b hb).ne']
  have h3 := hm 0 par d hr {(0, 1), (1, 2)} 1 mid _ _ hT' rooted_mid hA fun x hx h0 => ChowLiu.clCpt_pos hP x hx h0
  rw [ChowLiu.expLogLik_cl hP hT hr, ChowLiu.expLogLik_cl hP hT' rooted_mid, sum_pair (by decide), sum_pair (by decide)] at h3
  simp only [] at h3
  linarith

/-! ### Mutual information of two fair bits -/

theorem xlogx_ge {x : ℝ} (hx : 0 ≤ x) : x - 1 ≤ x * Real.log x := by
  rcases hx.eq_or_lt with rfl | hx
  · simp
  · have h := Real.log_le_sub_one_of_pos (inv_pos.2 hx)
    rw [Real.log_inv] at h
    have h2 := mul_le_mul_of_nonneg_left h hx.le
    rw [mul_sub, mul_inv_cancel₀ hx.ne'] at h2
    linarith

theorem xlogx_gt {x : ℝ} (hx : 0 < x) (h1 : x ≠ 1) : x - 1 < x * Real.log x := by
  have h := Real.log_lt_sub_one_of_pos (inv_pos.2 hx) (by rwa [ne_eq, inv_eq_one])
  rw [Real.log_inv] at h
  have h2 := mul_lt_mul_of_pos_left h hx
  rw [mul_sub, mul_inv_cancel₀ hx.ne'] at h2
  linarith

section bits

variable {P : (Fin 3 → ℕ) → ℝ} {u v : Fin 3}

theorem mi_bits {x y : ℝ} (hu : ∀ a < 2, m1 2 P u a = 1 / 2) (hv : ∀ a < 2, m1 2 P v a = 1 / 2)
    (h2 : ∀ a < 2, ∀ b < 2, m2 2 P u v a b = if a = b then x else y) :
    mutualInfo 2 P u v = 2 * (x * Real.log (4 * x)) + 2 * (y * Real.log (4 * y)) := by
  unfold mutualInfo
  simp only [sum_range_succ, sum_range_zero, zero_add]
  rw [hu 0 (by decide), hu 1 (by decide), hv 0 (by decide), hv 1 (by decide), h2 0 (by decide) 0 (by decide),
    h2 0 (by decide) 1 (by decide), h2 1 (by decide) 0 (by decide), h2 1 (by decide) 1 (by decide)]
  simp only [if_true, zero_ne_one, one_ne_zero, if_false]
  rw [show (1 / 2 * (1 / 2) : ℝ) = 1 / 4 by norm_num, show x / (1 / 4) = 4 * x by ring, show y / (1 / 4) = 4 * y by ring]
  ring

theorem mi_bits_pos {x y : ℝ} (hu : ∀ a < 2, m1 2 P u a = 1 / 2) (hv : ∀ a < 2, m1 2 P v a = 1 / 2)
    (h2 : ∀ a < 2, ∀ b < 2, m2 2 P u v a b = if a = b then x else y) (hxy : x + y = 1 / 2) (hy : 0 ≤ y) (hlt : y < x) :
    0 < mutualInfo 2 P u v := by
  rw [mi_bits hu hv h2]
  have h3 := xlogx_gt (x := 4 * x) (by linarith) (by linarith)
  have h4 := xlogx_ge (x := 4 * y) (by linarith)
  nlinarith

theorem mi_bits_zero {x : ℝ} (hu : ∀ a < 2, m1 2 P u a = 1 / 2) (hv : ∀ a < 2, m1 2 P v a = 1 / 2)
    (h2 : ∀ a < 2, ∀ b < 2, m2 2 P u v a b = x) (hx : x = 1 / 4) : mutualInfo 2 P u v = 0 := by
  rw [mi_bits (x := x) (y := x) hu hv fun a ha b hb => by rw [h2 a ha b hb, ite_self], hx]
  norm_num

end bits

/-! ### Data without weights -/

section unit

variable {data : List (Item 3)} (hw : ∀ d ∈ data, ∀ f c r, d.2 f c r = 1) (hK : ∀ d ∈ data, ∀ i, d.1 i < 2) (hN : data ≠ [])

include hw hN in
theorem weighted_unit (σ : Fin 3 → Fin 3) : weighted 1 1 σ data = data.map fun d => ((fun i => d.1 (σ i)), d.2 0 0 0) := by
  have hlen : (data.length : ℝ) ≠ 0 := by exact_mod_cast (List.length_pos_iff.2 hN).ne'
  have e1 : ∀ d ∈ data, rowWeight 1 1 d = 1 := by
    intro d hd
    unfold rowWeight
    simp [hw d hd]
  have e2 : rowWeights 1 1 data = data.length := by
    unfold rowWeights
    rw [List.map_congr_left (g := fun _ => (1 : ℝ)) e1]
    simp
  unfold weighted
  rw [e2, div_self hlen]
  refine List.map_congr_left fun d hd => ?_
  rw [e1 d hd, hw d hd, mul_one]

include hw in
theorem total_unit (σ : Fin 3 → Fin 3) :
    ((data.map fun d => ((fun i => d.1 (σ i)), d.2 0 0 0) : WRows 3).map Prod.snd).sum = data.length := by
  rw [List.map_map]
  have : data.map (Prod.snd ∘ fun d : Item 3 => ((fun i => d.1 (σ i)), d.2 0 0 0)) = data.map fun _ => (1 : ℝ) :=
    List.map_congr_left fun d hd => hw d hd 0 0 0
  rw [this]
  simp

include hK in
theorem mem_unit (σ : Fin 3 → Fin 3) : ∀ p ∈ (data.map fun d => ((fun i => d.1 (σ i)), d.2 0 0 0) : WRows 3), p.1 ∈ states 3 2 := by
  intro p hp
  obtain ⟨d, hd, rfl⟩ := List.mem_map.1 hp
  exact Fintype.mem_piFinset.2 fun i => mem_range.2 (hK d hd _)

include hw hK hN

theorem emp_m1 (σ : Fin 3 → Fin 3) (α : ℝ) (u : Fin 3) {a : ℕ} (ha : a < 2) :
    m1 2 (empirical α 2 (weighted 1 1 σ data)) u a = (seen1 data 0 0 (σ u) a + 2 * α) / (data.length + 4 * α) := by
  rw [weighted_unit hw hN]
  unfold empirical
  rw [Mi.m1_smoothed (by decide) (mem_unit hK σ) u ha, total_unit hw, List.map_map]
  unfold seen1
  norm_num
  congr 2
  ring

theorem emp_m2 (σ : Fin 3 → Fin 3) (α : ℝ) {u v : Fin 3} (huv : u ≠ v) {a b : ℕ} (ha : a < 2) (hb : b < 2) :
    m2 2 (empirical α 2 (weighted 1 1 σ data)) u v a b = (seen2 data 0 0 (σ u) (σ v) a b + α) / (data.length + 4 * α) := by
  rw [weighted_unit hw hN]
  unfold empirical
  rw [Mi.m2_smoothed (by decide) (mem_unit hK σ) huv ha hb, total_unit hw, List.map_map]
  unfold seen2
  norm_num
  congr 2

omit hK in
theorem emp_single (σ : Fin 3 → Fin 3) (α : ℝ) (u : Fin 3) (a : ℕ) :
    single α 2 (weighted 1 1 σ data) u a = (seen1 data 0 0 (σ u) a + α) / (data.length + 2 * α) := by
  rw [weighted_unit hw hN]
  unfold single
  rw [total_unit hw, List.map_map]
  unfold seen1
  norm_num
  congr 2

end unit

/-- An item without weights. -/
def item (x : Fin 3 → ℕ) : Item 3 := (x, fun _ _ _ => 1)

/-- Ten items: variable 0 is constant, variables 1 and 2 agree in six of them. -/
def data1 : List (Item 3) := List.replicate 3 (item ![0, 0, 0]) ++ List.replicate 2 (item ![0, 0, 1]) ++
  List.replicate 2 (item ![0, 1, 0]) ++ List.replicate 3 (item ![0, 1, 1])

/-- Twelve items: variables 1 and 2 agree in ten of them, 0 and 1 in eight, 0 and 2 in six. -/
def data2 : List (Item 3) := List.replicate 3 (item ![0, 0, 0]) ++ List.replicate 3 (item ![1, 1, 1]) ++
  List.replicate 2 (item ![1, 0, 0]) ++ List.replicate 2 (item ![0, 1, 1]) ++ [item ![0, 0, 1], item ![1, 1, 0]]

/-- The row of the data tensor for an item, if column `j` belongs to the `inv j`-th variable of the scope. -/
def toRow (inv : ℕ → Fin 3) (d : Item 3) : LeafFit.Row := ⟨fun j => some (d.1 (inv j)), d.2⟩

theorem holds_toRow {inv : ℕ → Fin 3} {cols : Fin 3 → ℕ} (h : ∀ i, inv (cols i) = i) :
    ∀ data : List (Item 3), List.Forall₂ (Holds cols) (data.map (toRow inv)) data
  | [] => .nil
  | d :: l => .cons ⟨fun i => by show some ((d.1 (inv (cols i)) : ℕ) : ℝ) = _; rw [h], rfl⟩ (holds_toRow h l)

theorem data1_unit : ∀ d ∈ data1, ∀ f c r, d.2 f c r = 1 := by
  intro d hd f c r
  unfold data1 at hd
  simp only [List.mem_append, List.mem_replicate] at hd
  rcases hd with ((⟨-, rfl⟩ | ⟨-, rfl⟩) | ⟨-, rfl⟩) | ⟨-, rfl⟩ <;> rfl

theorem data1_range : ∀ d ∈ data1, ∀ i, d.1 i < 2 := by
  intro d hd
  unfold data1 at hd
  simp only [List.mem_append, List.mem_replicate] at hd
  rcases hd with ((⟨-, rfl⟩ | ⟨-, rfl⟩) | ⟨-, rfl⟩) | ⟨-, rfl⟩ <;> (unfold item; decide)

theorem data2_unit : ∀ d ∈ data2, ∀ f c r, d.2 f c r = 1 := by
  intro d hd f c r
  unfold data2 at hd
  simp only [List.mem_append, List.mem_replicate, List.mem_cons, List.not_mem_nil, or_false] at hd
  rcases hd with (((⟨-, rfl⟩ | ⟨-, rfl⟩) | ⟨-, rfl⟩) | ⟨-, rfl⟩) | rfl | rfl <;> rfl

theorem data2_range : ∀ d ∈ data2, ∀ i, d.1 i < 2 := by
  intro d hd
  unfold data2 at hd
  simp only [List.mem_append, List.mem_replicate, List.mem_cons, List.not_mem_nil, or_false] at hd
  rcases hd with (((⟨-, rfl⟩ | ⟨-, rfl⟩) | ⟨-, rfl⟩) | ⟨-, rfl⟩) | rfl | rfl <;> (unfold item; decide)

theorem data1_seen1 (u : Fin 3) (a : ℕ) : seen1 data1 0 0 u a = (3 : ℕ) * (if (![0, 0, 0] : Fin 3 → ℕ) u = a then 1 else 0) +
    (2 : ℕ) * (if (![0, 0, 1] : Fin 3 → ℕ) u = a then 1 else 0) + (2 : ℕ) * (if (![0, 1, 0] : Fin 3 → ℕ) u = a then 1 else 0) +
    (3 : ℕ) * (if (![0, 1, 1] : Fin 3 → ℕ) u = a then 1 else 0) := by
  unfold seen1 data1
  simp only [List.map_append, List.map_replicate, List.sum_append, List.sum_replicate, nsmul_eq_mul]
  rfl

theorem data1_seen2 (u v : Fin 3) (a b : ℕ) : seen2 data1 0 0 u v a b =
    (3 : ℕ) * (if (![0, 0, 0] : Fin 3 → ℕ) u = a ∧ (![0, 0, 0] : Fin 3 → ℕ) v = b then 1 else 0) +
    (2 : ℕ) * (if (![0, 0, 1] : Fin 3 → ℕ) u = a ∧ (![0, 0, 1] : Fin 3 → ℕ) v = b then 1 else 0) +
    (2 : ℕ) * (if (![0, 1, 0] : Fin 3 → ℕ) u = a ∧ (![0, 1, 0] : Fin 3 → ℕ) v = b then 1 else 0) +
    (3 : ℕ) * (if (![0, 1, 1] : Fin 3 → ℕ) u = a ∧ (![0, 1, 1] : Fin 3 → ℕ) v = b then 1 else 0) := by
  unfold seen2 data1
  simp only [List.map_append, List.map_replicate, List.sum_append, List.sum_replicate, nsmul_eq_mul]
  rfl

theorem data2_seen1 (u : Fin 3) {a : ℕ} (ha : a < 2) : seen1 data2 0 0 u a = 6 := by
  have h0 : seen1 data2 0 0 u a = (3 : ℕ) * (if (![0, 0, 0] : Fin 3 → ℕ) u = a then 1 else 0) +
    (3 : ℕ) * (if (![1, 1, 1] : Fin 3 → ℕ) u = a then 1 else 0) + (2 : ℕ) * (if (![1, 0, 0] : Fin 3 → ℕ) u = a then 1 else 0) +
    (2 : ℕ) * (if (![0, 1, 1] : Fin 3 → ℕ) u = a then 1 else 0) + ((if (![0, 0, 1] : Fin 3 → ℕ) u = a then 1 else 0) +
     ((if (![1, 1, 0] : Fin 3 → ℕ) u = a then 1 else 0) + 0)) := by
    unfold seen1 data2
    simp only [List.map_append, List.map_replicate, List.sum_append, List.sum_replicate, nsmul_eq_mul]
    rfl
  rw [h0]
  rcases (by omega : a = 0 ∨ a = 1) with rfl | rfl <;> fin_cases u <;> norm_num

theorem data2_seen2 (u v : Fin 3) (a b : ℕ) : seen2 data2 0 0 u v a b =
    (3 : ℕ) * (if (![0, 0, 0] : Fin 3 → ℕ) u = a ∧ (![0, 0, 0] : Fin 3 → ℕ) v = b then 1 else 0) +
    (3 : ℕ) * (if (![1, 1, 1] : Fin 3 → ℕ) u = a ∧ (![1, 1, 1] : Fin 3 → ℕ) v = b then 1 else 0) +
    (2 : ℕ) * (if (![1, 0, 0] : Fin 3 → ℕ) u = a ∧ (![1, 0, 0] : Fin 3 → ℕ) v = b then 1 else 0) +
    (2 : ℕ) * (if (![0, 1, 1] : Fin 3 → ℕ) u = a ∧ (![0, 1, 1] : Fin 3 → ℕ) v = b then 1 else 0) +
    ((if (![0, 0, 1] : Fin 3 → ℕ) u = a ∧ (![0, 0, 1] : Fin 3 → ℕ) v = b then 1 else 0) +
     ((if (![1, 1, 0] : Fin 3 → ℕ) u = a ∧ (![1, 1, 0] : Fin 3 → ℕ) v = b then 1 else 0) + 0)) := by
  unfold seen2 data2
  simp only [List.map_append, List.map_replicate, List.sum_append, List.sum_replicate, nsmul_eq_mul]
  rfl

@[local simp] theorem vec2 (a b c : ℕ) : (![a, b, c] : Fin 3 → ℕ) 2 = c := rfl

theorem mi_indep {P : (Fin 3 → ℕ) → ℝ} {u v : Fin 3} {K : ℕ} (h : ∀ a < K, ∀ b < K, m2 K P u v a b = m1 K P u a * m1 K P v b) :
    mutualInfo K P u v = 0 := by
  unfold mutualInfo
  refine sum_eq_zero fun a ha => sum_eq_zero fun b hb => ?_
  rw [h a (mem_range.1 ha) b (mem_range.1 hb)]
  by_cases h0 : m1 K P u a * m1 K P v b = 0
  · rw [h0, zero_mul]
  · rw [div_self h0, Real.log_one, mul_zero]

/-- A leaf that has not learned a tree. -/
def fresh (t : Fin 3 → ℕ → ℕ → ℕ → ℕ → ℝ) : State 3 := ⟨fun _ => none, t⟩

theorem fresh_none (t : Fin 3 → ℕ → ℕ → ℕ → ℕ → ℝ) : ¬ hasStructure (fresh t).parents := by
  rintro ⟨h, -⟩
  have : (univ.filter fun i : Fin 3 => (fresh t).parents i = none).card = 3 := by
    rw [filter_true_of_mem (p := fun i : Fin 3 => (fresh t).parents i = none) (s := univ) fun _ _ => rfl]; rfl
  rw [this] at h
  cases h

theorem tiny_lt : tiny ≤ 1 / 100 := by unfold tiny; norm_num

/-! ### First example -/

section first

theorem ne1 : data1 ≠ [] := by unfold data1; simp

theorem len1 : data1.length = 10 := by unfold data1; simp

theorem half1 {α : ℝ} (hα : 0 ≤ α) {u : Fin 3} (hu : u = 1 ∨ u = 2) {a : ℕ} (ha : a < 2) :
    m1 2 (empirical α 2 (weighted 1 1 id data1)) u a = 1 / 2 := by
  rw [emp_m1 data1_unit data1_range ne1 id α u ha, data1_seen1, len1]
  rcases (by omega : a = 0 ∨ a = 1) with rfl | rfl <;> rcases hu with rfl | rfl <;> norm_num <;> field_simp <;> ring

theorem pair1 {α : ℝ} {a b : ℕ} (ha : a < 2) (hb : b < 2) :
    m2 2 (empirical α 2 (weighted 1 1 id data1)) 1 2 a b = if a = b then (3 + α) / (10 + 4 * α) else (2 + α) / (10 + 4 * α) := by
  rw [emp_m2 data1_unit data1_range ne1 id α (by decide) ha hb, data1_seen2, len1]
  rcases (by omega : a = 0 ∨ a = 1) with rfl | rfl <;> rcases (by omega : b = 0 ∨ b = 1) with rfl | rfl <;> norm_num

theorem indep1 {α : ℝ} (hα : 0 ≤ α) {u : Fin 3} (hu : u = 1 ∨ u = 2) :
    mutualInfo 2 (empirical α 2 (weighted 1 1 id data1)) 0 u = 0 := by
  refine mi_indep fun a ha b hb => ?_
  have hne : (0 : Fin 3) ≠ u := by rcases hu with rfl | rfl <;> decide
  rw [half1 hα hu hb, emp_m2 data1_unit data1_range ne1 id α hne ha hb, emp_m1 data1_unit data1_range ne1 id α 0 ha,
    data1_seen1, data1_seen2, len1]
  rcases (by omega : a = 0 ∨ a = 1) with rfl | rfl <;> rcases (by omega : b = 0 ∨ b = 1) with rfl | rfl <;>
    rcases hu with rfl | rfl <;> norm_num <;> ring

theorem dep1 {α : ℝ} (hα : 0 ≤ α) : 0 < mutualInfo 2 (empirical α 2 (weighted 1 1 id data1)) 1 2 := by
  have hd : 0 < 10 + 4 * α := by positivity
  refine mi_bits_pos (fun a ha => half1 hα (Or.inl rfl) ha) (fun a ha => half1 hα (Or.inr rfl) ha)
    (fun a ha b hb => pair1 ha hb) ?_ (by positivity) ?_
  · field_simp; ring
  · rw [div_lt_div_iff_of_pos_right hd]; linarith

theorem excess1 {u : Fin 3} (hu : u = 1 ∨ u = 2) : excess 1 2 (weighted 1 1 id data1) u = 0 := by
  unfold excess
  refine sum_eq_zero fun a ha => ?_
  rw [half1 zero_le_one hu (mem_range.1 ha), emp_single data1_unit ne1, data1_seen1, len1]
  rcases (by have := mem_range.1 ha; omega : a = 0 ∨ a = 1) with rfl | rfl <;> rcases hu with rfl | rfl <;> norm_num

theorem excess0 : excess 1 2 (weighted 1 1 id data1) 0 = 12 / 14 * Real.log (72 / 77) + 2 / 14 * Real.log (12 / 7) := by
  unfold excess
  simp only [sum_range_succ, sum_range_zero, zero_add]
  rw [emp_m1 data1_unit data1_range ne1 id 1 0 (by decide), emp_m1 data1_unit data1_range ne1 id 1 0 (by decide),
    emp_single data1_unit ne1, emp_single data1_unit ne1, data1_seen1, data1_seen1, len1]
  norm_num

theorem compare1 : mutualInfo 2 (empirical 1 2 (weighted 1 1 id data1)) 1 2 < excess 1 2 (weighted 1 1 id data1) 0 := by
  rw [mi_bits (fun a ha => half1 zero_le_one (Or.inl rfl) ha) (fun a ha => half1 zero_le_one (Or.inr rfl) ha)
    (fun a ha b hb => pair1 ha hb), excess0]
  have h1 : Real.log ((8 / 7) ^ 8 * (6 / 7) ^ 6) < Real.log ((72 / 77) ^ 12 * (12 / 7) ^ 2) :=
    Real.log_lt_log (by positivity) (by norm_num)
  rw [Real.log_mul (by positivity) (by positivity), Real.log_mul (by positivity) (by positivity), Real.log_pow, Real.log_pow,
    Real.log_pow, Real.log_pow] at h1
  norm_num at h1 ⊢
  linarith

/-- **The learned tree need not be the best one.** Variable 0 is constant, 1 and 2 are dependent; the leaf nevertheless learns
the tree in which 1 and 2 hang on 0, and this tree is worse than the path `0 — 1 — 2`, both for the data themselves (`α' = 0`)
and for the data with any pseudo-count.  The cause: single values and pairs get the same pseudo-count. -/
theorem C57_structure_wrong (t : Fin 3 → ℕ → ℕ → ℕ → ℕ → ℝ) :
    Dataset ![0, 1, 2] ![0, 1, 2] 3 2 1 1 (data1.map (toRow fun j => if j = 0 then 0 else if j = 1 then 1 else 2)) data1 ∧
    Unclamped 1 2 data1.length ∧
    ∃ s', mle ![0, 1, 2] 3 2 1 1 1 (fresh t) (data1.map (toRow fun j => if j = 0 then 0 else if j = 1 then 1 else 2)) = .ok s' ∧
      treeEdges s'.parents = {(0, 1), (0, 2)} ∧
      ∀ α', 0 ≤ α' → ¬ Mi.MostLikely 2 (empirical α' 2 (weighted 1 1 id data1)) (treeEdges s'.parents) := by
  have hd : Dataset ![0, 1, 2] ![0, 1, 2] 3 2 1 1 (data1.map (toRow fun j => if j = 0 then 0 else if j = 1 then 1 else 2)) data1 :=
    C57_unit_weights (Or.inl ⟨by decide, rfl⟩) (holds_toRow (by decide) _) (by rw [len1]; decide) data1_range data1_unit (by decide) (by norm_num)
      (by decide) (by decide)
  have hα : Unclamped 1 2 data1.length := by
    have := tiny_lt
    have h0 := tiny_pos
    rw [len1]
    exact ⟨one_pos, by norm_num; linarith, by linarith⟩
  refine ⟨hd, hα, ?_⟩
  obtain ⟨s', h1, h2, -, h4⟩ := C57_structure hd hα (fresh_none t)
  have hre : refeed (![0, 1, 2] : Fin 3 → ℕ) = id := by
    unfold refeed
    rw [dif_pos (by decide)]
    funext i
    fin_cases i <;> rfl
  rw [hre] at h4
  have hT : treeEdges s'.parents = {(0, 1), (0, 2)} := by
    refine pick_star h2 (h4 _ Mst.C27_triangle.1) ?_ ?_ <;> unfold score <;>
      rw [indep1 zero_le_one (by decide), excess1 (u := 1) (by decide), excess1 (u := 2) (by decide)] <;>
      have := compare1 <;> linarith
  refine ⟨s', h1, hT, fun α' hα' => ?_⟩
  rw [hT]
  refine star_not_best (fun x _ => Mi.smoothed_nonneg (hd.weighted_nonneg _) (by positivity) x) (fun b hb => ?_) ?_ ?_
  · rw [half1 hα' (Or.inl rfl) hb]; norm_num
  · simp only [sum_range_succ, sum_range_zero, zero_add]
    rw [half1 hα' (Or.inl rfl) (by decide), half1 hα' (Or.inl rfl) (by decide)]
    norm_num
  · rw [indep1 hα' (Or.inr rfl)]
    exact dep1 hα'

end first

/-! ### Second example -/

section second

theorem ne2 : data2 ≠ [] := by unfold data2; simp

theorem len2 : data2.length = 12 := by unfold data2; simp

theorem half2 {α : ℝ} (hα : 0 ≤ α) (σ : Fin 3 → Fin 3) (u : Fin 3) {a : ℕ} (ha : a < 2) :
    m1 2 (empirical α 2 (weighted 1 1 σ data2)) u a = 1 / 2 := by
  rw [emp_m1 data2_unit data2_range ne2 σ α u ha, data2_seen1 _ ha, len2]
  have hd : (12 : ℝ) + 4 * α ≠ 0 := by positivity
  push_cast
  field_simp
  ring

theorem excess2 (σ : Fin 3 → Fin 3) (u : Fin 3) : excess 1 2 (weighted 1 1 σ data2) u = 0 := by
  unfold excess
  refine sum_eq_zero fun a ha => ?_
  rw [half2 zero_le_one σ u (mem_range.1 ha), emp_single data2_unit ne2, data2_seen1 _ (mem_range.1 ha), len2]
  norm_num

theorem pair2 {α : ℝ} (σ : Fin 3 → Fin 3) {u v : Fin 3} (huv : u ≠ v) {g : ℝ}
    (hg : ∀ a < 2, ∀ b < 2, seen2 data2 0 0 (σ u) (σ v) a b = if a = b then g else 6 - g) :
    ∀ a < 2, ∀ b < 2, m2 2 (empirical α 2 (weighted 1 1 σ data2)) u v a b =
      if a = b then (g + α) / (12 + 4 * α) else (6 - g + α) / (12 + 4 * α) := by
  intro a ha b hb
  rw [emp_m2 data2_unit data2_range ne2 σ α huv ha hb, len2, hg a ha b hb]
  split_ifs <;> norm_num

theorem pos2 {α : ℝ} (hα : 0 ≤ α) (σ : Fin 3 → Fin 3) {u v : Fin 3} (huv : u ≠ v) {g : ℝ}
    (hg : ∀ a < 2, ∀ b < 2, seen2 data2 0 0 (σ u) (σ v) a b = if a = b then g else 6 - g) (h3 : 3 < g) (h6 : g ≤ 6) :
    0 < mutualInfo 2 (empirical α 2 (weighted 1 1 σ data2)) u v := by
  have hd : 0 < 12 + 4 * α := by positivity
  refine mi_bits_pos (fun a ha => half2 hα σ u ha) (fun a ha => half2 hα σ v ha) (pair2 σ huv hg) ?_ ?_ ?_
  · field_simp; ring
  · exact div_nonneg (by linarith) hd.le
  · rw [div_lt_div_iff_of_pos_right hd]; linarith

theorem zero2 {α : ℝ} (hα : 0 ≤ α) (σ : Fin 3 → Fin 3) {u v : Fin 3} (huv : u ≠ v)
    (hg : ∀ a < 2, ∀ b < 2, seen2 data2 0 0 (σ u) (σ v) a b = if a = b then 3 else 6 - 3) :
    mutualInfo 2 (empirical α 2 (weighted 1 1 σ data2)) u v = 0 := by
  have hd : 12 + 4 * α ≠ 0 := by positivity
  refine mi_bits_zero (x := (3 + α) / (12 + 4 * α)) (fun a ha => half2 hα σ u ha) (fun a ha => half2 hα σ v ha) ?_ ?_
  · intro a ha b hb
    rw [pair2 σ huv hg a ha b hb]
    norm_num
  · field_simp; ring

theorem s01 : ∀ a < 2, ∀ b < 2, seen2 data2 0 0 0 1 a b = if a = b then 4 else 6 - 4 := by
  intro a ha b hb
  rw [data2_seen2]
  rcases (by omega : a = 0 ∨ a = 1) with rfl | rfl <;> rcases (by omega : b = 0 ∨ b = 1) with rfl | rfl <;> norm_num

theorem s10 : ∀ a < 2, ∀ b < 2, seen2 data2 0 0 1 0 a b = if a = b then 4 else 6 - 4 := by
  intro a ha b hb
  rw [data2_seen2]
  rcases (by omega : a = 0 ∨ a = 1) with rfl | rfl <;> rcases (by omega : b = 0 ∨ b = 1) with rfl | rfl <;> norm_num

theorem s12 : ∀ a < 2, ∀ b < 2, seen2 data2 0 0 1 2 a b = if a = b then 5 else 6 - 5 := by
  intro a ha b hb
  rw [data2_seen2]
  rcases (by omega : a = 0 ∨ a = 1) with rfl | rfl <;> rcases (by omega : b = 0 ∨ b = 1) with rfl | rfl <;> norm_num

theorem s02 : ∀ a < 2, ∀ b < 2, seen2 data2 0 0 0 2 a b = if a = b then 3 else 6 - 3 := by
  intro a ha b hb
  rw [data2_seen2]
  rcases (by omega : a = 0 ∨ a = 1) with rfl | rfl <;> rcases (by omega : b = 0 ∨ b = 1) with rfl | rfl <;> norm_num

theorem s20 : ∀ a < 2, ∀ b < 2, seen2 data2 0 0 2 0 a b = if a = b then 3 else 6 - 3 := by
  intro a ha b hb
  rw [data2_seen2]
  rcases (by omega : a = 0 ∨ a = 1) with rfl | rfl <;> rcases (by omega : b = 0 ∨ b = 1) with rfl | rfl <;> norm_num

/-- Scope (1, 2, 0): column 1 holds the first variable of the scope, column 2 the second, column 0 the third. -/
def inv2 (j : ℕ) : Fin 3 := if j = 1 then 0 else if j = 2 then 1 else 2

/-- The permutation that is applied once too often. -/
def twice : Fin 3 → Fin 3 := ![1, 2, 0]

/-- **The order of the scope matters, and should not.** A leaf with scope (1, 2, 0) on three-column data restricts the data to
its scope and then looks up the scope once more, so the tree is learned for permuted variables.  Here all variables are fair
bits (so there is no excess), and the leaf learns the star at its variable 0 although the path `0 — 1 — 2` is better, for the
data themselves (`α' = 0`) and with any pseudo-count. -/
theorem C57_scope_order_wrong (t : Fin 3 → ℕ → ℕ → ℕ → ℕ → ℝ) :
    Dataset ![1, 2, 0] ![1, 2, 0] 3 2 1 1 (data2.map (toRow inv2)) data2 ∧ Unclamped 1 2 data2.length ∧
    (∀ i j, excess 1 2 (weighted 1 1 id data2) i = excess 1 2 (weighted 1 1 id data2) j) ∧
    ∃ s', mle ![1, 2, 0] 3 2 1 1 1 (fresh t) (data2.map (toRow inv2)) = .ok s' ∧
      treeEdges s'.parents = {(0, 1), (0, 2)} ∧
      ∀ α', 0 ≤ α' → ¬ Mi.MostLikely 2 (empirical α' 2 (weighted 1 1 id data2)) (treeEdges s'.parents) := by
  have hd : Dataset ![1, 2, 0] ![1, 2, 0] 3 2 1 1 (data2.map (toRow inv2)) data2 :=
    C57_unit_weights (Or.inl ⟨by decide, rfl⟩) (holds_toRow (by unfold inv2; decide) _) (by rw [len2]; decide) data2_range data2_unit
      (by decide) (by norm_num) (by decide) (by decide)
  have hα : Unclamped 1 2 data2.length := by
    have := tiny_lt
    have h0 := tiny_pos
    rw [len2]
    exact ⟨one_pos, by norm_num; linarith, by linarith⟩
  refine ⟨hd, hα, fun i j => by rw [excess2, excess2], ?_⟩
  obtain ⟨s', h1, h2, -, h4⟩ := C57_structure hd hα (fresh_none t)
  have hre : refeed (![1, 2, 0] : Fin 3 → ℕ) = twice := by
    unfold refeed
    rw [dif_pos (by decide)]
    funext i
    fin_cases i <;> rfl
  rw [hre] at h4
  have hT : treeEdges s'.parents = {(0, 1), (0, 2)} := by
    have e12 : mutualInfo 2 (empirical 1 2 (weighted 1 1 twice data2)) 1 2 = 0 := zero2 zero_le_one twice (by decide) s20
    have e01 : 0 < mutualInfo 2 (empirical 1 2 (weighted 1 1 twice data2)) 0 1 :=
      pos2 zero_le_one twice (by decide) s12 (by norm_num) (by norm_num)
    have e02 : 0 < mutualInfo 2 (empirical 1 2 (weighted 1 1 twice data2)) 0 2 :=
      pos2 zero_le_one twice (by decide) s10 (by norm_num) (by norm_num)
    refine pick_star h2 (h4 _ Mst.C27_triangle.1) ?_ ?_ <;> unfold score <;> rw [excess2, excess2, excess2, e12] <;> linarith
  refine ⟨s', h1, hT, fun α' hα' => ?_⟩
  rw [hT]
  refine star_not_best (fun x _ => Mi.smoothed_nonneg (hd.weighted_nonneg _) (by positivity) x) (fun b hb => ?_) ?_ ?_
  · rw [half2 hα' id 1 hb]; norm_num
  · simp only [sum_range_succ, sum_range_zero, zero_add]
    rw [half2 hα' id 1 (by decide), half2 hα' id 1 (by decide)]
    norm_num
  · rw [zero2 hα' id (by decide) s02]
    exact pos2 hα' id (by decide) s12 (by norm_num) (by norm_num)

/-- The same data with the scope in its natural order: the hypotheses of `C57_structure_best_partial` and of
`C57_tables_optimal` hold, and the learned tree is a best one. -/
theorem C57_example (t : Fin 3 → ℕ → ℕ → ℕ → ℕ → ℝ) : ∃ s',
    mle ![0, 1, 2] 3 2 1 1 1 (fresh t) (data2.map (toRow fun j => if j = 0 then 0 else if j = 1 then 1 else 2)) = .ok s' ∧
      Mi.MostLikely 2 (empirical 1 2 (weighted 1 1 id data2)) (treeEdges s'.parents) ∧
      IsCpt 2 (fun v a b => Real.exp (s'.logCpt v 0 0 a b)) ∧
      Real.exp (s'.logCpt 0 0 0 1 0) = 1 / 2 := by
  have hd : Dataset ![0, 1, 2] ![0, 1, 2] 3 2 1 1 (data2.map (toRow fun j => if j = 0 then 0 else if j = 1 then 1 else 2)) data2 :=
    C57_unit_weights (Or.inl ⟨by decide, rfl⟩) (holds_toRow (by decide) _) (by rw [len2]; decide) data2_range data2_unit (by decide) (by norm_num)
      (by decide) (by decide)
  have ht := tiny_lt
  have h0 := tiny_pos
  have hα : Unclamped 1 2 data2.length := by
    rw [len2]
    exact ⟨one_pos, by norm_num; linarith, by linarith⟩
  obtain ⟨s', h1, h2, ⟨d, h3⟩, h4⟩ := C57_structure hd hα (fresh_none t)
  have hre : refeed (![0, 1, 2] : Fin 3 → ℕ) = id := by
    unfold refeed
    rw [dif_pos (by decide)]
    funext i
    fin_cases i <;> rfl
  have hβ : pseudo 1 1 1 data2 = 3 := by
    rw [C57_effective_pseudocount (by rw [len2]; decide) data2_unit]
    norm_num
  have hα2 : tiny ≤ (2 : ℕ) * 1 := by norm_num; linarith
  have hs0 : seen0 data2 0 0 = 12 := by
    unfold seen0
    rw [List.map_congr_left (g := fun _ => (1 : ℝ)) fun d hd => data2_unit d hd 0 0 0, List.map_const', List.sum_replicate, len2]
    norm_num
  refine ⟨s', h1, C57_structure_best_partial hd hα (fresh_none t) h1 hre fun i j => by rw [excess2, excess2], ?_, ?_⟩
  · refine (C57_tables_optimal hd hα2 h1 0 0 fun v a _ b _ => unclamped_tables hd one_pos 0 0 ?_ _ v a b).1
    rw [hs0, hβ]
    norm_num
    linarith
  · rw [C57_tables hd hα2 h1, hβ]
    unfold smoothCpt
    rw [h3.root]
    simp only []
    rw [hs0, data2_seen1 0 (by decide)]
    norm_num
    linarith

end second

end Wit

end Verif.CltFit

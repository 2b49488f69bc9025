import Verif.MiMain

/-! C71: mutual information of binary data. -/

namespace Verif.Mi

open Finset
open Verif.Span (Edge IsSpanningTree)
open Verif.Hclt (states)
open Verif.ChowLiu

variable {f : ℕ}

theorem bit_nat {k : ℕ} (hk : k < 2) : bit (some (k : ℝ)) = (k : ℝ) := by
  unfold bit
  have : k = 0 ∨ k = 1 := by omega
  rcases this with rfl | rfl <;> simp

section

variable {rows : List (Fin f → ℕ)} {ws : Option (List ℝ)} (hs : Sample 2 rows ws)

include hs

/-- Entry of an indicator product. -/
theorem Sample.matmul_eq (i j : Fin f) (a b : Option ℝ → ℝ) {k l : ℕ}
    (ha : ∀ t : ℕ, t < 2 → a (some (t : ℝ)) = if t = k then 1 else 0) (hb : ∀ t : ℕ, t < 2 → b (some (t : ℝ)) = if t = l then 1 else 0) :
    matmul (rows.map asData) (wts rows.length ws) a b i j =
      ((rows.zip (wts rows.length ws)).map fun p => if p.1 i = k ∧ p.1 j = l then p.2 else 0).sum := by
  unfold matmul
  rw [List.zip_map_left, List.map_map]
  congr 1
  refine List.map_congr_left fun p hp => ?_
  have hr := hs.range p.1 (List.of_mem_zip hp).1
  show a (some (p.1 i : ℝ)) * (b (some (p.1 j : ℝ)) * p.2) = _
  rw [ha _ (hr i), hb _ (hr j)]
  by_cases h1 : p.1 i = k <;> by_cases h2 : p.1 j = l <;> simp [h1, h2]

theorem Sample.counts_sum (i j : Fin f) :
    (((rows.zip (wts rows.length ws)).map fun p => if p.1 i = 0 ∧ p.1 j = 0 then p.2 else 0).sum +
     ((rows.zip (wts rows.length ws)).map fun p => if p.1 i = 0 ∧ p.1 j = 1 then p.2 else 0).sum +
     ((rows.zip (wts rows.length ws)).map fun p => if p.1 i = 1 ∧ p.1 j = 0 then p.2 else 0).sum +
     ((rows.zip (wts rows.length ws)).map fun p => if p.1 i = 1 ∧ p.1 j = 1 then p.2 else 0).sum) = (wts rows.length ws).sum := by
  rw [← hs.sum, ← List.sum_map_add, ← List.sum_map_add, ← List.sum_map_add]
  congr 1
  refine List.map_congr_left fun p hp => ?_
  have hr := hs.range p.1 (List.of_mem_zip hp).1
  have h1 : p.1 i = 0 ∨ p.1 i = 1 := by have := hr i; omega
  have h2 : p.1 j = 0 ∨ p.1 j = 1 := by have := hr j; omega
  rcases h1 with h1 | h1 <;> rcases h2 with h2 | h2 <;> simp [h1, h2]

theorem Sample.counts_nonneg (i j : Fin f) (k l : ℕ) :
    0 ≤ ((rows.zip (wts rows.length ws)).map fun p => if p.1 i = k ∧ p.1 j = l then p.2 else 0).sum := by
  refine List.sum_nonneg fun t ht => ?_
  obtain ⟨p, hp, rfl⟩ := List.mem_map.1 ht
  split_ifs
  · exact hs.pos p hp
  · exact le_rfl

theorem Sample.table_eq {pc : ℝ} (i j : Fin f) {s : ℕ} (h4 : s < 4) :
    tableBinary (rows.map asData) (wts rows.length ws) pc i j s = m2 2 (estimate 2 rows ws pc) i j (s / 2) (s % 2) := by
  have b1 : ∀ t : ℕ, t < 2 → bit (some (t : ℝ)) = if t = 1 then 1 else 0 := by
    intro t ht
    rw [bit_nat ht]
    have : t = 0 ∨ t = 1 := by omega
    rcases this with rfl | rfl <;> simp
  have b0 : ∀ t : ℕ, t < 2 → 1 - bit (some (t : ℝ)) = if t = 0 then 1 else 0 := by
    intro t ht
    rw [bit_nat ht]
    have : t = 0 ∨ t = 1 := by omega
    rcases this with rfl | rfl <;> simp
  have e11 := hs.matmul_eq i j _ _ b1 b1
  have e10 := hs.matmul_eq i j _ (fun c => 1 - bit c) b1 b0
  have e01 := hs.matmul_eq i j (fun c => 1 - bit c) _ b0 b1
  have hsum := hs.counts_sum i j
  have h00 := hs.counts_nonneg i j 0 0
  have e00 : max ((wts rows.length ws).sum - ((rows.zip (wts rows.length ws)).map fun p => if p.1 i = 1 ∧ p.1 j = 1 then p.2 else 0).sum -
      ((rows.zip (wts rows.length ws)).map fun p => if p.1 i = 1 ∧ p.1 j = 0 then p.2 else 0).sum -
      ((rows.zip (wts rows.length ws)).map fun p => if p.1 i = 0 ∧ p.1 j = 1 then p.2 else 0).sum) 0 =
      ((rows.zip (wts rows.length ws)).map fun p => if p.1 i = 0 ∧ p.1 j = 0 then p.2 else 0).sum := by
    rw [max_eq_left (by linarith)]
    linarith
  unfold tableBinary
  simp only [e00, e01, e10, e11]
  unfold estimate
  by_cases hij : i = j
  · subst hij
    rw [if_pos rfl]
    have hd : ∀ a b : ℕ, a ≠ b → m2 2 (smoothed 2 (rows.zip (wts rows.length ws)) pc) i i a b = 0 := by
      intro a b hab
      unfold m2
      rw [filter_false_of_mem, sum_empty]
      rintro x - ⟨h1, h2⟩
      exact hab (h1.symm.trans h2)
    have hone : ∀ a < 2, m2 2 (smoothed 2 (rows.zip (wts rows.length ws)) pc) i i a a =
        (((rows.zip (wts rows.length ws)).map fun p => if p.1 i = a ∧ p.1 i = a then p.2 else 0).sum + pc / 2) /
          ((wts rows.length ws).sum + pc) := by
      intro a ha
      rw [m2_self, m1_smoothed (by norm_num) hs.mem i ha, hs.sum]
      simp
    have h5 : s = 0 ∨ s = 1 ∨ s = 2 ∨ s = 3 := by omega
    rcases h5 with rfl | rfl | rfl | rfl
    · simp only [true_or, if_true, Nat.zero_div, Nat.zero_mod]
      rw [hone 0 (by norm_num)]
      congr 1
      ring
    · norm_num
      exact (hd 0 1 (by norm_num)).symm
    · norm_num
      exact (hd 1 0 (by norm_num)).symm
    · norm_num
      rw [hone 1 (by norm_num)]
      simp only [and_self]
      ring
  · rw [if_neg hij, m2_smoothed (by norm_num) hs.mem hij (by omega) (by omega), hs.sum]
    have h5 : s = 0 ∨ s = 1 ∨ s = 2 ∨ s = 3 := by omega
    rcases h5 with rfl | rfl | rfl | rfl <;> norm_num

theorem Sample.prod_eq {pc : ℝ} (i j : Fin f) {s : ℕ} (h4 : s < 4) :
    prodBinary (tableBinary (rows.map asData) (wts rows.length ws) pc) i j s =
      m1 2 (estimate 2 rows ws pc) i (s / 2) * m1 2 (estimate 2 rows ws pc) j (s % 2) := by
  unfold prodBinary
  have h5 : s = 0 ∨ s = 1 ∨ s = 2 ∨ s = 3 := by omega
  rcases h5 with rfl | rfl | rfl | rfl <;> norm_num <;>
    simp [hs.table_eq _ _ (show 0 < 4 by norm_num), hs.table_eq _ _ (show 3 < 4 by norm_num), m2_self]

end

theorem miBinary_ok {rows : List (Fin f → ℕ)} {ws : Option (List ℝ)} (hs : Sample 2 rows ws)
    {pc eps : ℝ} (hpc : 0 ≤ pc) (hZ : 0 < (wts rows.length ws).sum + pc) :
    miBinary (rows.map asData) (ws.map fun l => l.map some) pc eps = .ok fun i j => ∑ s ∈ Finset.range 4,
      (xlogy eps (tableBinary (rows.map asData) (wts rows.length ws) pc i j s) (tableBinary (rows.map asData) (wts rows.length ws) pc i j s) -
        xlogy eps (tableBinary (rows.map asData) (wts rows.length ws) pc i j s)
          (prodBinary (tableBinary (rows.map asData) (wts rows.length ws) pc) i j s)) := by
  have h1 : ¬ pc < 0 := not_lt.2 hpc
  unfold miBinary marginalBinary
  simp only [bind, Except.bind, pure, Except.pure, throw, throwThe, MonadExceptOf.throw, h1, if_false, List.length_map]
  cases ws with
  | none =>
    simp only [Option.map_none, binWeights]
    simp only [wts] at hZ
    rw [if_neg (not_le.2 hZ)]
    rfl
  | some l =>
    simp only [Option.map_some, binWeights, readWeights_some (hs.len l rfl)]
    simp only [wts] at hZ
    rw [if_neg (not_le.2 hZ)]
    rfl

/-- **Mutual information of binary data.** For valid data, weights and arguments, the matrix returned by
`pairwise_mi_binary` holds the mutual information of every pair of features under the smoothed empirical distribution, and the
entropies on the diagonal.  Unlike for categorical data the pseudo-mass is not rescaled by the weights. -/
theorem C71_binary {rows : List (Fin f → ℕ)} {ws : Option (List ℝ)} (hs : Sample 2 rows ws)
    {pc eps : ℝ} (hpc : 0 ≤ pc) (he : 0 < eps) (hZ : 0 < (wts rows.length ws).sum + pc)
    (hres : Resolved eps 2 (estimate 2 rows ws pc)) :
    ∃ mi, miBinary (rows.map asData) (ws.map fun l => l.map some) pc eps = .ok mi ∧
      (∀ i j, i ≠ j → mi i j = mutualInfo 2 (estimate 2 rows ws pc) i j) ∧
      (∀ i, mi i i = entropy 2 (estimate 2 rows ws pc) i) := by
  have hP : ∀ x ∈ states f 2, 0 ≤ estimate 2 rows ws pc x := fun x _ => hs.estimate_nonneg hpc x
  have hsum := hs.estimate_sum (K := 2) (by norm_num) hZ
  have term : ∀ i j (a b : ℕ), xlogy eps (m2 2 (estimate 2 rows ws pc) i j a b) (m2 2 (estimate 2 rows ws pc) i j a b) -
      xlogy eps (m2 2 (estimate 2 rows ws pc) i j a b) (m1 2 (estimate 2 rows ws pc) i a * m1 2 (estimate 2 rows ws pc) j b) =
      m2 2 (estimate 2 rows ws pc) i j a b * Real.log (m2 2 (estimate 2 rows ws pc) i j a b /
        (m1 2 (estimate 2 rows ws pc) i a * m1 2 (estimate 2 rows ws pc) j b)) := by
    intro i j a b
    unfold xlogy
    rcases (m2_nonneg hP i j a b).eq_or_lt with h0 | h0
    · rw [← h0]; simp
    · obtain ⟨h1, h2⟩ := hres i j a b h0
      rw [if_neg h0.ne', if_neg h0.ne', max_eq_left h1, max_eq_left h2, Real.log_div h0.ne' (by linarith)]
      ring
  have all : ∀ i j, ∑ s ∈ Finset.range 4,
      (xlogy eps (tableBinary (rows.map asData) (wts rows.length ws) pc i j s) (tableBinary (rows.map asData) (wts rows.length ws) pc i j s) -
        xlogy eps (tableBinary (rows.map asData) (wts rows.length ws) pc i j s)
          (prodBinary (tableBinary (rows.map asData) (wts rows.length ws) pc) i j s)) = mutualInfo 2 (estimate 2 rows ws pc) i j := by
    intro i j
    unfold mutualInfo
    rw [sum_congr rfl fun s hs4 => by
      rw [hs.table_eq i j (Finset.mem_range.1 hs4), hs.prod_eq i j (Finset.mem_range.1 hs4), term]]
    simp only [Finset.sum_range_succ, Finset.sum_range_zero]
    norm_num
    ring
  refine ⟨_, miBinary_ok hs hpc hZ, fun i j _ => all i j, fun i => (all i i).trans ?_⟩
  unfold mutualInfo entropy
  have hd : ∀ a b : ℕ, a ≠ b → m2 2 (estimate 2 rows ws pc) i i a b = 0 := by
    intro a b hab
    unfold m2
    rw [filter_false_of_mem, sum_empty]
    rintro x - ⟨h1, h2⟩
    exact hab (h1.symm.trans h2)
  rw [← sum_neg_distrib]
  refine sum_congr rfl fun a ha => ?_
  rw [sum_eq_single a (fun b _ hb => by rw [hd a b hb.symm, zero_mul]) (fun h => absurd ha h), m2_self]
  rcases (m1_nonneg hP i a).eq_or_lt with h0 | h0
  · rw [← h0]; simp
  · rw [Real.log_div h0.ne' (by positivity), Real.log_mul h0.ne' h0.ne']
    ring

end Verif.Mi

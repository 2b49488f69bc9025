import Verif.MiCat

/-! C71: mutual information of categorical data. -/

namespace Verif.Mi

open Finset
open Verif.Span (Edge IsSpanningTree)
open Verif.Hclt (states)
open Verif.ChowLiu

variable {f : ℕ}

/-! ### Specification -/

/-- A row of category indices as it is passed to the learner. -/
noncomputable def asData (x : Fin f → ℕ) : Rec f := fun i => some (x i : ℝ)

/-- Weights of the rows: one each, unless given. -/
noncomputable def wts (N : ℕ) : Option (List ℝ) → List ℝ
  | none => List.replicate N 1
  | some ws => ws

/-- Total pseudo-mass used for categorical data: rescaled by the mean weight. -/
noncomputable def massCat (N : ℕ) (pseudo : ℝ) : Option (List ℝ) → ℝ
  | none => pseudo
  | some ws => pseudo * ws.sum / N

/-- Rows of values below `K`, and one non-negative weight for each of them. -/
structure Sample (K : ℕ) (rows : List (Fin f → ℕ)) (ws : Option (List ℝ)) : Prop where
  range : ∀ x ∈ rows, ∀ i, x i < K
  len : ∀ l, ws = some l → l.length = rows.length
  nonneg : ∀ l, ws = some l → ∀ w ∈ l, 0 ≤ w

/-- The distribution estimated from the rows, with total pseudo-mass `pc`. -/
noncomputable def estimate (K : ℕ) (rows : List (Fin f → ℕ)) (ws : Option (List ℝ)) (pc : ℝ) : (Fin f → ℕ) → ℝ :=
  smoothed K (rows.zip (wts rows.length ws)) pc

/-! ### Lemmas -/

section

variable {K : ℕ} {rows : List (Fin f → ℕ)} {ws : Option (List ℝ)} (hs : Sample K rows ws)

include hs

theorem Sample.wlen : (wts rows.length ws).length = rows.length := by
  cases ws with
  | none => simp [wts]
  | some l => exact hs.len l rfl

theorem Sample.wnonneg : ∀ w ∈ wts rows.length ws, 0 ≤ w := by
  cases ws with
  | none => intro w hw; rw [(List.mem_replicate.1 hw).2]; exact zero_le_one
  | some l => exact hs.nonneg l rfl

theorem Sample.mem : ∀ p ∈ rows.zip (wts rows.length ws), p.1 ∈ states f K := by
  intro p hp
  simp only [states, Fintype.mem_piFinset, Finset.mem_range]
  exact hs.range p.1 (List.of_mem_zip hp).1

theorem Sample.pos : ∀ p ∈ rows.zip (wts rows.length ws), 0 ≤ p.2 := fun p hp => hs.wnonneg p.2 (List.of_mem_zip hp).2

theorem Sample.sum : ((rows.zip (wts rows.length ws)).map Prod.snd).sum = (wts rows.length ws).sum := by
  rw [List.map_snd_zip hs.wlen.le]

theorem Sample.sum_nonneg : 0 ≤ (wts rows.length ws).sum := List.sum_nonneg hs.wnonneg

theorem Sample.estimate_nonneg {pc : ℝ} (hpc : 0 ≤ pc) (x : Fin f → ℕ) : 0 ≤ estimate K rows ws pc x :=
  smoothed_nonneg hs.pos hpc x

theorem Sample.estimate_sum (hK : 0 < K) {pc : ℝ} (hZ : 0 < (wts rows.length ws).sum + pc) :
    ∑ x ∈ states f K, estimate K rows ws pc x = 1 :=
  sum_one hK hs.mem (by rw [hs.sum]; exact hZ)

theorem Sample.single_eq (hK : 0 < K) {pc : ℝ} (i : Fin f) {k : ℕ} (hk : k < K) :
    single (rows.map fun r i => (r i : ℤ)) (wts rows.length ws) pc ((wts rows.length ws).sum + pc) K i k =
      m1 K (estimate K rows ws pc) i k := by
  unfold estimate
  rw [m1_smoothed hK hs.mem i hk, hs.sum]
  unfold single
  rw [List.zip_map_left, List.map_map]
  congr 3
  refine List.map_congr_left fun p _ => ?_
  simp

theorem Sample.pair_eq (hK : 0 < K) {pc : ℝ} {i j : Fin f} (hij : i ≠ j) {k l : ℕ} (hk : k < K) (hl : l < K) :
    pairP (rows.map fun r i => (r i : ℤ)) (wts rows.length ws) pc ((wts rows.length ws).sum + pc) K i j k l =
      m2 K (estimate K rows ws pc) i j k l := by
  unfold estimate
  rw [m2_smoothed hK hs.mem hij hk hl, hs.sum]
  unfold pairP pairCount
  rw [List.zip_map_left, List.map_map]
  push_cast
  congr 3
  refine List.map_congr_left fun p _ => ?_
  simp

end

theorem m2_self (K : ℕ) (P : (Fin f → ℕ) → ℝ) (u : Fin f) (a : ℕ) : m2 K P u u a a = m1 K P u a := by
  unfold m1 m2
  simp

theorem m1_le_one {K : ℕ} {P : (Fin f → ℕ) → ℝ} (hP : ∀ x ∈ states f K, 0 ≤ P x) (hsum : ∑ x ∈ states f K, P x = 1)
    (u : Fin f) (a : ℕ) : m1 K P u a ≤ 1 := by
  rw [← hsum]
  exact sum_le_sum_of_subset_of_nonneg (filter_subset _ _) fun x hx _ => hP x hx

/-- Without clamping the term is that of the mutual information. -/
theorem term_eq {eps p a b : ℝ} (hp : 0 ≤ p) (he : 0 < eps) (h : 0 < p → eps ≤ p ∧ eps ≤ a ∧ eps ≤ b) :
    p * (Real.log (max p eps) - Real.log (max a eps) - Real.log (max b eps)) = p * Real.log (p / (a * b)) := by
  rcases hp.eq_or_lt with h0 | h0
  · rw [← h0, zero_mul, zero_mul]
  · obtain ⟨h1, h2, h3⟩ := h h0
    rw [max_eq_left h1, max_eq_left h2, max_eq_left h3]
    have ha : a ≠ 0 := by linarith
    have hb : b ≠ 0 := by linarith
    rw [Real.log_div h0.ne' (mul_ne_zero ha hb), Real.log_mul ha hb]
    ring

theorem Resolved.parts {eps : ℝ} (he : 0 < eps) {K : ℕ} {P : (Fin f → ℕ) → ℝ} (hP : ∀ x ∈ states f K, 0 ≤ P x)
    (hsum : ∑ x ∈ states f K, P x = 1) (h : Resolved eps K P) (u v : Fin f) (a b : ℕ) (h0 : 0 < m2 K P u v a b) :
    eps ≤ m2 K P u v a b ∧ eps ≤ m1 K P u a ∧ eps ≤ m1 K P v b := by
  obtain ⟨h1, h2⟩ := h u v a b h0
  have h3 := m1_nonneg hP u a
  have h4 := m1_nonneg hP v b
  have h5 := m1_le_one hP hsum u a
  have h6 := m1_le_one hP hsum v b
  exact ⟨h1, h2.trans (mul_le_of_le_one_right h3 h6), h2.trans (mul_le_of_le_one_left h4 h5)⟩

/-! ### Acceptance -/

theorem trunc_nat (k : ℕ) : trunc (k : ℝ) = (k : ℤ) := by
  unfold trunc
  rw [if_pos (Nat.cast_nonneg k)]
  simp

theorem toLong_asData (rows : List (Fin f → ℕ)) : toLong (rows.map asData) = rows.map fun r i => (r i : ℤ) := by
  unfold toLong
  rw [List.map_map]
  refine List.map_congr_left fun x _ => ?_
  funext i
  simp [asData, trunc_nat]

theorem entries_any {α : Type} (data : List (Fin f → α)) (p : α → Bool) :
    (entries data).any p = false ↔ ∀ x ∈ data, ∀ i, p (x i) = false := by
  unfold entries
  rw [List.any_eq_false]
  constructor
  · intro h x hx i
    have := h (x i) (List.mem_flatMap.2 ⟨x, hx, by simp [List.mem_ofFn]⟩)
    simpa using this
  · intro h y hy
    obtain ⟨x, hx, hy⟩ := List.mem_flatMap.1 hy
    obtain ⟨i, rfl⟩ := List.mem_ofFn.1 hy
    simp [h x hx i]

theorem readWeights_some {N : ℕ} {l : List ℝ} (h : l.length = N) : readWeights N (l.map some) = .ok l := by
  unfold readWeights
  rw [if_neg (by simpa using h), if_neg (by simp)]
  simp

theorem miCategorical_ok {K : ℕ} (hK : 0 < K) {rows : List (Fin f → ℕ)} {ws : Option (List ℝ)} (hs : Sample K rows ws)
    {pseudo eps : ℝ} (hpc : 0 ≤ pseudo) {chunk : ℤ} (hc : 1 ≤ chunk)
    (hZ : 0 < (wts rows.length ws).sum + massCat rows.length pseudo ws) :
    miCategorical (rows.map asData) (some (K : ℤ)) (ws.map fun l => l.map some) pseudo chunk eps =
      .ok (matrixCat (rows.map fun r i => (r i : ℤ)) (wts rows.length ws) (massCat rows.length pseudo ws)
        ((wts rows.length ws).sum + massCat rows.length pseudo ws) eps K chunk.toNat) := by
  classical
  have h1 : ¬ pseudo < 0 := not_lt.2 hpc
  have h2 : ¬ chunk < 1 := by omega
  have h3 : (entries (rows.map (asData (f := f)))).any Option.isNone = false := by
    rw [entries_any]
    intro x hx i
    obtain ⟨r, -, rfl⟩ := List.mem_map.1 hx
    rfl
  have h4 : ¬ (K : ℤ) ≤ 0 := by omega
  have h5 : (entries (rows.map fun r i => (r i : ℤ))).any (outside (K : ℤ)) = false := by
    rw [entries_any]
    intro x hx i
    obtain ⟨r, hr, rfl⟩ := List.mem_map.1 hx
    have := hs.range r hr i
    simp only [outside, Bool.or_eq_false_iff, decide_eq_false_iff_not]
    omega
  unfold miCategorical
  rw [toLong_asData]
  simp only [bind, Except.bind, pure, Except.pure, throw, throwThe, MonadExceptOf.throw, h1, h2, h3, if_false, numCats, h4, h5,
    Bool.false_eq_true, List.length_map]
  cases ws with
  | none =>
    simp only [Option.map_none, catWeights]
    simp only [wts, massCat] at hZ
    rw [if_neg (not_le.2 hZ)]
    rfl
  | some l =>
    simp only [Option.map_some, catWeights, readWeights_some (hs.len l rfl)]
    simp only [wts, massCat] at hZ
    have h6 : rows.length ≠ 0 := by
      intro h0
      have h7 := hs.len l rfl
      rw [h0] at h7
      rw [List.length_eq_zero_iff.1 h7] at hZ
      simp at hZ
    rw [if_neg h6]
    simp only []
    rw [if_neg (not_le.2 hZ)]
    simp only [Int.toNat_natCast]
    rfl

theorem massCat_nonneg {K : ℕ} {rows : List (Fin f → ℕ)} {ws : Option (List ℝ)} (hs : Sample K rows ws) {pseudo : ℝ}
    (hpc : 0 ≤ pseudo) : 0 ≤ massCat rows.length pseudo ws := by
  cases ws with
  | none => exact hpc
  | some l =>
    have := hs.sum_nonneg
    simp only [wts] at this
    unfold massCat
    positivity

/-- **Mutual information of categorical data.** For valid data, weights and arguments, the matrix returned by
`pairwise_mi_categorical` holds the mutual information of every pair of features under the smoothed empirical distribution,
and the entropies on the diagonal. -/
theorem C71_categorical {K : ℕ} (hK : 0 < K) {rows : List (Fin f → ℕ)} {ws : Option (List ℝ)} (hs : Sample K rows ws)
    {pseudo eps : ℝ} (hpc : 0 ≤ pseudo) (he : 0 < eps) {chunk : ℤ} (hc : 1 ≤ chunk)
    (hZ : 0 < (wts rows.length ws).sum + massCat rows.length pseudo ws)
    (hres : Resolved eps K (estimate K rows ws (massCat rows.length pseudo ws))) :
    ∃ mi, miCategorical (rows.map asData) (some (K : ℤ)) (ws.map fun l => l.map some) pseudo chunk eps = .ok mi ∧
      (∀ i j, i ≠ j → mi i j = mutualInfo K (estimate K rows ws (massCat rows.length pseudo ws)) i j) ∧
      (∀ i, mi i i = entropy K (estimate K rows ws (massCat rows.length pseudo ws)) i) := by
  refine ⟨_, miCategorical_ok hK hs hpc hc hZ, ?_, ?_⟩
  all_goals
    have hx : ∀ r ∈ rows.map (fun (r : Fin f → ℕ) i => (r i : ℤ)), ∀ i, 0 ≤ r i ∧ r i < K := by
      intro x hx i
      obtain ⟨r, hr, rfl⟩ := List.mem_map.1 hx
      have := hs.range r hr i
      beta_reduce
      omega
    have hP : ∀ x ∈ states f K, 0 ≤ estimate K rows ws (massCat rows.length pseudo ws) x :=
      fun x _ => hs.estimate_nonneg (massCat_nonneg hs hpc) x
    have hsum := hs.estimate_sum hK hZ
  · have key : ∀ i j, i ≠ j → pairMi (rows.map fun r i => (r i : ℤ)) (wts rows.length ws) (massCat rows.length pseudo ws)
        ((wts rows.length ws).sum + massCat rows.length pseudo ws) eps K (i, j) =
        mutualInfo K (estimate K rows ws (massCat rows.length pseudo ws)) i j := by
      intro i j hij
      unfold pairMi mutualInfo
      refine sum_congr rfl fun k hk => sum_congr rfl fun l hl => ?_
      rw [Finset.mem_range] at hk hl
      rw [hs.pair_eq hK hij hk hl, hs.single_eq hK i hk, hs.single_eq hK j hl]
      exact term_eq (m2_nonneg hP i j k l) he (hres.parts he hP hsum i j k l)
    intro i j hij
    rw [matrixCat_eq hx _ _ _ _ (by omega)]
    rcases lt_or_gt_of_ne hij with h | h
    · rw [if_pos h, key i j hij]
    · rw [if_neg (not_lt.2 h.le), if_pos h, key j i hij.symm, mutualInfo_comm]
  · intro i
    rw [matrixCat_eq hx _ _ _ _ (by omega), if_neg (lt_irrefl i), if_neg (lt_irrefl i)]
    unfold entropy
    congr 1
    refine sum_congr rfl fun k hk => ?_
    rw [Finset.mem_range] at hk
    rw [hs.single_eq hK i hk]
    rcases (m1_nonneg hP i k).eq_or_lt with h0 | h0
    · rw [← h0, zero_mul, zero_mul]
    · rw [max_eq_left (hres.parts he hP hsum i i k k (by rw [m2_self]; exact h0)).2.1]

end Verif.Mi

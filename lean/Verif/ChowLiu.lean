import Verif.HcltTree
import Mathlib.Analysis.SpecialFunctions.Log.Basic

/-!
The Chow-Liu theorem: among all tree-structured distributions, the one built from the pairwise marginals of `P` on a
spanning tree of maximal total mutual information has the largest expected log-likelihood under `P`.

Pure mathematics, independent of the code; used by C57 and C71.
-/

namespace Verif.ChowLiu

open Finset
open Verif.Span (Edge Adj IsSpanningTree)
open Verif.Hclt (Rooted states parState)

variable {n : ℕ}

/-! ### Specification -/

/-- Probability that coordinate `v` is `a`, under the joint distribution `P` on `{0,…,K-1}^n`. -/
noncomputable def m1 (K : ℕ) (P : (Fin n → ℕ) → ℝ) (v : Fin n) (a : ℕ) : ℝ :=
  ∑ x ∈ (states n K).filter (fun x => x v = a), P x

/-- Probability that coordinates `u`, `v` are `a`, `b`. -/
noncomputable def m2 (K : ℕ) (P : (Fin n → ℕ) → ℝ) (u v : Fin n) (a b : ℕ) : ℝ :=
  ∑ x ∈ (states n K).filter (fun x => x u = a ∧ x v = b), P x

/-- Mutual information of coordinates `u` and `v` (terms with probability zero are zero). -/
noncomputable def mutualInfo (K : ℕ) (P : (Fin n → ℕ) → ℝ) (u v : Fin n) : ℝ :=
  ∑ a ∈ range K, ∑ b ∈ range K, m2 K P u v a b * Real.log (m2 K P u v a b / (m1 K P u a * m1 K P v b))

/-- Entropy of coordinate `v`. -/
noncomputable def entropy (K : ℕ) (P : (Fin n → ℕ) → ℝ) (v : Fin n) : ℝ :=
  - ∑ a ∈ range K, m1 K P v a * Real.log (m1 K P v a)

/-- Expected log-likelihood of `q` under `P`. -/
noncomputable def expLogLik (K : ℕ) (P q : (Fin n → ℕ) → ℝ) : ℝ := ∑ x ∈ states n K, P x * Real.log (q x)

/-- A distribution that factorises along the tree `par` rooted at `r`: `A v a b` is the probability that `v` is `a` given
that its parent is `b` (`b = 0` for the root). -/
noncomputable def treeDist (par : Fin n → Option (Fin n)) (A : Fin n → ℕ → ℕ → ℝ) (x : Fin n → ℕ) : ℝ :=
  ∏ v, A v (x v) (parState par x v)

/-- Conditional probability tables. -/
def IsCpt (K : ℕ) (A : Fin n → ℕ → ℕ → ℝ) : Prop :=
  ∀ v, ∀ b < K, (∀ a < K, 0 ≤ A v a b) ∧ ∑ a ∈ range K, A v a b = 1

/-- The tables of `P` itself: the Chow-Liu tree uses them. -/
noncomputable def clCpt (K : ℕ) (P : (Fin n → ℕ) → ℝ) (par : Fin n → Option (Fin n)) (v : Fin n) (a b : ℕ) : ℝ :=
  match par v with
  | none => m1 K P v a
  | some p => m2 K P v p a b / m1 K P p b

/-! ### Marginals -/

section

variable {K : ℕ} {P : (Fin n → ℕ) → ℝ}

theorem sum_m1 (v : Fin n) (g : ℕ → ℝ) : ∑ x ∈ states n K, P x * g (x v) = ∑ a ∈ range K, m1 K P v a * g a := by
  classical
  have hmap : ∀ x ∈ states n K, x v ∈ range K := fun x hx => Fintype.mem_piFinset.1 hx v
  rw [← sum_fiberwise_of_maps_to hmap]
  refine sum_congr rfl fun a _ => ?_
  unfold m1
  rw [sum_mul]
  refine sum_congr rfl fun x hx => ?_
  rw [(mem_filter.1 hx).2]

theorem sum_m2 (u v : Fin n) (g : ℕ → ℕ → ℝ) :
    ∑ x ∈ states n K, P x * g (x u) (x v) = ∑ a ∈ range K, ∑ b ∈ range K, m2 K P u v a b * g a b := by
  classical
  have hu : ∀ x ∈ states n K, x u ∈ range K := fun x hx => Fintype.mem_piFinset.1 hx u
  rw [← sum_fiberwise_of_maps_to hu]
  refine sum_congr rfl fun a _ => ?_
  have hv : ∀ x ∈ (states n K).filter (fun x => x u = a), x v ∈ range K :=
    fun x hx => Fintype.mem_piFinset.1 (mem_filter.1 hx).1 v
  rw [← sum_fiberwise_of_maps_to hv]
  refine sum_congr rfl fun b _ => ?_
  unfold m2
  rw [filter_filter, sum_mul]
  refine sum_congr rfl fun x hx => ?_
  rw [(mem_filter.1 hx).2.1, (mem_filter.1 hx).2.2]

theorem m2_left (u v : Fin n) (a : ℕ) : ∑ b ∈ range K, m2 K P u v a b = m1 K P u a := by
  classical
  unfold m1 m2
  have hv : ∀ x ∈ (states n K).filter (fun x => x u = a), x v ∈ range K :=
    fun x hx => Fintype.mem_piFinset.1 (mem_filter.1 hx).1 v
  rw [← sum_fiberwise_of_maps_to hv]
  refine sum_congr rfl fun b _ => ?_
  rw [filter_filter]

theorem m2_comm (u v : Fin n) (a b : ℕ) : m2 K P u v a b = m2 K P v u b a := by
  unfold m2
  refine sum_congr ?_ fun _ _ => rfl
  ext x
  simp only [mem_filter, and_congr_right_iff]
  exact fun _ => and_comm

theorem m2_right (u v : Fin n) (b : ℕ) : ∑ a ∈ range K, m2 K P u v a b = m1 K P v b := by
  rw [← m2_left v u b]
  exact sum_congr rfl fun a _ => m2_comm u v a b

theorem mutualInfo_comm (u v : Fin n) : mutualInfo K P u v = mutualInfo K P v u := by
  unfold mutualInfo
  rw [sum_comm]
  refine sum_congr rfl fun a _ => sum_congr rfl fun b _ => ?_
  rw [m2_comm u v b a, mul_comm (m1 K P u b)]

variable (hP : ∀ x ∈ states n K, 0 ≤ P x)

include hP

theorem m1_nonneg (v : Fin n) (a : ℕ) : 0 ≤ m1 K P v a := sum_nonneg fun x hx => hP x (mem_filter.1 hx).1

theorem m2_nonneg (u v : Fin n) (a b : ℕ) : 0 ≤ m2 K P u v a b := sum_nonneg fun x hx => hP x (mem_filter.1 hx).1

theorem m2_le_left (u v : Fin n) (a b : ℕ) : m2 K P u v a b ≤ m1 K P u a := by
  unfold m1 m2
  refine sum_le_sum_of_subset_of_nonneg ?_ fun x hx _ => hP x (mem_filter.1 hx).1
  intro x hx
  rw [mem_filter] at hx ⊢
  exact ⟨hx.1, hx.2.1⟩

theorem m2_le_right (u v : Fin n) (a b : ℕ) : m2 K P u v a b ≤ m1 K P v b := by
  rw [m2_comm]; exact m2_le_left hP v u b a

end

/-! ### Gibbs' inequality -/

/-- `∑ p log q ≤ ∑ p log p` for `∑ q ≤ ∑ p`, where `q` is positive wherever `p` is. -/
theorem gibbs {ι : Type*} (s : Finset ι) {p q : ι → ℝ} (hp : ∀ i ∈ s, 0 ≤ p i) (hq : ∀ i ∈ s, 0 ≤ q i)
    (hpq : ∀ i ∈ s, 0 < p i → 0 < q i) (hs : ∑ i ∈ s, q i ≤ ∑ i ∈ s, p i) :
    ∑ i ∈ s, p i * Real.log (q i) ≤ ∑ i ∈ s, p i * Real.log (p i) := by
  have key : ∀ i ∈ s, p i * Real.log (q i) - p i * Real.log (p i) ≤ q i - p i := by
    intro i hi
    rcases (hp i hi).eq_or_lt with h0 | h0
    · rw [← h0]; simpa using hq i hi
    · have hqi := hpq i hi h0
      have h1 := Real.log_le_sub_one_of_pos (div_pos hqi h0)
      rw [Real.log_div hqi.ne' h0.ne'] at h1
      have h2 := mul_le_mul_of_nonneg_left h1 h0.le
      have h3 : p i * (q i / p i - 1) = q i - p i := by field_simp
      rw [h3] at h2
      linarith
  have h := sum_le_sum key
  rw [sum_sub_distrib, sum_sub_distrib] at h
  linarith

/-! ### Sums over the edges of a rooted tree -/

theorem sum_edges {T : Finset (Edge n)} (hT : IsSpanningTree T) {r : Fin n} {par : Fin n → Option (Fin n)} {d : Fin n → ℕ}
    (h : Rooted T r par d) (w : Fin n → Fin n → ℝ) (hw : ∀ u v, w u v = w v u) :
    ∑ v ∈ univ.erase r, (match par v with | none => 0 | some p => w v p) = ∑ e ∈ T, w e.1 e.2 := by
  classical
  set g : Fin n → Edge n := fun v => match par v with
    | none => (v, v)
    | some p => if v < p then (v, p) else (p, v) with hg
  have hgp : ∀ v p, par v = some p → g v = if v < p then (v, p) else (p, v) := fun v p hp => by simp only [hg, hp]
  refine sum_bij (fun v _ => g v) ?_ ?_ ?_ ?_
  · intro v hv
    obtain ⟨p, hp⟩ := h.parent v (ne_of_mem_erase hv)
    rw [hgp v p hp]
    have ha := (h.adj v p).2 (.inl hp)
    rcases ha with ha | ha
    · have := hT.1 _ ha
      rw [if_pos this]; exact ha
    · have := hT.1 _ ha
      rw [if_neg (not_lt.2 (le_of_lt this))]; exact ha
  · intro u hu v hv huv
    obtain ⟨p, hp⟩ := h.parent u (ne_of_mem_erase hu)
    obtain ⟨q, hq⟩ := h.parent v (ne_of_mem_erase hv)
    beta_reduce at huv
    rw [hgp u p hp, hgp v q hq] at huv
    have d1 := h.depth u p hp
    have d2 := h.depth v q hq
    split_ifs at huv <;> rw [Prod.mk.injEq] at huv <;> obtain ⟨e1, e2⟩ := huv
    · exact e1
    · subst e1; subst e2; omega
    · subst e1; subst e2; omega
    · exact e2
  · rintro ⟨a, b⟩ he
    have hlt := hT.1 _ he
    simp only at hlt
    rcases (h.adj a b).1 (.inl he) with hp | hp
    · refine ⟨a, mem_erase.2 ⟨?_, mem_univ _⟩, ?_⟩
      · rintro rfl; rw [h.root] at hp; cases hp
      · rw [hgp a b hp, if_pos hlt]
    · refine ⟨b, mem_erase.2 ⟨?_, mem_univ _⟩, ?_⟩
      · rintro rfl; rw [h.root] at hp; cases hp
      · rw [hgp b a hp, if_neg (not_lt.2 hlt.le)]
  · intro v hv
    obtain ⟨p, hp⟩ := h.parent v (ne_of_mem_erase hv)
    rw [hgp v p hp]
    simp only [hp]
    split_ifs
    · rfl
    · exact hw v p

/-! ### Likelihoods of tree distributions -/

section

variable {K : ℕ} {P : (Fin n → ℕ) → ℝ} (hP : ∀ x ∈ states n K, 0 ≤ P x) {T : Finset (Edge n)} {r : Fin n}
  {par : Fin n → Option (Fin n)} {d : Fin n → ℕ}

/-- Expected log-likelihood of the factor of `v`. -/
noncomputable def factorLL (K : ℕ) (P : (Fin n → ℕ) → ℝ) (par : Fin n → Option (Fin n)) (A : Fin n → ℕ → ℕ → ℝ) (v : Fin n) : ℝ :=
  match par v with
  | none => ∑ a ∈ range K, m1 K P v a * Real.log (A v a 0)
  | some p => ∑ a ∈ range K, ∑ b ∈ range K, m2 K P v p a b * Real.log (A v a b)

include hP in
theorem expLogLik_tree {A : Fin n → ℕ → ℕ → ℝ} (hpos : ∀ x ∈ states n K, 0 < P x → treeDist par A x ≠ 0) :
    expLogLik K P (treeDist par A) = ∑ v, factorLL K P par A v := by
  have h1 : expLogLik K P (treeDist par A) =
      ∑ x ∈ states n K, ∑ v, P x * Real.log (A v (x v) (parState par x v)) := by
    unfold expLogLik
    refine sum_congr rfl fun x hx => ?_
    rcases (hP x hx).eq_or_lt with h0 | h0
    · rw [← h0]; simp
    · have := hpos x hx h0
      unfold treeDist at this ⊢
      rw [Real.log_prod (fun v hv => prod_ne_zero_iff.1 this v hv), mul_sum]
  rw [h1, sum_comm]
  refine sum_congr rfl fun v _ => ?_
  unfold factorLL
  cases hp : par v with
  | none =>
    have : ∀ x : Fin n → ℕ, parState par x v = 0 := fun x => by unfold parState; rw [hp]
    simp only [this]
    exact sum_m1 v fun a => Real.log (A v a 0)
  | some p =>
    have : ∀ x : Fin n → ℕ, parState par x v = x p := fun x => by unfold parState; rw [hp]
    simp only [this]
    exact sum_m2 v p fun a b => Real.log (A v a b)

include hP in
/-- The factors of `P` itself are the best ones. -/
theorem factor_best {A : Fin n → ℕ → ℕ → ℝ} (hA : IsCpt K A)
    (hpos : ∀ x ∈ states n K, 0 < P x → treeDist par A x ≠ 0) (hsum : ∑ x ∈ states n K, P x = 1) (v : Fin n) :
    factorLL K P par A v ≤ factorLL K P par (clCpt K P par) v := by
  have hfac : ∀ x ∈ states n K, 0 < P x → A v (x v) (parState par x v) ≠ 0 := fun x hx h0 =>
    prod_ne_zero_iff.1 (hpos x hx h0) v (mem_univ v)
  have hex1 : ∀ a, 0 < m1 K P v a → ∃ x ∈ states n K, x v = a ∧ 0 < P x := by
    intro a ha
    obtain ⟨x, hx, hx0⟩ := exists_ne_zero_of_sum_ne_zero ha.ne'
    rw [mem_filter] at hx
    exact ⟨x, hx.1, hx.2, lt_of_le_of_ne (hP x hx.1) (Ne.symm hx0)⟩
  have hK : 0 < K := by
    by_contra hc
    obtain ⟨x, hx, -⟩ := exists_ne_zero_of_sum_ne_zero (s := states n K) (f := P) (by rw [hsum]; norm_num)
    have := mem_range.1 (Fintype.mem_piFinset.1 hx v)
    omega
  unfold factorLL clCpt
  cases hp : par v with
  | none =>
    simp only
    refine gibbs _ (fun a _ => m1_nonneg hP v a) (fun a ha => (hA v 0 hK).1 a (mem_range.1 ha)) (fun a ha h0 => ?_) ?_
    · obtain ⟨x, hx, rfl, hx0⟩ := hex1 a h0
      have := hfac x hx hx0
      unfold parState at this
      rw [hp] at this
      exact lt_of_le_of_ne ((hA v 0 hK).1 _ (mem_range.1 ha)) (Ne.symm this)
    · rw [(hA v 0 hK).2]
      have := sum_m1 (K := K) (P := P) v (fun _ => 1)
      simp only [mul_one] at this
      rw [← this, hsum]
  | some p =>
    simp only
    rw [sum_comm, sum_comm (s := range K) (t := range K) (f := fun a b => m2 K P v p a b * Real.log (m2 K P v p a b / m1 K P p b))]
    refine sum_le_sum fun b hb => ?_
    have hb' := mem_range.1 hb
    rcases (m1_nonneg hP p b).eq_or_lt with h0 | h0
    · have : ∀ a, m2 K P v p a b = 0 := fun a => le_antisymm (h0 ▸ m2_le_right hP v p a b) (m2_nonneg hP v p a b)
      simp [this]
    · have hg := gibbs (range K) (p := fun a => m2 K P v p a b) (q := fun a => m1 K P p b * A v a b)
        (fun a _ => m2_nonneg hP v p a b) (fun a ha => mul_nonneg h0.le ((hA v b hb').1 a (mem_range.1 ha)))
        (fun a ha ha0 => by
          refine mul_pos h0 (lt_of_le_of_ne ((hA v b hb').1 a (mem_range.1 ha)) (Ne.symm ?_))
          obtain ⟨x, hx, hx0⟩ := exists_ne_zero_of_sum_ne_zero (ne_of_gt ha0)
          rw [mem_filter] at hx
          have := hfac x hx.1 (lt_of_le_of_ne (hP x hx.1) (Ne.symm hx0))
          unfold parState at this
          rw [hp] at this
          simp only at this
          rw [hx.2.1, hx.2.2] at this
          exact this)
        (by rw [← mul_sum, (hA v b hb').2, mul_one, m2_right])
      have e1 : ∑ a ∈ range K, m2 K P v p a b * Real.log (m1 K P p b * A v a b) =
          m1 K P p b * Real.log (m1 K P p b) + ∑ a ∈ range K, m2 K P v p a b * Real.log (A v a b) := by
        rw [← m2_right v p b, sum_mul, ← sum_add_distrib]
        refine sum_congr rfl fun a ha => ?_
        rcases (m2_nonneg hP v p a b).eq_or_lt with h1 | h1
        · rw [← h1]; ring
        · have hAne : A v a b ≠ 0 := by
            obtain ⟨x, hx, hx0⟩ := exists_ne_zero_of_sum_ne_zero (ne_of_gt h1)
            rw [mem_filter] at hx
            have := hfac x hx.1 (lt_of_le_of_ne (hP x hx.1) (Ne.symm hx0))
            unfold parState at this
            rw [hp] at this
            simp only at this
            rw [hx.2.1, hx.2.2] at this
            exact this
          rw [m2_right, Real.log_mul h0.ne' hAne]
          ring
      have e2 : ∑ a ∈ range K, m2 K P v p a b * Real.log (m2 K P v p a b / m1 K P p b) =
          (∑ a ∈ range K, m2 K P v p a b * Real.log (m2 K P v p a b)) - m1 K P p b * Real.log (m1 K P p b) := by
        rw [← m2_right v p b, sum_mul, ← sum_sub_distrib]
        refine sum_congr rfl fun a ha => ?_
        rcases (m2_nonneg hP v p a b).eq_or_lt with h1 | h1
        · rw [← h1]; ring
        · rw [m2_right, Real.log_div h1.ne' h0.ne']
          ring
      rw [e1] at hg
      rw [e2]
      linarith

include hP in
theorem factor_cl (v : Fin n) : factorLL K P par (clCpt K P par) v = - entropy K P v +
    match par v with
    | none => 0
    | some p => mutualInfo K P v p := by
  unfold factorLL clCpt entropy
  cases hp : par v with
  | none => simp
  | some p =>
    simp only
    unfold mutualInfo
    rw [neg_neg, ← sum_add_distrib]
    refine sum_congr rfl fun a _ => ?_
    rw [← m2_left v p a, sum_mul, ← sum_add_distrib]
    refine sum_congr rfl fun b _ => ?_
    rcases (m2_nonneg hP v p a b).eq_or_lt with h1 | h1
    · rw [← h1]; simp
    · have ha : 0 < m1 K P v a := lt_of_lt_of_le h1 (m2_le_left hP v p a b)
      have hb : 0 < m1 K P p b := lt_of_lt_of_le h1 (m2_le_right hP v p a b)
      rw [m2_left, Real.log_div h1.ne' hb.ne', Real.log_div h1.ne' (mul_pos ha hb).ne', Real.log_mul ha.ne' hb.ne']
      ring

include hP in
theorem clCpt_pos (x : Fin n → ℕ) (hx : x ∈ states n K) (h0 : 0 < P x) : treeDist par (clCpt K P par) x ≠ 0 := by
  unfold treeDist
  rw [prod_ne_zero_iff]
  intro v _
  have h2 : ∀ u w : Fin n, 0 < m2 K P u w (x u) (x w) := by
    intro u w
    unfold m2
    exact lt_of_lt_of_le h0 (single_le_sum (f := P) (fun y hy => hP y (mem_filter.1 hy).1) (mem_filter.2 ⟨hx, rfl, rfl⟩))
  have h1 : ∀ u : Fin n, 0 < m1 K P u (x u) := fun u => lt_of_lt_of_le (h2 u u) (m2_le_left hP u u _ _)
  unfold clCpt parState
  cases hp : par v with
  | none => exact (h1 v).ne'
  | some p => exact (div_pos (h2 v p) (h1 p)).ne'

include hP in
/-- Expected log-likelihood of the tree distribution with the tables of `P`: minus the entropies plus the mutual
informations along the tree. -/
theorem expLogLik_cl (hT : IsSpanningTree T) (h : Rooted T r par d) :
    expLogLik K P (treeDist par (clCpt K P par)) = - ∑ v, entropy K P v + ∑ e ∈ T, mutualInfo K P e.1 e.2 := by
  rw [expLogLik_tree hP (fun x hx h0 => clCpt_pos hP x hx h0)]
  simp only [factor_cl hP]
  rw [sum_add_distrib, sum_neg_distrib]
  congr 1
  rw [← sum_edges hT h _ mutualInfo_comm, ← add_sum_erase univ _ (mem_univ r)]
  rw [h.root]
  simp

include hP in
/-- **The Chow-Liu theorem.** Let `T` be a spanning tree of maximal total mutual information under `P`.  Then for every
spanning tree `T'` and every distribution that factorises along it and gives positive probability to everything that is
possible under `P`, the Chow-Liu distribution on `T` has at least the same expected log-likelihood. -/
theorem chow_liu (hsum : ∑ x ∈ states n K, P x = 1) (hT : IsSpanningTree T) (h : Rooted T r par d)
    {T' : Finset (Edge n)} {r' : Fin n} {par' : Fin n → Option (Fin n)} {d' : Fin n → ℕ} (hT' : IsSpanningTree T')
    (h' : Rooted T' r' par' d') (hle : ∑ e ∈ T', mutualInfo K P e.1 e.2 ≤ ∑ e ∈ T, mutualInfo K P e.1 e.2)
    {A : Fin n → ℕ → ℕ → ℝ} (hA : IsCpt K A) (hpos : ∀ x ∈ states n K, 0 < P x → treeDist par' A x ≠ 0) :
    expLogLik K P (treeDist par' A) ≤ expLogLik K P (treeDist par (clCpt K P par)) := by
  rw [expLogLik_cl hP hT h, expLogLik_tree hP hpos]
  have h1 := sum_le_sum fun v (_ : v ∈ univ) => factor_best hP hA hpos hsum v
  have h2 := expLogLik_cl hP hT' h'
  rw [expLogLik_tree hP (fun x hx h0 => clCpt_pos hP x hx h0)] at h2
  linarith

include hP in
/-- Mutual information is not negative. -/
theorem mutualInfo_nonneg (hsum : ∑ x ∈ states n K, P x = 1) (u v : Fin n) : 0 ≤ mutualInfo K P u v := by
  have hg := gibbs ((range K) ×ˢ (range K)) (p := fun s => m2 K P u v s.1 s.2) (q := fun s => m1 K P u s.1 * m1 K P v s.2)
    (fun s _ => m2_nonneg hP u v _ _) (fun s _ => mul_nonneg (m1_nonneg hP u _) (m1_nonneg hP v _))
    (fun s _ h0 => mul_pos (lt_of_lt_of_le h0 (m2_le_left hP u v _ _)) (lt_of_lt_of_le h0 (m2_le_right hP u v _ _)))
    (by
      have e1 : ∀ w : Fin n, ∑ a ∈ range K, m1 K P w a = 1 := fun w => by
        have := sum_m1 (K := K) (P := P) w (fun _ => 1)
        simp only [mul_one] at this
        rw [← this, hsum]
      rw [sum_product, sum_product]
      simp only [← mul_sum, e1, mul_one, m2_left]
      exact le_rfl)
  unfold mutualInfo
  rw [← sum_product' (range K) (range K) fun a b => m2 K P u v a b * Real.log (m2 K P u v a b / (m1 K P u a * m1 K P v b))]
  have e : ∀ s ∈ (range K) ×ˢ (range K), m2 K P u v s.1 s.2 * Real.log (m2 K P u v s.1 s.2 / (m1 K P u s.1 * m1 K P v s.2)) =
      m2 K P u v s.1 s.2 * Real.log (m2 K P u v s.1 s.2) - m2 K P u v s.1 s.2 * Real.log (m1 K P u s.1 * m1 K P v s.2) := by
    intro s _
    rcases (m2_nonneg hP u v s.1 s.2).eq_or_lt with h1 | h1
    · rw [← h1]; simp
    · rw [Real.log_div h1.ne' (mul_pos (lt_of_lt_of_le h1 (m2_le_left hP u v _ _)) (lt_of_lt_of_le h1 (m2_le_right hP u v _ _))).ne']
      ring
  rw [sum_congr rfl e, sum_sub_distrib]
  linarith

end

end Verif.ChowLiu

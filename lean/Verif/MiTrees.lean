import Verif.MiBin

/-! C71: the Chow-Liu trees learned from data are the most likely trees. -/

namespace Verif.Mi

open Finset
open Verif.Span (Edge IsSpanningTree)
open Verif.Hclt (states Rooted rooted)
open Verif.ChowLiu

variable {f : ℕ}

/-! ### Specification -/

/-- Total mutual information along a tree. -/
noncomputable def treeMi (K : ℕ) (P : (Fin f → ℕ) → ℝ) (T : Finset (Edge f)) : ℝ := ∑ e ∈ T, mutualInfo K P e.1 e.2

/-- `out` lists the `k` spanning trees of largest total mutual information, best first (all of them if there are fewer). -/
structure TopTrees (K : ℕ) (P : (Fin f → ℕ) → ℝ) (k : ℕ) (out : List (List (Edge f))) : Prop where
  tree : ∀ t ∈ out, t.Nodup ∧ IsSpanningTree t.toFinset
  distinct : (out.map List.toFinset).Nodup
  sorted : out.Pairwise fun a b => treeMi K P b.toFinset ≤ treeMi K P a.toFinset
  best : ∀ T, IsSpanningTree T → T ∉ out.map List.toFinset → ∀ t ∈ out, treeMi K P T ≤ treeMi K P t.toFinset
  nonempty : 1 ≤ out.length
  atMost : out.length ≤ k
  all : out.length < k → ∀ T, IsSpanningTree T → T ∈ out.map List.toFinset

/-- No tree-structured distribution fits `P` better than the one on the tree `T` with the conditional probabilities of `P`,
whatever node is taken as the root. -/
def MostLikely (K : ℕ) (P : (Fin f → ℕ) → ℝ) (T : Finset (Edge f)) : Prop :=
  ∀ r par d, Rooted T r par d → ∀ (T' : Finset (Edge f)) (r' : Fin f) (par' : Fin f → Option (Fin f)) (d' : Fin f → ℕ)
    (A : Fin f → ℕ → ℕ → ℝ), IsSpanningTree T' → Rooted T' r' par' d' → IsCpt K A →
    (∀ x ∈ states f K, 0 < P x → treeDist par' A x ≠ 0) →
    expLogLik K P (treeDist par' A) ≤ expLogLik K P (treeDist par (clCpt K P par))

/-! ### Trees -/

theorem trees_spec (hf : 0 < f) {K : ℕ} {P : (Fin f → ℕ) → ℝ} {mi : Fin f → Fin f → ℝ}
    (hmi : ∀ i j, i ≠ j → mi i j = mutualInfo K P i j) {k : ℕ} (hk : 1 ≤ k) {pick : List (Mst.Entry f) → ℕ} (hp : Mst.PopsMin pick) :
    ∃ out, Mst.topk (fun e => - mi e.1 e.2) k true pick = .ok out ∧ TopTrees K P k out := by
  obtain ⟨out, h1, h2, h3, h4, h5, h6, h7, h8⟩ := Mst.C27_topk hf (fun e => - mi e.1 e.2) hk pick hp
  have hc : ∀ T : Finset (Edge f), IsSpanningTree T → ∑ e ∈ T, (- mi e.1 e.2) = - treeMi K P T := by
    intro T hT
    unfold treeMi
    rw [sum_neg_distrib]
    congr 1
    exact sum_congr rfl fun e he => hmi _ _ (hT.1 e he).ne
  have hl : ∀ t ∈ out, (t.map fun e => - mi e.1 e.2).sum = - treeMi K P t.toFinset := by
    intro t ht
    rw [← hc _ (h2 t ht).2, List.sum_toFinset _ (h2 t ht).1]
  refine ⟨out, h1, h2, h3, ?_, ?_, h6, h7, h8⟩
  · refine List.Pairwise.imp_of_mem (fun {a b} ha hb h => ?_) h4
    rw [hl a ha, hl b hb] at h
    linarith
  · intro T hT hn t ht
    have := h5 T hT hn t ht
    rw [hl t ht, hc T hT] at this
    linarith

theorem TopTrees.first {K : ℕ} {P : (Fin f → ℕ) → ℝ} {k : ℕ} {t : List (Edge f)} {rest : List (List (Edge f))}
    (h : TopTrees K P k (t :: rest)) (T : Finset (Edge f)) (hT : IsSpanningTree T) : treeMi K P T ≤ treeMi K P t.toFinset := by
  by_cases hm : T ∈ (t :: rest).map List.toFinset
  · obtain ⟨t', ht', rfl⟩ := List.mem_map.1 hm
    rcases List.mem_cons.1 ht' with rfl | ht''
    · exact le_rfl
    · exact (List.pairwise_cons.1 h.sorted).1 t' ht''
  · exact h.best T hT hm t List.mem_cons_self

theorem TopTrees.mostLikely {K : ℕ} {P : (Fin f → ℕ) → ℝ} (hP : ∀ x ∈ states f K, 0 ≤ P x) (hsum : ∑ x ∈ states f K, P x = 1)
    {k : ℕ} {t : List (Edge f)} {rest : List (List (Edge f))} (h : TopTrees K P k (t :: rest)) : MostLikely K P t.toFinset := by
  intro r par d hr T' r' par' d' A hT' hr' hA hpos
  exact chow_liu hP hsum (h.tree t List.mem_cons_self).2 hr hT' hr' (h.first T' hT') hA hpos

/-- **Chow-Liu trees of categorical data.** `learn_chow_liu_trees_categorical` returns the `num_trees` spanning trees of
largest total mutual information, best first, and the first one (which `learn_chow_liu_tree_categorical` returns) is the
tree of the most likely tree-structured distribution. -/
theorem C71_trees_categorical (hf : 0 < f) {K : ℕ} (hK : 0 < K) {rows : List (Fin f → ℕ)} {ws : Option (List ℝ)} (hs : Sample K rows ws)
    {pseudo : ℝ} (hpc : 0 ≤ pseudo) {chunk : ℤ} (hc : 1 ≤ chunk)
    (hZ : 0 < (wts rows.length ws).sum + massCat rows.length pseudo ws)
    (hres : Resolved eps0 K (estimate K rows ws (massCat rows.length pseudo ws)))
    {k : ℕ} (hk : 1 ≤ k) {pick : List (Mst.Entry f) → ℕ} (hp : Mst.PopsMin pick) :
    ∃ t rest, treesCategorical (rows.map asData) (some (K : ℤ)) k (ws.map fun l => l.map some) pseudo chunk pick = .ok (t :: rest) ∧
      TopTrees K (estimate K rows ws (massCat rows.length pseudo ws)) k (t :: rest) ∧
      MostLikely K (estimate K rows ws (massCat rows.length pseudo ws)) t.toFinset := by
  obtain ⟨mi, h1, h2, -⟩ := C71_categorical hK hs hpc (show (0 : ℝ) < eps0 by unfold eps0; positivity) hc hZ hres
  obtain ⟨out, h3, h4⟩ := trees_spec hf h2 hk hp
  have h5 : treesCategorical (rows.map asData) (some (K : ℤ)) k (ws.map fun l => l.map some) pseudo chunk pick = .ok out := by
    unfold treesCategorical
    rw [h1]
    simp only [bind, Except.bind, pure, Except.pure, throw, throwThe, MonadExceptOf.throw]
    rw [if_neg (by omega), if_neg (not_lt.2 hpc)]
    exact h3
  cases out with
  | nil => exact absurd h4.nonempty (by simp)
  | cons t rest =>
    exact ⟨t, rest, h5, h4, h4.mostLikely (fun x _ => hs.estimate_nonneg (massCat_nonneg hs hpc) x) (hs.estimate_sum hK hZ)⟩

/-- **Chow-Liu trees of binary data.** -/
theorem C71_trees_binary (hf : 0 < f) {rows : List (Fin f → ℕ)} {ws : Option (List ℝ)} (hs : Sample 2 rows ws)
    {pc : ℝ} (hpc : 0 ≤ pc) (hZ : 0 < (wts rows.length ws).sum + pc)
    (hres : Resolved eps0 2 (estimate 2 rows ws pc))
    {k : ℕ} (hk : 1 ≤ k) {pick : List (Mst.Entry f) → ℕ} (hp : Mst.PopsMin pick) :
    ∃ t rest, treesBinary (rows.map asData) k (ws.map fun l => l.map some) pc pick = .ok (t :: rest) ∧
      TopTrees 2 (estimate 2 rows ws pc) k (t :: rest) ∧ MostLikely 2 (estimate 2 rows ws pc) t.toFinset := by
  obtain ⟨mi, h1, h2, -⟩ := C71_binary hs hpc (show (0 : ℝ) < eps0 by unfold eps0; positivity) hZ hres
  obtain ⟨out, h3, h4⟩ := trees_spec hf h2 hk hp
  have h5 : treesBinary (rows.map asData) k (ws.map fun l => l.map some) pc pick = .ok out := by
    unfold treesBinary
    rw [h1]
    simp only [bind, Except.bind, pure, Except.pure, throw, throwThe, MonadExceptOf.throw]
    rw [if_neg (by omega), if_neg (not_lt.2 hpc)]
    exact h3
  cases out with
  | nil => exact absurd h4.nonempty (by simp)
  | cons t rest =>
    exact ⟨t, rest, h5, h4, h4.mostLikely (fun x _ => hs.estimate_nonneg hpc x) (hs.estimate_sum (K := 2) (by norm_num) hZ)⟩

/-! ### Without smoothing: the likelihood of the data -/

/-- Weighted log-likelihood of the rows. -/
noncomputable def dataLogLik (rows : List (Fin f → ℕ)) (w : List ℝ) (q : (Fin f → ℕ) → ℝ) : ℝ :=
  ((rows.zip w).map fun p => p.2 * Real.log (q p.1)).sum

theorem sum_states_rows {K : ℕ} (g : (Fin f → ℕ) → ℝ) : ∀ l : List ((Fin f → ℕ) × ℝ), (∀ p ∈ l, p.1 ∈ states f K) →
    ∑ x ∈ states f K, (l.map fun p => if p.1 = x then p.2 else 0).sum * g x = (l.map fun p => p.2 * g p.1).sum
  | [], _ => by simp
  | p :: l, h => by
    simp only [List.map_cons, List.sum_cons, add_mul]
    rw [sum_add_distrib, sum_states_rows g l fun q hq => h q (List.mem_cons_of_mem _ hq)]
    congr 1
    rw [sum_eq_single p.1]
    · rw [if_pos rfl]
    · intro x _ hx; rw [if_neg (Ne.symm hx), zero_mul]
    · intro hx; exact absurd (h p List.mem_cons_self) hx

theorem expLogLik_rows {K : ℕ} {rows : List (Fin f → ℕ)} {ws : Option (List ℝ)} (hs : Sample K rows ws) (q : (Fin f → ℕ) → ℝ) :
    expLogLik K (estimate K rows ws 0) q = dataLogLik rows (wts rows.length ws) q / (wts rows.length ws).sum := by
  unfold expLogLik dataLogLik
  rw [← sum_states_rows (fun x => Real.log (q x)) _ hs.mem, sum_div]
  refine sum_congr rfl fun x _ => ?_
  unfold estimate smoothed
  rw [hs.sum, zero_div, add_zero, add_zero, div_mul_eq_mul_div]

theorem estimate_pos {K : ℕ} {rows : List (Fin f → ℕ)} {ws : Option (List ℝ)}
    {x : Fin f → ℕ} (h : 0 < estimate K rows ws 0 x) : x ∈ rows := by
  by_contra hx
  unfold estimate smoothed at h
  have : (rows.zip (wts rows.length ws)).map (fun p => if p.1 = x then p.2 else 0) =
      (rows.zip (wts rows.length ws)).map fun _ => (0 : ℝ) :=
    List.map_congr_left fun p hp => if_neg fun e : p.1 = x => hx (e ▸ (List.of_mem_zip hp).1)
  rw [this] at h
  simp at h

/-- **Maximum likelihood.** Without pseudo-counts, the first tree returned, with the relative frequencies of the data as
conditional probabilities, gives the data at least the likelihood of every tree-structured distribution under which all
rows are possible. -/
theorem C71_max_likelihood (hf : 0 < f) {K : ℕ} (hK : 0 < K) {rows : List (Fin f → ℕ)} {ws : Option (List ℝ)} (hs : Sample K rows ws)
    {chunk : ℤ} (hc : 1 ≤ chunk) (hZ : 0 < (wts rows.length ws).sum) (hres : Resolved eps0 K (estimate K rows ws 0))
    {k : ℕ} (hk : 1 ≤ k) {pick : List (Mst.Entry f) → ℕ} (hp : Mst.PopsMin pick) :
    ∃ t rest, treesCategorical (rows.map asData) (some (K : ℤ)) k (ws.map fun l => l.map some) 0 chunk pick = .ok (t :: rest) ∧
      ∀ r par d, Rooted t.toFinset r par d → ∀ (T' : Finset (Edge f)) (r' : Fin f) (par' : Fin f → Option (Fin f)) (d' : Fin f → ℕ)
        (A : Fin f → ℕ → ℕ → ℝ), IsSpanningTree T' → Rooted T' r' par' d' → IsCpt K A → (∀ x ∈ rows, treeDist par' A x ≠ 0) →
        dataLogLik rows (wts rows.length ws) (treeDist par' A) ≤
          dataLogLik rows (wts rows.length ws) (treeDist par (clCpt K (estimate K rows ws 0) par)) := by
  have h0 : massCat rows.length 0 ws = 0 := by cases ws <;> simp [massCat]
  obtain ⟨t, rest, h1, -, h3⟩ := C71_trees_categorical hf hK hs le_rfl hc (by rw [h0, add_zero]; exact hZ) (by rw [h0]; exact hres) hk hp
  refine ⟨t, rest, h1, fun r par d hr T' r' par' d' A hT' hr' hA hpos => ?_⟩
  rw [h0] at h3
  have h4 := h3 r par d hr T' r' par' d' A hT' hr' hA fun x _ hx => hpos x (estimate_pos hx)
  rw [expLogLik_rows hs, expLogLik_rows hs] at h4
  exact (div_le_div_iff_of_pos_right hZ).1 h4

/-! ### When the clamp has no effect -/

theorem m2_cases {K : ℕ} {rows : List (Fin f → ℕ)} {ws : Option (List ℝ)} {pc : ℝ}
    {u v : Fin f} {a b : ℕ} (h : 0 < m2 K (estimate K rows ws pc) u v a b) : a < K ∧ b < K := by
  obtain ⟨x, hx, -⟩ := exists_ne_zero_of_sum_ne_zero h.ne'
  obtain ⟨h1, h2, h3⟩ := mem_filter.1 hx
  simp only [states, Fintype.mem_piFinset, Finset.mem_range] at h1
  exact ⟨h2 ▸ h1 u, h3 ▸ h1 v⟩

/-- Up to a million unweighted rows without pseudo-counts, nothing is clamped. -/
theorem C71_resolved_counts {K : ℕ} {rows : List (Fin f → ℕ)} (hs : Sample K rows none) (h1 : 1 ≤ rows.length)
    (hN : rows.length ≤ 10 ^ 6) : Resolved eps0 K (estimate K rows none 0) := by
  have hP : ∀ x ∈ states f K, 0 ≤ estimate K rows none 0 x := fun x _ => hs.estimate_nonneg le_rfl x
  have hNp : (0 : ℝ) < rows.length := by exact_mod_cast h1
  -- every positive sum of weights of rows is at least one
  have key : ∀ g : (Fin f → ℕ) → Prop, [DecidablePred g] →
      0 < ((rows.zip (wts rows.length none)).map fun p => if g p.1 then p.2 else 0).sum →
      1 ≤ ((rows.zip (wts rows.length none)).map fun p => if g p.1 then p.2 else 0).sum := by
    intro g _ hg
    have e : (rows.zip (wts rows.length none)).map (fun p => if g p.1 then p.2 else 0) =
        (rows.zip (wts rows.length none)).map fun p => ((if g p.1 then 1 else 0 : ℕ) : ℝ) := by
      refine List.map_congr_left fun p hp => ?_
      have : p.2 = 1 := (List.mem_replicate.1 (List.of_mem_zip hp).2).2
      by_cases hh : g p.1 <;> simp [hh, this]
    rw [e] at hg ⊢
    have e2 : ((rows.zip (wts rows.length none)).map fun p => ((if g p.1 then 1 else 0 : ℕ) : ℝ)).sum =
        (((rows.zip (wts rows.length none)).map fun p => (if g p.1 then 1 else 0 : ℕ)).sum : ℕ) := by
      rw [Nat.cast_list_sum, List.map_map]
      rfl
    rw [e2] at hg ⊢
    exact_mod_cast hg
  have hw : (wts rows.length none).sum = rows.length := by simp [wts]
  have lb : ∀ s : Finset (Fin f → ℕ), 0 < ∑ x ∈ s, estimate K rows none 0 x → 1 / (rows.length : ℝ) ≤ ∑ x ∈ s, estimate K rows none 0 x := by
    intro s h
    unfold estimate at h ⊢
    rw [sum_smoothed, hs.sum, hw, zero_div, mul_zero, add_zero, add_zero] at h ⊢
    exact (div_le_div_iff_of_pos_right hNp).2 (key (fun x => x ∈ s) ((div_pos_iff_of_pos_right hNp).1 h))
  have hinv : (1 : ℝ) / 10 ^ 6 ≤ 1 / rows.length := one_div_le_one_div_of_le hNp (by exact_mod_cast hN)
  intro u v a b h
  have g0 := lb _ h
  have g1 := lb _ (lt_of_lt_of_le h (m2_le_left hP u v a b))
  have g2 := lb _ (lt_of_lt_of_le h (m2_le_right hP u v a b))
  change _ ≤ m2 K (estimate K rows none 0) u v a b at g0
  change _ ≤ m1 K (estimate K rows none 0) u a at g1
  change _ ≤ m1 K (estimate K rows none 0) v b at g2
  have hp : (0 : ℝ) ≤ 1 / 10 ^ 6 := by positivity
  have e6 : eps0 = 1 / 10 ^ 6 * (1 / 10 ^ 6) := by unfold eps0; norm_num
  have le6 : eps0 ≤ 1 / 10 ^ 6 := by unfold eps0; norm_num
  refine ⟨le6.trans (hinv.trans g0), ?_⟩
  rw [e6]
  exact mul_le_mul (hinv.trans g1) (hinv.trans g2) hp (hp.trans (hinv.trans g1))

/-- With a positive pseudo-mass that is not too small compared with the total weight, nothing is clamped. -/
theorem C71_resolved_smoothed {K : ℕ} (hK : 0 < K) {rows : List (Fin f → ℕ)} {ws : Option (List ℝ)} (hs : Sample K rows ws)
    {pc : ℝ} (hpc : 0 < pc) (hN : K * ((wts rows.length ws).sum + pc) ≤ 10 ^ 6 * pc) : Resolved eps0 K (estimate K rows ws pc) := by
  have hP : ∀ x ∈ states f K, 0 ≤ estimate K rows ws pc x := fun x _ => hs.estimate_nonneg hpc.le x
  have hW := hs.sum_nonneg
  set W := (wts rows.length ws).sum with hWd
  have hKp : (0 : ℝ) < K := by exact_mod_cast hK
  have hZ : 0 < W + pc := by linarith
  have c1 : ∀ (g : (Fin f → ℕ) → Prop) [DecidablePred g],
      0 ≤ ((rows.zip (wts rows.length ws)).map fun p => if g p.1 then p.2 else 0).sum := by
    intro g _
    refine List.sum_nonneg fun t ht => ?_
    obtain ⟨p, hp, rfl⟩ := List.mem_map.1 ht
    split_ifs
    · exact hs.pos p hp
    · exact le_rfl
  have l1 : ∀ u a, a < K → 1 / 10 ^ 6 ≤ m1 K (estimate K rows ws pc) u a := by
    intro u a ha
    unfold estimate
    rw [m1_smoothed hK hs.mem u ha, hs.sum, ← hWd, le_div_iff₀ hZ]
    have h1 := c1 (fun x => x u = a)
    have h2 : 1 / 10 ^ 6 * (W + pc) ≤ pc / K := by
      rw [le_div_iff₀ hKp]
      linarith
    linarith
  have l2 : ∀ u v a b, u ≠ v → a < K → b < K → eps0 ≤ m2 K (estimate K rows ws pc) u v a b := by
    intro u v a b huv ha hb
    unfold estimate
    rw [m2_smoothed hK hs.mem huv ha hb, hs.sum, ← hWd, le_div_iff₀ hZ]
    have h1 := c1 (fun x => x u = a ∧ x v = b)
    have h2 : eps0 * (W + pc) ≤ pc / (K * K) := by
      rw [le_div_iff₀ (by positivity)]
      have h3 : (K : ℝ) ≤ 10 ^ 6 := by
        have : K * pc ≤ 10 ^ 6 * pc := le_trans (by nlinarith) hN
        exact le_of_mul_le_mul_right this hpc
      have h4 : eps0 * (W + pc) * (K * K) = eps0 * (K * (W + pc)) * K := by ring
      rw [h4]
      have h5 : eps0 * (K * (W + pc)) ≤ eps0 * (10 ^ 6 * pc) := mul_le_mul_of_nonneg_left hN (by unfold eps0; positivity)
      have h6 : eps0 * (K * (W + pc)) * K ≤ eps0 * (10 ^ 6 * pc) * 10 ^ 6 :=
        mul_le_mul h5 h3 hKp.le (by unfold eps0; positivity)
      refine h6.trans (le_of_eq ?_)
      unfold eps0
      ring
    linarith
  have e6 : eps0 = 1 / 10 ^ 6 * (1 / 10 ^ 6) := by unfold eps0; norm_num
  have le6 : eps0 ≤ 1 / 10 ^ 6 := by unfold eps0; norm_num
  intro u v a b h
  obtain ⟨ha, hb⟩ := m2_cases h
  refine ⟨?_, ?_⟩
  · by_cases huv : u = v
    · subst huv
      have hab : a = b := by
        obtain ⟨x, hx, -⟩ := exists_ne_zero_of_sum_ne_zero h.ne'
        obtain ⟨-, h2, h3⟩ := mem_filter.1 hx
        exact h2.symm.trans h3
      subst hab
      rw [m2_self]
      exact le6.trans (l1 u a ha)
    · exact l2 u v a b huv ha hb
  · rw [e6]
    have hp : (0 : ℝ) ≤ 1 / 10 ^ 6 := by positivity
    exact mul_le_mul (l1 u a ha) (l1 v b hb) hp (hp.trans (l1 u a ha))

end Verif.Mi

import Verif.CltFitTree

/-! C57: main theorems about fitting Chow-Liu tree leaves. -/

namespace Verif.CltFit

open Finset
open Verif.Hclt (states parState Rooted)
open Verif.Span (Edge Adj IsSpanningTree)
open Verif.Mst (treeEdges)
open Verif.ChowLiu (IsCpt treeDist mutualInfo)

variable {F : ℕ}

/-! ### Specification -/

/-- Weight of an item for the structure: its weights for the first feature, over all channels and repetitions. -/
noncomputable def rowWeight (C R : ℕ) (d : Item F) : ℝ := ∑ c ∈ range C, ∑ r ∈ range R, d.2 0 c r

/-- Sum of these. -/
noncomputable def rowWeights (C R : ℕ) (data : List (Item F)) : ℝ := (data.map (rowWeight C R)).sum

/-- The items, read with permuted variables and with weights scaled to sum up to their number. -/
noncomputable def weighted (C R : ℕ) (σ : Fin F → Fin F) (data : List (Item F)) : WRows F :=
  data.map fun d => (fun i => d.1 (σ i), rowWeight C R d * (data.length / rowWeights C R data))

/-- Where `fit_structure` looks for variable `i` in the data that are already restricted to the scope. -/
def refeed (query : Fin F → ℕ) : Fin F → Fin F := if h : ∀ i, query i < F then fun i => ⟨query i, h i⟩ else id

/-- Complete, valid data for a fit. -/
structure Dataset (query cols : Fin F → ℕ) (D K C R : ℕ) (rows : List LeafFit.Row) (data : List (Item F)) : Prop where
  columns : resolve query D = .ok cols
  rows : List.Forall₂ (Holds cols) rows data
  two : 2 ≤ data.length
  range : ∀ d ∈ data, ∀ i, d.1 i < K
  nonneg : ∀ d ∈ data, ∀ f c r, 0 ≤ d.2 f c r
  total : 0 < allWeights C R data
  first : tiny * allWeights C R data ≤ data.length * rowWeights C R data

/-! ### Lemmas -/

theorem resolve_again (query : Fin F → ℕ) : resolve query F = .ok fun i => (refeed query i : ℕ) := by
  unfold resolve refeed
  by_cases h : ∀ i, query i < F
  · rw [if_pos h, dif_pos h]
  · rw [if_neg h, dif_neg h, if_pos rfl]; rfl

theorem toX_take (σ : Fin F → Fin F) (row : LeafFit.Row) :
    toX (takeCols (fun i => (σ i : ℕ)) row) = fun i => (toX row : Fin F → ℕ) (σ i) := by
  funext i
  unfold toX CLTree.truncObs
  beta_reduce
  rw [takeCols_val]

section

variable {query cols : Fin F → ℕ} {D K C R : ℕ} {rows : List LeafFit.Row} {data : List (Item F)}
  (hd : Dataset query cols D K C R rows data)

include hd

theorem Dataset.len : (0 : ℝ) < data.length := by exact_mod_cast (show 0 < data.length by have := hd.two; omega)

theorem Dataset.weight_pos : 0 < rowWeights C R data := by
  have h1 := mul_pos tiny_pos hd.total
  have h2 := lt_of_lt_of_le h1 hd.first
  exact (pos_iff_pos_of_mul_pos h2).1 hd.len

theorem Dataset.weighted_sum (σ : Fin F → Fin F) : ((weighted C R σ data).map Prod.snd).sum = data.length := by
  unfold weighted
  rw [List.map_map]
  have : (Prod.snd ∘ fun d : Item F => ((fun i => d.1 (σ i)), rowWeight C R d * (data.length / rowWeights C R data))) =
      fun d => rowWeight C R d * (data.length / rowWeights C R data) := rfl
  rw [this, List.sum_map_mul_right]
  exact mul_div_cancel₀ _ hd.weight_pos.ne'

theorem Dataset.weighted_mem (σ : Fin F → Fin F) : ∀ p ∈ weighted C R σ data, p.1 ∈ states F K := by
  intro p hp
  obtain ⟨d, h, rfl⟩ := List.mem_map.1 hp
  exact Fintype.mem_piFinset.2 fun i => mem_range.2 (hd.range d h _)

theorem Dataset.weighted_nonneg (σ : Fin F → Fin F) : ∀ p ∈ weighted C R σ data, 0 ≤ p.2 := by
  intro p hp
  obtain ⟨d, h, rfl⟩ := List.mem_map.1 hp
  refine mul_nonneg (sum_nonneg fun c _ => sum_nonneg fun r _ => hd.nonneg d h _ _ _) (div_nonneg hd.len.le hd.weight_pos.le)

theorem Dataset.K_pos [NeZero F] : 0 < K := by
  have h2 := hd.two
  cases data with
  | nil => simp at h2
  | cons d l => have := hd.range d List.mem_cons_self 0; omega

theorem renorm_eq : renorm (data.map fun d => ((fun i => d.1 (refeed query i)),
      ∑ c ∈ Finset.range C, ∑ r ∈ Finset.range R, d.2 0 c r * ((data.length : ℝ) / allWeights C R data))) =
    weighted C R (refeed query) data := by
  unfold renorm weighted
  rw [List.map_map, List.map_map, List.length_map]
  have e : ∀ d : Item F, ∑ c ∈ Finset.range C, ∑ r ∈ Finset.range R, d.2 0 c r * ((data.length : ℝ) / allWeights C R data) =
      rowWeight C R d * ((data.length : ℝ) / allWeights C R data) := by
    intro d
    unfold rowWeight
    rw [sum_mul]
    exact sum_congr rfl fun c _ => (sum_mul _ _ _).symm
  simp only [Function.comp_def, e]
  have e2 : (data.map fun d => rowWeight C R d * ((data.length : ℝ) / allWeights C R data)).sum =
      rowWeights C R data * ((data.length : ℝ) / allWeights C R data) := by
    rw [List.sum_map_mul_right]; rfl
  have hlen := hd.len
  have hU := hd.weight_pos
  have hT := hd.total
  rw [e2, max_eq_left]
  · refine List.map_congr_left fun d _ => ?_
    congr 1
    field_simp
  · rw [mul_div_assoc', le_div_iff₀ hT, mul_comm (rowWeights C R data)]
    exact hd.first

theorem fitStructure_eq [NeZero F] (α : ℝ) :
    fitStructure query F K α (prepared cols C R rows) (wScalar C R (prepared cols C R rows)) =
      Mst.prim (fun i j => if i < j then miEntry α K (weighted C R (refeed query) data) i j
        else if j < i then miEntry α K (weighted C R (refeed query) data) j i else 0) 0 := by
  classical
  have hsome : ∀ row ∈ prepared cols C R rows, ∀ i : Fin F, row.val i ≠ none := by
    have hr := hd.rows
    intro row hrow i
    unfold prepared LeafFit.rescale at hrow
    obtain ⟨row1, hrow1, rfl⟩ := List.mem_map.1 hrow
    obtain ⟨row2, hrow2, rfl⟩ := List.mem_map.1 hrow1
    show (takeCols cols row2).val i ≠ none
    rw [takeCols_val]
    clear hrow hrow1 hd
    induction hr with
    | nil => cases hrow2
    | @cons _ d _ _ h _ ih =>
      rcases List.mem_cons.1 hrow2 with rfl | hrow2
      · rw [h.1]; simp
      · exact ih hrow2
  have hvalid := valid_prep (K := K) (C := C) (R := R) hd.rows hd.range
  have hzip : (((prepared cols C R rows).map (takeCols fun i => (refeed query i : ℕ))).map (toX (F := F))).zip
      (wScalar C R (prepared cols C R rows)) =
      data.map fun d => ((fun i => d.1 (refeed query i)),
        ∑ c ∈ Finset.range C, ∑ r ∈ Finset.range R, d.2 0 c r * ((data.length : ℝ) / allWeights C R data)) := by
    unfold wScalar
    rw [List.map_map, List.zip_map']
    have h1 := congrArg (List.map fun p : (Fin F → ℕ) × ℝ => ((fun i => p.1 (refeed query i)), p.2))
      (prepared_map (C := C) (R := R) hd.rows fun _ w => ∑ c ∈ Finset.range C, ∑ r ∈ Finset.range R, w 0 c r)
    rw [List.map_map, List.map_map] at h1
    refine Eq.trans ?_ h1
    refine List.map_congr_left fun row _ => ?_
    simp only [Function.comp_apply]
    rw [toX_take]
  unfold fitStructure
  simp only [resolve_again, bind, Except.bind, throw, throwThe, MonadExceptOf.throw]
  rw [if_neg, if_neg, if_neg]
  · rw [hzip]
    congr 1
    funext i j
    unfold miMatrix
    rw [renorm_eq hd]
  · unfold wScalar; simp
  · rw [not_not]
    intro row hrow i
    obtain ⟨row', hrow', rfl⟩ := List.mem_map.1 hrow
    rw [takeCols_val]
    exact hvalid row' hrow' _
  · rintro ⟨row, hrow, i, hi⟩
    obtain ⟨row', hrow', rfl⟩ := List.mem_map.1 hrow
    rw [takeCols_val] at hi
    exact hsome row' hrow' _ hi

end

/-! ### Theorems -/

section main

variable [NeZero F] {query cols : Fin F → ℕ} {D K C R : ℕ} {rows : List LeafFit.Row} {data : List (Item F)}

/-- **Structure.** A leaf without a tree learns a spanning tree that is rooted at its first variable and that maximises
the sum of the `score`s: the mutual information between the two variables under the smoothed empirical distribution, plus
for both of them the relative entropy between two different smoothings.  The variables are read at `refeed`. -/
theorem C57_structure (hd : Dataset query cols D K C R rows data) {α : ℝ} (hα : Unclamped α K data.length) {s : State F}
    (hs : ¬ hasStructure s.parents) : ∃ s', mle query D K C R α s rows = .ok s' ∧
      IsSpanningTree (treeEdges s'.parents) ∧ (∃ d, Rooted (treeEdges s'.parents) 0 s'.parents d) ∧
      ∀ T, IsSpanningTree T → ∑ e ∈ T, score α K (weighted C R (refeed query) data) e.1 e.2 ≤
        ∑ e ∈ treeEdges s'.parents, score α K (weighted C R (refeed query) data) e.1 e.2 := by
  classical
  have hα' : Unclamped α K (((weighted C R (refeed query) data).map Prod.snd).sum) := by rw [hd.weighted_sum]; exact hα
  have hmi : ∀ i j : Fin F, i ≠ j → miEntry α K (weighted C R (refeed query) data) i j =
      score α K (weighted C R (refeed query) data) i j := fun i j hij =>
    miEntry_eq hd.K_pos (hd.weighted_mem _) (hd.weighted_nonneg _) hα' hij
  have hw : ∀ i j : Fin F, i ≠ j → (if i < j then miEntry α K (weighted C R (refeed query) data) i j
        else if j < i then miEntry α K (weighted C R (refeed query) data) j i else 0) =
      score α K (weighted C R (refeed query) data) i j := by
    intro i j hij
    rcases lt_or_gt_of_ne hij with h | h
    · rw [if_pos h, hmi i j hij]
    · rw [if_neg h.not_gt, if_pos h, hmi j i hij.symm, score_comm]
  have hsym : ∀ i j : Fin F, (if i < j then miEntry α K (weighted C R (refeed query) data) i j
        else if j < i then miEntry α K (weighted C R (refeed query) data) j i else 0) =
      (if j < i then miEntry α K (weighted C R (refeed query) data) j i
        else if i < j then miEntry α K (weighted C R (refeed query) data) i j else 0) := by
    intro i j
    rcases lt_trichotomy i j with h | h | h
    · rw [if_pos h, if_neg h.not_gt, if_pos h]
    · subst h; rfl
    · rw [if_neg h.not_gt, if_pos h, if_pos h]
  obtain ⟨p, hp, h1, h2, h3, h4, h5⟩ := Mst.C26_prim hsym (0 : Fin F)
  refine ⟨⟨p, tables α K (prepared cols C R rows) p⟩, ?_, h4, rooted_of_leads h1 h2 h3, fun T hT => ?_⟩
  · rw [mle_eq hd.columns hd.rows hd.two hd.range, if_neg hs, fitStructure_eq hd, hp]; rfl
  · have h6 := h5 T hT
    rw [sum_congr rfl fun e he => hw e.1 e.2 (hT.1 e he).ne, sum_congr rfl fun e he => hw e.1 e.2 (h4.1 e he).ne] at h6
    exact h6

/-- A leaf that has a tree keeps it, whatever the data. -/
theorem C57_keeps_structure {α : ℝ} {s s' : State F} (hs : hasStructure s.parents) (h : mle query D K C R α s rows = .ok s') :
    s'.parents = s.parents := by
  classical
  unfold mle at h
  simp only [bind, Except.bind, pure, Except.pure, throw, throwThe, MonadExceptOf.throw, if_pos hs] at h
  revert h
  cases resolve query D with
  | error e => intro h; cases h
  | ok cols =>
    simp only []
    cases LeafFit.prepare true F C R (rows.map (takeCols cols)) with
    | error e => intro h; cases h
    | ok P =>
      simp only []
      split_ifs
      · intro h; cases h
      · intro h; cases h; rfl
      · intro h; cases h

/-- **Tables.** The fitted tables are the relative frequencies with pseudo-count `α · allWeights / N`, clamped at `1e-12`. -/
theorem C57_tables (hd : Dataset query cols D K C R rows data) {α : ℝ} (hα : tiny ≤ K * α) {s s' : State F}
    (h : mle query D K C R α s rows = .ok s') (i : Fin F) (c r a b : ℕ) :
    Real.exp (s'.logCpt i c r a b) = max (smoothCpt K data (pseudo α C R data) s'.parents c r i a b) tiny := by
  classical
  rw [mle_eq hd.columns hd.rows hd.two hd.range] at h
  have hne : data ≠ [] := by intro e; have := hd.two; rw [e] at this; simp at this
  cases hx : (if hasStructure s.parents then pure s.parents
        else fitStructure query F K α (prepared cols C R rows) (wScalar C R (prepared cols C R rows))) with
  | error e => rw [hx] at h; cases h
  | ok p =>
    rw [hx] at h
    have h' : State.mk p (tables α K (prepared cols C R rows) p) = s' := Except.ok.inj h
    subst h'
    exact exp_tables hd.rows hne hd.range hd.nonneg hd.total hα p i c r a b

/-- Without weights the pseudo-count is `alpha · F · C · R`, not `alpha`. -/
theorem C57_effective_pseudocount (h2 : 2 ≤ data.length) (hw : ∀ d ∈ data, ∀ f c r, d.2 f c r = 1) (α : ℝ) :
    pseudo α C R data = α * (F * C * R) := by
  have e : allWeights C R data = data.length * (F * C * R) := by
    unfold allWeights
    rw [List.map_congr_left (g := fun _ => ((F : ℝ) * C * R)) fun d hd => ?_]
    · simp
    · simp only [hw d hd, sum_const, card_range, nsmul_eq_mul, mul_one]
      ring
  have hlen : (0 : ℝ) < data.length := by exact_mod_cast (show 0 < data.length by omega)
  unfold pseudo
  rw [e]
  field_simp

/-- **Best tables.** If no relative frequency is below `1e-12`, the fitted tables are conditional distributions, and for every
channel and repetition they maximise, among all tables on the leaf's tree, the likelihood of the data times a symmetric
Dirichlet prior. -/
theorem C57_tables_optimal (hd : Dataset query cols D K C R rows data) {α : ℝ} (hα : tiny ≤ K * α) {s s' : State F}
    (h : mle query D K C R α s rows = .ok s') (c r : ℕ)
    (hc : ∀ v, ∀ a < K, ∀ b < K, tiny ≤ smoothCpt K data (pseudo α C R data) s'.parents c r v a b) :
    IsCpt K (fun v a b => Real.exp (s'.logCpt v c r a b)) ∧
    ∀ A : Fin F → ℕ → ℕ → ℝ, IsCpt K A → (∀ v, ∀ a < K, ∀ b < K, 0 < A v a b) →
      logLik data c r s'.parents A + logPrior K (pseudo α C R data) s'.parents A ≤
        logLik data c r s'.parents (fun v a b => Real.exp (s'.logCpt v c r a b)) +
          logPrior K (pseudo α C R data) s'.parents fun v a b => Real.exp (s'.logCpt v c r a b) := by
  have h0 := hd.K_pos
  have hKp : (0 : ℝ) < K := by exact_mod_cast h0
  have hαp : 0 < α := by
    have := lt_of_lt_of_le tiny_pos hα
    exact (pos_iff_pos_of_mul_pos this).1 hKp
  have hβ : 0 < pseudo α C R data := div_pos (mul_pos hαp hd.total) hd.len
  have heq : ∀ v, ∀ a < K, ∀ b < K, Real.exp (s'.logCpt v c r a b) =
      smoothCpt K data (pseudo α C R data) s'.parents c r v a b := fun v a ha b hb => by
    rw [C57_tables hd hα h, max_eq_left (hc v a ha b hb)]
  obtain ⟨i1, i2⟩ := smoothCpt_isCpt hd.range h0 hd.nonneg hβ s'.parents c r
  constructor
  · intro v b hb
    refine ⟨fun a _ => (Real.exp_pos _).le, ?_⟩
    rw [← (i1 v b hb).2]
    exact sum_congr rfl fun a ha => heq v a (mem_range.1 ha) b hb
  · intro A hA hpos
    have hbest := smoothCpt_best hd.range h0 hd.nonneg hβ s'.parents c r hA hpos
    have e1 : logLik data c r s'.parents (fun v a b => Real.exp (s'.logCpt v c r a b)) =
        logLik data c r s'.parents (smoothCpt K data (pseudo α C R data) s'.parents c r) := by
      rw [logLik_expand hd.range h0 _ fun v a _ b _ => Real.exp_pos _, logLik_expand hd.range h0 _ fun v a _ b _ => i2 v a b]
      refine sum_congr rfl fun v _ => ?_
      cases s'.parents v with
      | none => exact sum_congr rfl fun a ha => congrArg (fun t => _ * Real.log t) (heq v a (mem_range.1 ha) 0 h0)
      | some p => exact sum_congr rfl fun b hb => sum_congr rfl fun a ha => congrArg (fun t => _ * Real.log t) (heq v a (mem_range.1 ha) b (mem_range.1 hb))
    have e2 : logPrior K (pseudo α C R data) s'.parents (fun v a b => Real.exp (s'.logCpt v c r a b)) =
        logPrior K (pseudo α C R data) s'.parents (smoothCpt K data (pseudo α C R data) s'.parents c r) := by
      unfold logPrior
      congr 1
      refine sum_congr rfl fun v _ => ?_
      cases s'.parents v with
      | none => exact sum_congr rfl fun a ha => congrArg Real.log (heq v a (mem_range.1 ha) 0 h0)
      | some p => exact sum_congr rfl fun b hb => sum_congr rfl fun a ha => congrArg Real.log (heq v a (mem_range.1 ha) b (mem_range.1 hb))
    rw [e1, e2]
    exact hbest

/-- The same without clamping to think about: a sufficient condition. -/
theorem unclamped_tables (hd : Dataset query cols D K C R rows data) {α : ℝ} (hαp : 0 < α) (c r : ℕ)
    (hα : tiny * (seen0 data c r + K * pseudo α C R data) ≤ pseudo α C R data) (par : Fin F → Option (Fin F)) (v : Fin F) (a b : ℕ) :
    tiny ≤ smoothCpt K data (pseudo α C R data) par c r v a b := by
  have hKp : (0 : ℝ) < K := by exact_mod_cast hd.K_pos
  have hβ : 0 < pseudo α C R data := div_pos (mul_pos hαp hd.total) hd.len
  have hle : ∀ p b, seen1 data c r p b ≤ seen0 data c r := by
    intro p b
    refine List.sum_le_sum fun d h => ?_
    split_ifs
    · exact le_rfl
    · exact hd.nonneg d h _ _ _
  unfold smoothCpt
  cases par v with
  | none =>
    have h1 := seen0_nonneg hd.nonneg c r
    have h2 := seen1_nonneg hd.nonneg c r v a
    simp only []
    rw [le_div_iff₀ (by positivity)]
    linarith
  | some p =>
    have h1 := seen1_nonneg hd.nonneg c r p b
    have h2 := seen2_nonneg hd.nonneg c r v p a b
    simp only []
    rw [le_div_iff₀ (by positivity)]
    have h3 : tiny * (seen1 data c r p b + K * pseudo α C R data) ≤ tiny * (seen0 data c r + K * pseudo α C R data) :=
      mul_le_mul_of_nonneg_left (by have := hle p b; linarith) tiny_pos.le
    linarith

/-- **Best tree**, in the cases in which it is: the scope restricted to the leaf is read in its own order, and all variables
have the same `excess` (for instance because their marginal relative frequencies agree).  Then no tree-structured
distribution has a larger expected log-likelihood under the smoothed empirical distribution.  Missing: the other cases, in
which this is false: see `C57_structure_wrong`, `C57_scope_order_wrong`. -/
theorem C57_structure_best_partial (hd : Dataset query cols D K C R rows data) {α : ℝ} (hα : Unclamped α K data.length) {s s' : State F}
    (hs : ¬ hasStructure s.parents) (h : mle query D K C R α s rows = .ok s') (hq : refeed query = id)
    (hx : ∀ i j, excess α K (weighted C R id data) i = excess α K (weighted C R id data) j) :
    Mi.MostLikely K (empirical α K (weighted C R id data)) (treeEdges s'.parents) := by
  obtain ⟨s1, h1, h2, -, h4⟩ := C57_structure hd hα hs
  have : s' = s1 := by rw [h1] at h; exact (Except.ok.inj h).symm
  subst this
  rw [hq] at h4
  have hsum : ∀ T : Finset (Edge F), IsSpanningTree T → ∑ e ∈ T, score α K (weighted C R id data) e.1 e.2 =
      ∑ e ∈ T, mutualInfo K (empirical α K (weighted C R id data)) e.1 e.2 +
        ((F : ℝ) - 1) * (2 * excess α K (weighted C R id data) 0) := by
    intro T hT
    have hc : (T.card : ℝ) = F - 1 := by
      have := hT.2.1
      have h' : ((T.card + 1 : ℕ) : ℝ) = F := by rw [this]
      push_cast at h'
      linarith
    rw [← hc, ← nsmul_eq_mul, ← sum_const, ← sum_add_distrib]
    refine sum_congr rfl fun e _ => ?_
    unfold score
    rw [hx e.1 0, hx e.2 0]
    ring
  intro r par d hr T' r' par' d' A hT' hr' hA hpos
  have hnn : ∀ x ∈ states F K, 0 ≤ empirical α K (weighted C R id data) x := fun x _ =>
    Mi.smoothed_nonneg (hd.weighted_nonneg _) (by have := hα.1; positivity) x
  have h5 := h4 T' hT'
  rw [hsum T' hT', hsum _ h2] at h5
  refine ChowLiu.chow_liu hnn ?_ h2 hr hT' hr' (by linarith) hA hpos
  refine Mi.sum_one hd.K_pos (hd.weighted_mem _) ?_
  rw [hd.weighted_sum]
  have h6 := hα.1
  have h7 := hd.len
  positivity

/-- Only rows that are complete on the leaf's variables count. -/
theorem C57_ignores_incomplete (hq : resolve query D = .ok cols) (α : ℝ) (s : State F)
    (hex : ∃ row ∈ rows, ∀ i, (row.val (cols i)).isSome) :
    mle query D K C R α s rows = mle query D K C R α s (rows.filter fun row => LeafFit.complete F (takeCols cols row)) := by
  classical
  obtain ⟨row0, hr0, hc0⟩ := hex
  have hc0' := (complete_takeCols cols row0).2 hc0
  have hF : ∀ rs : List LeafFit.Row, row0 ∈ rs → LeafFit.allNan F (rs.map (takeCols cols)) = false := by
    intro rs hm
    rw [Bool.eq_false_iff]
    intro ha
    unfold LeafFit.allNan at ha
    rw [List.all_eq_true] at ha
    have h1 := ha _ (List.mem_map_of_mem (f := takeCols cols) hm)
    rw [List.all_eq_true] at h1
    have h2 := h1 0 (List.mem_range.2 (Nat.pos_of_neZero F))
    have h3 := takeCols_val cols row0 0
    rw [Fin.val_zero] at h3
    rw [h3] at h2
    have h4 := hc0 0
    rw [Option.isNone_iff_eq_none.1 h2] at h4
    cases h4
  have hfil : (rows.filter fun row => LeafFit.complete F (takeCols cols row)).map (takeCols cols) =
      (rows.map (takeCols cols)).filter (LeafFit.complete F) := by
    rw [List.filter_map]; rfl
  have key : LeafFit.prepare true F C R (rows.map (takeCols cols)) =
      LeafFit.prepare true F C R ((rows.filter fun row => LeafFit.complete F (takeCols cols row)).map (takeCols cols)) := by
    unfold LeafFit.prepare
    rw [hF rows hr0, hF _ (List.mem_filter.2 ⟨hr0, hc0'⟩), hfil]
    have h1 : ((rows.map (takeCols cols)).filter (LeafFit.complete F)).all (LeafFit.complete F) = true := by
      rw [List.all_eq_true]
      intro x hx
      exact (List.mem_filter.1 hx).2
    rw [h1]
    by_cases h2 : (rows.map (takeCols cols)).all (LeafFit.complete F) = true
    · rw [h2, List.filter_eq_self.2 (List.all_eq_true.1 h2)]
      simp
    · rw [Bool.not_eq_true] at h2
      rw [h2]
      simp
  unfold mle
  rw [hq]
  simp only [bind, Except.bind, key]

omit [NeZero F] in
theorem prepare_filter (l : List LeafFit.Row) : LeafFit.prepare true F C R l =
    if LeafFit.allNan F l then .error .valueError else .ok (LeafFit.rescale F C R (l.filter (LeafFit.complete F))) := by
  unfold LeafFit.prepare
  by_cases h1 : LeafFit.allNan F l = true
  · rw [if_pos h1, if_pos h1]
  · rw [if_neg h1, if_neg h1]
    by_cases h2 : l.all (LeafFit.complete F) = true
    · rw [if_pos h2, List.filter_eq_self.2 (List.all_eq_true.1 h2)]
    · rw [if_neg h2, if_pos rfl]

omit [NeZero F] in
theorem miMatrix_symm (α : ℝ) (K : ℕ) (l : WRows F) (i j : Fin F) : miMatrix α K l i j = miMatrix α K l j i := by
  unfold miMatrix
  rcases lt_trichotomy i j with h | h | h
  · rw [if_pos h, if_neg h.not_gt, if_pos h]
  · subst h; rfl
  · rw [if_neg h.not_gt, if_pos h, if_pos h]

theorem fitStructure_ok (query : Fin F → ℕ) {K : ℕ} (α : ℝ) {P : List LeafFit.Row} {w : List ℝ} (hw : w.length = P.length)
    (hP : ∀ row ∈ P, ∀ i : Fin F, row.val i ≠ none ∧ CLTree.validEntry K (row.val i)) :
    ∃ p, fitStructure query F K α P w = .ok p := by
  classical
  obtain ⟨p, hp, -⟩ := Mst.C26_prim (miMatrix_symm α K (((P.map (takeCols fun i => (refeed query i : ℕ))).map (toX (F := F))).zip w)) 0
  refine ⟨p, ?_⟩
  unfold fitStructure
  simp only [resolve_again, bind, Except.bind, throw, throwThe, MonadExceptOf.throw]
  rw [if_neg, if_neg, if_neg, hp]
  · rw [not_not]; exact hw
  · rw [not_not]
    intro row hrow i
    obtain ⟨row', hrow', rfl⟩ := List.mem_map.1 hrow
    rw [takeCols_val]
    exact (hP row' hrow' _).2
  · rintro ⟨row, hrow, i, hi⟩
    obtain ⟨row', hrow', rfl⟩ := List.mem_map.1 hrow
    rw [takeCols_val] at hi
    exact (hP row' hrow' _).1 hi

/-- Where the leaf's variables are: at their own numbers if the data have these columns, otherwise in the order of the scope
if the data have exactly as many columns as the scope has variables. -/
def Found (query : Fin F → ℕ) (D : ℕ) (cols : Fin F → ℕ) : Prop :=
  (∀ i, query i < D) ∧ cols = query ∨ (∃ i, D ≤ query i) ∧ D = F ∧ cols = fun i : Fin F => (i : ℕ)

omit [NeZero F] in
theorem resolve_iff (query : Fin F → ℕ) (D : ℕ) (cols : Fin F → ℕ) : resolve query D = .ok cols ↔ Found query D cols := by
  unfold resolve Found
  by_cases h : ∀ i, query i < D
  · rw [if_pos h]
    have h' : ¬ ∃ i, D ≤ query i := fun ⟨i, hi⟩ => absurd (h i) (not_lt.2 hi)
    simp only [h, implies_true, true_and, h', false_and, or_false]
    exact ⟨fun e => (Except.ok.inj e).symm, fun e => by rw [e]⟩
  · rw [if_neg h]
    have h' : ∃ i, D ≤ query i := by
      push Not at h
      exact h
    by_cases hD : D = F
    · rw [if_pos hD]
      constructor
      · exact fun e => Or.inr ⟨h', hD, (Except.ok.inj e).symm⟩
      · rintro (⟨h1, -⟩ | ⟨-, -, e⟩)
        · exact absurd h1 h
        · rw [e]
    · rw [if_neg hD]
      simp [h, hD]

/-- **Which data are accepted**: the variables can be found in the data, and there are two complete rows, all complete rows
having values in `{0, …, K-1}` (up to rounding errors). -/
theorem C57_accepts_iff (α : ℝ) (s : State F) : (∃ s', mle query D K C R α s rows = .ok s') ↔
    ∃ cols, Found query D cols ∧ 2 ≤ (rows.filter fun row => decide (∀ i, (row.val (cols i)).isSome)).length ∧
      ∀ row ∈ rows, (∀ i, (row.val (cols i)).isSome) → ∀ i, CLTree.validEntry K (row.val (cols i)) := by
  classical
  have hfil : ∀ cols : Fin F → ℕ, (rows.map (takeCols cols)).filter (LeafFit.complete F) =
      (rows.filter fun row => decide (∀ i, (row.val (cols i)).isSome)).map (takeCols cols) := by
    intro cols
    rw [List.filter_map]
    congr 2
    funext row
    rw [Bool.eq_iff_iff, decide_eq_true_iff]
    exact complete_takeCols cols row
  have hlen : ∀ cols : Fin F → ℕ, (LeafFit.rescale F C R ((rows.map (takeCols cols)).filter (LeafFit.complete F))).length =
      (rows.filter fun row => decide (∀ i, (row.val (cols i)).isSome)).length := by
    intro cols
    unfold LeafFit.rescale
    rw [List.length_map, hfil, List.length_map]
  have hval : ∀ cols : Fin F → ℕ, (∀ row ∈ LeafFit.rescale F C R ((rows.map (takeCols cols)).filter (LeafFit.complete F)),
        ∀ i : Fin F, CLTree.validEntry K (row.val i)) ↔
      ∀ row ∈ rows, (∀ i, (row.val (cols i)).isSome) → ∀ i, CLTree.validEntry K (row.val (cols i)) := by
    intro cols
    unfold LeafFit.rescale
    rw [hfil]
    constructor
    · intro h row hrow hs i
      have := h _ (List.mem_map_of_mem (List.mem_map_of_mem (f := takeCols cols)
        (List.mem_filter.2 ⟨hrow, decide_eq_true hs⟩))) i
      have h2 : CLTree.validEntry K ((takeCols cols row).val i) := this
      rwa [takeCols_val] at h2
    · intro h row hrow i
      obtain ⟨row1, hrow1, rfl⟩ := List.mem_map.1 hrow
      obtain ⟨row2, hrow2, rfl⟩ := List.mem_map.1 hrow1
      obtain ⟨g1, g2⟩ := List.mem_filter.1 hrow2
      show CLTree.validEntry K ((takeCols cols row2).val i)
      rw [takeCols_val]
      exact h row2 g1 (of_decide_eq_true g2) i
  cases hq : resolve query D with
  | error e =>
    constructor
    · rintro ⟨s', h⟩
      unfold mle at h
      rw [hq] at h
      cases h
    · rintro ⟨cols, hc, -⟩
      rw [← resolve_iff, hq] at hc
      cases hc
  | ok cols =>
    have huniq : ∀ cols', Found query D cols' → cols' = cols := by
      intro cols' h
      rw [← resolve_iff, hq] at h
      exact (Except.ok.inj h).symm
    constructor
    · rintro ⟨s', h⟩
      refine ⟨cols, (resolve_iff _ _ _).1 hq, ?_⟩
      unfold mle at h
      rw [hq] at h
      simp only [bind, Except.bind, pure, Except.pure, throw, throwThe, MonadExceptOf.throw, prepare_filter] at h
      by_cases h1 : LeafFit.allNan F (rows.map (takeCols cols)) = true
      · rw [if_pos h1] at h; cases h
      · rw [if_neg h1] at h
        simp only [] at h
        by_cases h2 : (LeafFit.rescale F C R ((rows.map (takeCols cols)).filter (LeafFit.complete F))).length < 2
        · rw [if_pos h2] at h; cases h
        · rw [if_neg h2] at h
          by_cases h3 : ¬ ∀ row ∈ LeafFit.rescale F C R ((rows.map (takeCols cols)).filter (LeafFit.complete F)),
              ∀ i : Fin F, CLTree.validEntry K (row.val i)
          · rw [if_pos h3] at h; cases h
          · rw [not_not] at h3
            exact ⟨by rw [hlen] at h2; omega, (hval cols).1 h3⟩
    · rintro ⟨cols', hc, h2, h3⟩
      have := huniq cols' hc
      subst this
      have h1 : ¬ LeafFit.allNan F (rows.map (takeCols cols')) = true := by
        intro ha
        cases hl : rows.filter fun row => decide (∀ i, (row.val (cols' i)).isSome) with
        | nil => rw [hl] at h2; simp at h2
        | cons row _ =>
          obtain ⟨g1, g2⟩ := List.mem_filter.1 (show row ∈ rows.filter _ by rw [hl]; exact List.mem_cons_self)
          unfold LeafFit.allNan at ha
          rw [List.all_eq_true] at ha
          have k1 := ha _ (List.mem_map_of_mem (f := takeCols cols') g1)
          rw [List.all_eq_true] at k1
          have k2 := k1 0 (List.mem_range.2 (Nat.pos_of_neZero F))
          have k3 := takeCols_val cols' row 0
          rw [Fin.val_zero] at k3
          rw [k3] at k2
          have k4 := of_decide_eq_true g2 0
          rw [Option.isNone_iff_eq_none.1 k2] at k4
          cases k4
      have h4 := (hval cols').2 h3
      have hsome : ∀ row ∈ LeafFit.rescale F C R ((rows.map (takeCols cols')).filter (LeafFit.complete F)),
          ∀ i : Fin F, row.val i ≠ none := by
        intro row hrow i
        unfold LeafFit.rescale at hrow
        rw [hfil] at hrow
        obtain ⟨row1, hrow1, rfl⟩ := List.mem_map.1 hrow
        obtain ⟨row2, hrow2, rfl⟩ := List.mem_map.1 hrow1
        obtain ⟨-, g2⟩ := List.mem_filter.1 hrow2
        show (takeCols cols' row2).val i ≠ none
        rw [takeCols_val]
        intro e
        have := of_decide_eq_true g2 i
        rw [e] at this
        cases this
      obtain ⟨p, hp⟩ := fitStructure_ok query α (K := K)
        (w := wScalar C R (LeafFit.rescale F C R ((rows.map (takeCols cols')).filter (LeafFit.complete F))))
        (P := LeafFit.rescale F C R ((rows.map (takeCols cols')).filter (LeafFit.complete F))) (by unfold wScalar; simp)
        fun row hrow i => ⟨hsome row hrow i, h4 row hrow i⟩
      unfold mle
      rw [hq]
      simp only [bind, Except.bind, pure, Except.pure, throw, throwThe, MonadExceptOf.throw, prepare_filter]
      rw [if_neg h1]
      simp only []
      rw [if_neg (by rw [hlen]; omega), if_neg (not_not.2 h4)]
      simp only [hp]
      split_ifs
      · exact ⟨_, rfl⟩
      · exact ⟨_, rfl⟩

end main

end Verif.CltFit

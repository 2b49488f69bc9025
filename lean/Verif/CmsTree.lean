import Verif.CmsProps
import Verif.CLTreeProps

/-!
# Property C64, Chow-Liu tree structure
-/

namespace Verif.Cms

open Verif Verif.CLTree Finset

variable {ps : List ℤ}

/-! ## Decoded tables -/

theorem sum_logSoftmax (K : ℕ) (hK : 1 ≤ K) (f : ℕ → ℝ) :
    ∑ v ∈ range K, expL (logSoftmax K (fun k => ((f k : ℝ) : LogV)) v) = 1 := by
  simp only [expL_logSoftmax_eq_softmax]
  exact sum_softmax ⟨0, by omega, WithBot.coe_ne_bot⟩

/-- Every column of a decoded table is a distribution over the child's values. -/
theorem decode_columns {K : ℕ} (hK : 1 ≤ K) {F : ℕ} (root i : Fin F) (out : ℕ → ℝ) (y : ℕ) :
    ∑ v ∈ range K, expL (decodeCpt K root out i v y) = 1 := by
  unfold decodeCpt
  split
  · exact sum_logSoftmax K hK out
  · exact sum_logSoftmax K hK fun k => out (K + (i * (K * K) + k * K + y))

/-! ## The compiled likelihood -/

theorem jointMix_eq {F : ℕ} (hF : 1 ≤ F) {ws : List ℝ} (hw : ∀ w ∈ ws, 0 < w) (hs : ws.sum = 1) (lls : ℕ → LogV) :
    expL (jointMix F ws lls) = ∑ i ∈ range ws.length, ws.getD i 0 * expL (lls i) := by
  have hne : ws ≠ [] := by rintro rfl; simp at hs
  have hpos : ∀ i < ws.length, 0 < ws.getD i 0 := fun i hi => by
    rw [List.getD_eq_getElem _ _ hi]; exact hw _ (List.getElem_mem _)
  have hsum : ∑ i ∈ range ws.length, ws.getD i 0 = 1 := by rw [Build.sum_getD, hs]
  have hsm : ∀ i < ws.length, expL (logSoftmax ws.length (fun i => logL (ws.getD i 0)) i) = ws.getD i 0 := by
    intro i hi
    rw [expL_logSoftmax, sum_congr rfl fun j hj => expL_logL (hpos j (mem_range.1 hj)).le, hsum, div_one,
      expL_logL (hpos i hi).le]
  have hterm : ∀ f, expL (lse ws.length fun i => logSoftmax ws.length (fun i => logL (ws.getD i 0)) i +
      (if f = 0 then lls i else 0)) = ∑ i ∈ range ws.length, ws.getD i 0 * expL (if f = 0 then lls i else 0) := by
    intro f
    rw [expL_lse]
    refine sum_congr rfl fun i hi => ?_
    rw [expL_add, hsm i (mem_range.1 hi)]
  unfold jointMix
  rw [expL_sum, prod_congr rfl fun f _ => hterm f]
  obtain ⟨n, rfl⟩ : ∃ n, F = n + 1 := ⟨F - 1, by omega⟩
  rw [prod_range_succ']
  have : ∀ f ∈ range n, ∑ i ∈ range ws.length, ws.getD i 0 * expL (if f + 1 = 0 then lls i else 0) = 1 := by
    intro f _
    simp only [Nat.add_eq_zero_iff, one_ne_zero, and_false, if_false, expL_zero, mul_one]
    exact hsum
  rw [prod_congr rfl this]
  simp

theorem getD_map' {α β : Type} (l : List α) (f : α → β) {i : ℕ} (hi : i < l.length) (d : β) (d' : α) :
    (l.map f).getD i d = f (l.getD i d') := by
  rw [List.getD_eq_getElem _ _ (by simpa using hi), List.getD_eq_getElem _ _ hi, List.getElem_map]

theorem cltTrain_eq (ht : IsTree ps) {root : Fin ps.length} (hr : roots ps = [root]) (cpt : Fin ps.length → ℕ → ℕ → LogV)
    (x : Fin ps.length → ℕ) : cltTrain (par ps) root cpt x = fastRow (par ps) cpt x := by
  have hroot := roots_eq_singleton_iff.1 hr
  unfold cltTrain fastRow
  rw [← add_sum_erase univ _ (mem_univ root), ← add_sum_erase univ (fun i => cpt i (x i) _) (mem_univ root)]
  have hp : par ps root = none := par_root hroot.1
  simp only [hp, zero_add]
  congr 1
  refine sum_congr rfl fun i hi => ?_
  have hne := ne_of_mem_erase hi
  cases h : par ps i with
  | some p => rfl
  | none =>
    exfalso
    rcases ht.1.2 i with h' | h'
    · exact hne (hroot.2 i h')
    · have : par ps i = some ⟨ps[i].toNat, by omega⟩ := par_eq_some.2 (Int.toNat_of_nonneg h'.1).symm
      rw [h] at this; cases this

/-- The mixture of trees: the weighted sum over components of the probability of all completions of the row. -/
noncomputable def treeMixture (ps : List ℤ) (K : ℕ) (ws : List ℝ) (cpts : List (Fin ps.length → ℕ → ℕ → LogV))
    (o : Fin ps.length → Option ℕ) : ℝ :=
  ∑ i ∈ range ws.length, ws.getD i 0 * ∑ x ∈ completions K o, joint ps (cpts.getD i fun _ _ _ => ⊥) x

/-- **C64, tree structure, likelihood.** -/
theorem C64_cltree_likelihood (hne : ps ≠ []) (ht : IsTree ps) (K : ℕ) {ws : List ℝ}
    {cpts : List (Fin ps.length → ℕ → ℕ → LogV)} (hlen : ws.length = cpts.length) (hw : ∀ w ∈ ws, 0 < w)
    (hs : ws.sum = 1) (rows : List (Fin ps.length → Option ℕ)) (hrows : ∀ o ∈ rows, RowOk K o) :
    cltCompiled ps K ws cpts (rows.map toData) = .ok (rows.map fun o => logL (treeMixture ps K ws cpts o)) := by
  unfold cltCompiled
  rw [mapM_map (g := fun cpt => rows.map fun o => logL (∑ x ∈ completions K o, joint ps cpt x)) cpts
    fun cpt _ => C23_log_likelihood hne ht K cpt rows hrows]
  simp only [bind, Except.bind, pure, Except.pure]
  congr 1
  apply List.ext_getElem
  · simp
  intro b h1 h2
  have hb : b < rows.length := by simpa using h2
  simp only [List.getElem_map, List.getElem_range]
  apply expL_injective
  rw [jointMix_eq (List.length_pos_of_ne_nil hne) hw hs, expL_logL]
  · refine sum_congr rfl fun i hi => ?_
    have hi' : i < cpts.length := by rw [← hlen]; exact mem_range.1 hi
    rw [getD_map' cpts _ hi' _ (fun _ _ _ => ⊥), List.getD_eq_getElem (rows.map _) _ (by simpa using hb),
      List.getElem_map, expL_logL (sum_nonneg fun x _ => joint_nonneg ps _ x)]
  · refine sum_nonneg fun i hi => mul_nonneg ?_ (sum_nonneg fun x _ => joint_nonneg ps _ x)
    rw [List.getD_eq_getElem _ _ (mem_range.1 hi)]
    exact (hw _ (List.getElem_mem _)).le

/-- **C64, tree structure, normalisation.** The compiled mixture of decoded trees sums to one over all rows. -/
theorem C64_cltree_normalised (hne : ps ≠ []) (ht : IsTree ps) {K : ℕ} (hK : 1 ≤ K) {root : Fin ps.length}
    {outs : List (ℕ → ℝ)} {ws : List ℝ} (hlen : ws.length = outs.length) (hs : ws.sum = 1) :
    ∑ x ∈ Fintype.piFinset (fun _ : Fin ps.length => range K),
      treeMixture ps K ws (outs.map (decodeCpt K root)) (fun i => some (x i)) = 1 := by
  unfold treeMixture
  rw [sum_comm]
  have : ∀ i ∈ range ws.length, ∑ x ∈ Fintype.piFinset (fun _ : Fin ps.length => range K),
      ws.getD i 0 * ∑ z ∈ completions K (fun j => some (x j)),
        joint ps ((outs.map (decodeCpt K root)).getD i fun _ _ _ => ⊥) z = ws.getD i 0 := by
    intro i hi
    have hi' : i < outs.length := by rw [← hlen]; exact mem_range.1 hi
    rw [← mul_sum, List.getD_eq_getElem (outs.map _) _ (by simpa using hi'), List.getElem_map]
    have e : ∀ x ∈ Fintype.piFinset (fun _ : Fin ps.length => range K),
        ∑ z ∈ completions K (fun j => some (x j)), joint ps (decodeCpt K root outs[i]) z =
          joint ps (decodeCpt K root outs[i]) x := by
      intro x hx
      rw [completions_complete fun j => mem_range.1 (Fintype.mem_piFinset.1 hx j), sum_singleton]
    rw [sum_congr rfl e, C23_normalised hne ht (fun j _ _ y _ => decode_columns hK root j _ y)
      (fun j _ => decode_columns hK root j _ 0), mul_one]
  rw [sum_congr rfl this, Build.sum_getD, hs]

/-- **C64, tree structure, objective.** On every complete batch that passes the learner's checks (integers up to rounding
tolerance) the compiled module returns exactly the objective of training. -/
theorem C64_cltree_is_objective (hne : ps ≠ []) (ht : IsTree ps) {root : Fin ps.length} (hr : roots ps = [root]) (K : ℕ)
    {outs : List (ℕ → ℝ)} {ws : List ℝ} (hlen : ws.length = outs.length) (hw : ∀ w ∈ ws, (1e-30 : ℝ) ≤ w)
    (hs : ws.sum = 1) (rows : List (Fin ps.length → ℝ)) (hrows : ∀ x ∈ rows, ∀ i, validEntry K (some (x i))) :
    cltCompiled ps K ws (outs.map (decodeCpt K root)) (rows.map fun x i => some (x i)) =
      .ok (rows.map fun x => mixtureLL' ws fun i =>
        cltTrain (par ps) root (decodeCpt K root (outs.getD i fun _ => 0)) fun j => ⌊x j⌋₊) := by
  obtain ⟨r, post, hr', ho, hc, hmem⟩ := tree_chain hne ht
  have hpos : ∀ w ∈ ws, 0 < w := fun w h => lt_of_lt_of_le (by norm_num) (hw w h)
  have hll : ∀ cpt : Fin ps.length → ℕ → ℕ → LogV, logLikelihood ps K cpt (rows.map fun x i => some (x i)) =
      .ok (rows.map fun x => fastRow (par ps) cpt fun j => ⌊x j⌋₊) := by
    intro cpt
    unfold logLikelihood
    rw [if_neg, if_neg (by rw [tree_hasStructure ht]; simp), ho, hr]
    · simp only
      rw [if_pos]
      · rw [List.map_map]; rfl
      · intro row hrow i
        obtain ⟨x, _, rfl⟩ := List.mem_map.1 hrow
        simp
    · rw [not_not]
      intro row hrow i
      obtain ⟨x, hx, rfl⟩ := List.mem_map.1 hrow
      exact hrows x hx i
  unfold cltCompiled
  rw [mapM_map (g := fun cpt => rows.map fun x => fastRow (par ps) cpt fun j => ⌊x j⌋₊) _ fun cpt _ => hll cpt]
  simp only [bind, Except.bind, pure, Except.pure]
  congr 1
  apply List.ext_getElem
  · simp
  intro b h1 h2
  have hb : b < rows.length := by simpa using h2
  simp only [List.getElem_map, List.getElem_range]
  apply expL_injective
  rw [jointMix_eq (List.length_pos_of_ne_nil hne) hpos hs]
  unfold mixtureLL'
  rw [expL_lse]
  refine sum_congr rfl fun i hi => ?_
  have hi0 := mem_range.1 hi
  have hi' : i < outs.length := by rw [← hlen]; exact hi0
  have hwi : (1e-30 : ℝ) ≤ ws.getD i 0 := by rw [List.getD_eq_getElem _ _ hi0]; exact hw _ (List.getElem_mem _)
  rw [List.map_map, getD_map' outs _ hi' _ (fun _ => 0), Function.comp, List.getD_eq_getElem (rows.map _) _ (by simpa using hb),
    List.getElem_map, expL_add, max_eq_left hwi, expL_logL (le_trans (by norm_num) hwi)]
  beta_reduce
  rw [cltTrain_eq ht hr]

/-! ## Sampling -/

theorem E_sampleRow (hne : ps ≠ []) (ht : IsTree ps) {pre post : List (Fin ps.length)}
    {root : Fin ps.length} (ho : computeOrders ps = .ok (pre, post)) (hr : roots ps = [root]) {K : ℕ}
    {obs : Fin ps.length → Option ℕ} (hobs : RowOk K obs) (cpt : Fin ps.length → ℕ → ℕ → LogV)
    (hpos : ∑ y ∈ completions K obs, joint ps cpt y ≠ 0) (h : (Fin ps.length → ℕ) → ENNReal) :
    (sampleRow (par ps) cpt K pre post root obs).E h = ∑ x ∈ completions K obs,
      ENNReal.ofReal (joint ps cpt x / ∑ y ∈ completions K obs, joint ps cpt y) * h x := by
  obtain ⟨r, post', hr', ho', hc, hmem⟩ := tree_chain hne ht
  rw [ho] at ho'
  simp only [Except.ok.injEq, Prod.mk.injEq] at ho'
  obtain ⟨rfl, rfl⟩ := ho'
  rw [hr] at hr'
  simp only [List.cons.injEq, and_true] at hr'
  subst hr'
  have hZ : Z (par ps) cpt K obs post up0.cs = ∑ y ∈ completions K obs, joint ps cpt y := by
    unfold Z
    rw [dom_full hobs hmem]
    exact Finset.sum_congr rfl fun y _ => expL_obj_full hmem y
  have hs : sampleRow (par ps) cpt K post.reverse post root obs =
      sampler (par ps) cpt K obs root (post.foldl (upStep (par ps) cpt (pickSum K) obs) up0) post.reverse := by
    unfold sampleRow sampler up
    rcases obs root with _ | v <;> rfl
  rw [hs, E_sampler hc _ _ (by rw [hZ]; exact hpos), hZ, dom_full hobs hmem]
  refine sum_congr rfl fun x _ => ?_
  rw [← expL_obj_full hmem x]; rfl

theorem softmax_one (l : ℕ → LogV) (h : l 0 ≠ ⊥) : softmax 1 l 0 = 1 := by
  have := sum_softmax (n := 1) ⟨0, Nat.zero_lt_one, h⟩
  simpa using this

theorem draw_one {F : ℕ} (logw : ℕ → LogV) (h0 : logw 0 ≠ ⊥) (l : List (Fin F)) (h : (Fin F → ℕ) → ENNReal) :
    ∀ g : Fin F → ℕ, (∀ f, g f = 0) → (drawComponents 1 logw l g).E h = h fun _ => 0 := by
  induction l with
  | nil =>
    intro g hg
    rw [show g = fun _ => 0 from funext hg]; rfl
  | cons a l ih =>
    intro g hg
    simp only [drawComponents, Prog.E, sum_range_one]
    rw [softmax_one _ h0, ih (Function.update g a 0)]
    · simp
    · intro f
      by_cases hfa : f = a
      · subst hfa; simp
      · simp [hfa, hg]

/-- **C64, tree structure, sampling with one integration point.** Then the compiled module samples every completion of the
evidence with its conditional probability.  With more points it does not, see `C64_cltree_sampling_wrong`. -/
theorem C64_cltree_sample_partial (hne : ps ≠ []) (ht : IsTree ps) {pre post : List (Fin ps.length)}
    {root : Fin ps.length} (ho : computeOrders ps = .ok (pre, post)) (hr : roots ps = [root]) {K : ℕ}
    {o : Fin ps.length → Option ℕ} (hobs : RowOk K o) {w : ℝ} (hw : 0 < w) (cpts : ℕ → Fin ps.length → ℕ → ℕ → LogV)
    (hpos : ∑ y ∈ completions K o, joint ps (cpts 0) y ≠ 0) {x : Fin ps.length → ℕ} (hx : x ∈ completions K o) :
    (cltSample ps K [w] cpts pre post root o).prob (fun i => some (x i)) =
      ENNReal.ofReal (joint ps (cpts 0) x / ∑ y ∈ completions K o, joint ps (cpts 0) y) := by
  classical
  have hx' := hx
  simp only [completions, mem_filter, Fintype.mem_piFinset, mem_range] at hx'
  unfold cltSample Prog.prob
  rw [Prog.E_bind]
  simp only [List.length_singleton]
  rw [draw_one _ (by
    rw [← expL_pos_iff]; simp only [List.getD_cons_zero]; rw [expL_logL hw.le]; exact hw) _ _ _ fun _ => rfl]
  rw [show List.range 1 = [0] from rfl]
  simp only [runTrees, true_and]
  split
  · rename_i hex
    rw [Prog.E_bind, E_sampleRow hne ht ho hr hobs (cpts 0) hpos]
    rw [sum_eq_single x]
    · simp only [Prog.E]
      rw [if_pos, mul_one]
      funext f
      split
      · rfl
      · rename_i hf
        obtain ⟨v, hv⟩ := Option.ne_none_iff_exists'.1 hf
        rw [hv, hx'.2 f v hv]
    · intro y hy hyx
      simp only [Prog.E]
      rw [if_neg, mul_zero]
      intro he
      apply hyx
      simp only [completions, mem_filter, Fintype.mem_piFinset, mem_range] at hy
      funext f
      have := congrFun he f
      split at this
      · injection this
      · rename_i hf
        rw [this] at hf
        rw [hy.2 f (x f) this]
    · intro h; exact absurd hx h
  · rename_i hall
    have hsome : o = fun i => some (x i) := by
      funext i
      obtain ⟨v, hv⟩ := Option.ne_none_iff_exists'.1 (fun h => hall ⟨i, h⟩)
      rw [hv, hx'.2 i v hv]
    simp only [Prog.E]
    rw [if_pos hsome]
    have hc : completions K o = {x} := by
      rw [hsome]; exact completions_complete hx'.1
    rw [hc, sum_singleton] at hpos ⊢
    rw [div_self hpos, ENNReal.ofReal_one]

end Verif.Cms

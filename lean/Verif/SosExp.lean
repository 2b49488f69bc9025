import Verif.SosMain

/-!
# `ExpSOSModel`
-/

open Verif.Inner

namespace Verif
namespace Sos

open Tree

theorem monoCfg_leafOk {a : Args} {K : Option ℕ} (h : a.Valid K) (mi ms : ℤ) : (a.monoCfg mi ms K).LeafOk := by
  have hl := h.layer
  simp only [List.mem_cons, List.not_mem_nil, or_false] at hl
  rcases hl with e | e | e
  · obtain ⟨_, k, _, _, rfl⟩ := h.categories e
    exact Or.inr ⟨k, rfl, fun h => by cases h⟩
  · obtain ⟨_, k, _, _, rfl⟩ := h.states e
    exact Or.inr ⟨k, rfl, fun h => by cases h⟩
  · exact Or.inl e

theorem expComps_ok {cfg : Cfg} {d : ℕ → Draws} {complex : Bool} {t : Tree} {cs : List IC}
    (h : expComps cfg d complex t = .ok cs) :
    cs.length = perSquare complex ∧ ∀ c ∈ cs, ∃ j, 0 < j ∧ component cfg (d j) true t = .ok c := by
  unfold expComps at h
  unfold perSquare
  split_ifs at h ⊢ with hc
  · split at h
    · cases h
    · rename_i re hre
      split at h
      · cases h
      · rename_i im him
        cases h
        refine ⟨rfl, fun c hc => ?_⟩
        simp only [List.mem_cons, List.not_mem_nil, or_false] at hc
        rcases hc with rfl | rfl
        exacts [⟨1, by omega, hre⟩, ⟨2, by omega, him⟩]
  · split at h
    · cases h
    · rename_i c' hre
      cases h
      refine ⟨rfl, fun c hc => ?_⟩
      simp only [List.mem_cons, List.not_mem_nil, or_false] at hc
      exact ⟨1, by omega, hc ▸ hre⟩

theorem expComps_iff {cfg : Cfg} (d : ℕ → Draws) (complex : Bool) {t : Tree} {P : Prop}
    (h : ∀ j, (∃ c, component cfg (d j) true t = .ok c) ↔ P) : (∃ cs, expComps cfg d complex t = .ok cs) ↔ P := by
  constructor
  · rintro ⟨cs, hcs⟩
    obtain ⟨e1, e2⟩ := expComps_ok hcs
    have : 0 < cs.length := by rw [e1]; unfold perSquare; split_ifs <;> omega
    obtain ⟨j, -, hj⟩ := e2 _ (List.getElem_mem this)
    exact (h j).1 ⟨_, hj⟩
  · intro hP
    have hk := fun j => (h j).2 hP
    choose k hk using hk
    unfold expComps
    split_ifs
    · simp only [hk]; exact ⟨_, rfl⟩
    · simp only [hk]; exact ⟨_, rfl⟩

theorem exp_inv {a : Args} {mi ms : ℤ} {rng : ℤ → List ℕ → List ℕ} {d : ℕ → Draws} {e : Exp}
    (h : expSosModel a mi ms rng d = .ok e) : 0 < mi ∧ 0 < ms ∧ ∃ K, a.Valid K ∧ ∃ t m cs, a.tree rng 0 = .ok t ∧
      component (a.monoCfg mi ms K) (d 0) true t = .ok m ∧ expComps (a.cfg K) d a.complex t = .ok cs ∧
      mkExp m cs = .ok e := by
  unfold expSosModel at h
  split at h
  · cases h
  rename_i hv
  split_ifs at h with h1 h2
  split at h
  · cases h
  rename_i K hK
  split at h
  · cases h
  rename_i t ht
  split at h
  · cases h
  rename_i m hm
  split at h
  · cases h
  rename_i cs hcs
  obtain ⟨v1, v2, v3, v4, v5⟩ := (validate_ok ..).1 hv
  obtain ⟨w1, w2, w3⟩ := (resolve_ok a K v4).1 hK
  exact ⟨by omega, by omega, K, ⟨v1, v2, v3, v4, v5, w1, w2, w3⟩, t, m, cs, ht, hm, hcs, h⟩

theorem mono_props {a : Args} {K : Option ℕ} (h : a.Valid K) {rng : ℤ → List ℕ → List ℕ}
    (hs : ∀ s l, (rng s l).Perm l) {d : Draws} {force : Bool} {i : ℕ} {t : Tree} {c : IC} {mi ms : ℤ}
    (ht : a.tree rng i = .ok t) (hc : component (a.monoCfg mi ms K) d force t = .ok c) :
    Wf c ∧ Sorted c ∧ c.vars = allVars a.n.toNat ∧ (c.F, c.C, c.R) = (1, 1, 1) := by
  obtain ⟨t1, t2, t3⟩ := h.tree_ok hs ht
  have hl := monoCfg_leafOk h mi ms
  obtain ⟨e1, e2, e3⟩ := (C78_component d force hl t1).2.2 c hc
  obtain ⟨root, hr, rfl⟩ := component_inst hl t1 hc
  exact ⟨e1, scalar_sorted (inst_sorted hl t1 t3 hr), e2.trans (vars_all t2), e3⟩

/-- **C78 (constructor of `ExpSOSModel`).** The call succeeds exactly for the documented arguments and only if, for both the
signed and the monotone circuit, input and sum layers have equally many units, or the region tree has no node with both a
leaf and an inner child. -/
theorem C78_exp_constructor (a : Args) (mi ms : ℤ) {rng : ℤ → List ℕ → List ℕ} (hs : ∀ s l, (rng s l).Perm l)
    (d : ℕ → Draws) :
    (∃ e, expSosModel a mi ms rng d = .ok e) ↔ 0 < mi ∧ 0 < ms ∧ (∃ K, a.Valid K ∧ a.LeafOk K) ∧ a.RegionOk ∧
      (a.inputUnits = a.sumUnits ∧ mi = ms ∨ ∀ t, a.tree rng 0 = .ok t → ¬ t.Mixed) := by
  have hmono : ∀ {K t}, a.Valid K → t.Ok → 0 < mi → 0 < ms →
      ((∃ c, component (a.monoCfg mi ms K) (d 0) true t = .ok c) ↔ mi = ms ∨ ¬ t.Mixed) := by
    intro K t hv ht h1 h2
    rw [(C78_component (d 0) true (monoCfg_leafOk hv mi ms) ht).1]
    simp only [Args.monoCfg]
    rw [show mi.toNat = ms.toNat ↔ mi = ms by omega]
  constructor
  · rintro ⟨e, h⟩
    obtain ⟨h1, h2, K, hv, t, m, cs, ht, hm, hcs, hmk⟩ := exp_inv h
    have hok := (hv.tree_ok hs ht).1
    obtain ⟨e1, e2⟩ := expComps_ok hcs
    have : 0 < cs.length := by rw [e1]; unfold perSquare; split_ifs <;> omega
    obtain ⟨j, -, hj⟩ := e2 _ (List.getElem_mem this)
    obtain ⟨q1, q2⟩ := (component_iff hv (d j) true hok).1 ⟨_, hj⟩
    have q3 := (hmono hv hok h1 h2).1 ⟨_, hm⟩
    refine ⟨h1, h2, ⟨K, hv, q1⟩, (hv.tree_iff rng 0).1 ⟨t, ht⟩, ?_⟩
    by_cases hmx : t.Mixed
    · exact Or.inl ⟨q2.resolve_right fun h => h hmx, q3.resolve_right fun h => h hmx⟩
    · refine Or.inr fun t' ht' => ?_
      rw [ht] at ht'
      cases ht'
      exact hmx
  · rintro ⟨h1, h2, ⟨K, hv, hl⟩, hr, hf⟩
    obtain ⟨t, ht⟩ := (hv.tree_iff rng 0).2 hr
    have hok := (hv.tree_ok hs ht).1
    have f1 : a.inputUnits = a.sumUnits ∨ ¬ t.Mixed := by
      rcases hf with hf | hf
      exacts [Or.inl hf.1, Or.inr (hf t ht)]
    have f2 : mi = ms ∨ ¬ t.Mixed := by
      rcases hf with hf | hf
      exacts [Or.inl hf.2, Or.inr (hf t ht)]
    obtain ⟨m, hm⟩ := (hmono hv hok h1 h2).2 f2
    obtain ⟨cs, hcs⟩ := (expComps_iff d a.complex fun j => component_iff hv (d j) true hok).2 ⟨hl, f1⟩
    have hmk : mkExp m cs = .ok ⟨m, cs⟩ := by
      obtain ⟨e1, e2⟩ := expComps_ok hcs
      have pm := mono_props hv hs ht hm
      refine (C77_constructor _ _ _).2 ⟨rfl, ?_, pm.2.2.2, fun c hc => ?_⟩
      · rintro rfl
        simp only [List.length_nil, perSquare] at e1
        split_ifs at e1
      · obtain ⟨j, -, hj⟩ := e2 c hc
        have pc := component_props hv hs ht hj
        exact ⟨pc.2.2.2, pc.2.2.1.trans pm.2.2.1.symm⟩
    refine ⟨⟨m, cs⟩, ?_⟩
    unfold expSosModel
    rw [(validate_ok ..).2 ⟨hv.vars, hv.inputs, hv.sums, hv.layer, hv.image⟩]
    simp only
    rw [if_neg (by omega), if_neg (by omega)]
    simp only [(resolve_ok a K hv.layer).2 ⟨hv.categories, hv.states, hv.none⟩, ht, hm, hcs]
    exact hmk

theorem cell_kind {cfg cfg' : Cfg} {d d' : Draws} (h1 : cfg.layer = cfg'.layer) (h2 : cfg.states = cfg'.states)
    (v i j : ℕ) : kind (cell cfg d v i) ≠ none ∧ kind (cell cfg d v i) = kind (cell cfg' d' v j) := by
  unfold cell
  rw [h1, h2]
  split_ifs <;> simp [kind]

/-- **C78 (ExpSOSModel is a density).** Whatever the shuffles and the parameters with standard deviations of at least
`1e-30` and a monotone circuit with non-negative tables and weights: unless the partition function is below `1e-30`, the
log-likelihood of complete rows is the logarithm of the normalised product of the monotone circuit and the sum of squares,
a density over the variables `0 … n-1`. -/
theorem C78_exp_normalised {a : Args} {mi ms : ℤ} {rng : ℤ → List ℕ → List ℕ} (hs : ∀ s l, (rng s l).Perm l)
    {d : ℕ → Draws} {e : Exp} (h : expSosModel a mi ms rng d = .ok e)
    (hσ : a.layer = "gaussian" → ∀ j v ch, 10 ^ (-30 : ℤ) ≤ (d j).scale v ch)
    (hp : ∀ v ch k, 0 ≤ (d 0).probs v ch k) (hw : ∀ s i o, 0 ≤ (d 0).weight s i o) (hr : ∀ i, 0 ≤ (d 0).rootWeight i)
    (hz : 10 ^ (-30 : ℤ) ≤ expZ a.disc e.mono e.comps) :
    e.comps.length = (if a.complex = true then 2 else 1) ∧ e.mono.vars = allVars a.n.toNat ∧
      (∀ x : Var → ℝ, ∃ l, e.logLik (fun v => some (x v)) = .ok l ∧ expL l = expDensity a.disc e.mono e.comps x) ∧
      (∀ x, 0 ≤ expDensity a.disc e.mono e.comps x) ∧
      IntegrableOver (refMeasure a.disc) (allVars a.n.toNat) (expDensity a.disc e.mono e.comps) ∧
      intOn (refMeasure a.disc) (allVars a.n.toNat) (expDensity a.disc e.mono e.comps) = 1 := by
  obtain ⟨h1, h2, K, hv, t, m, cs, ht, hm, hcs, hmk⟩ := exp_inv h
  obtain ⟨rfl, -⟩ := (C77_constructor _ _ _).1 hmk
  obtain ⟨t1, t2, t3⟩ := hv.tree_ok hs ht
  obtain ⟨e1, e2⟩ := expComps_ok hcs
  have pm := mono_props hv hs ht hm
  have hml := monoCfg_leafOk hv mi ms
  obtain ⟨mroot, hmr, rfl⟩ := component_inst hml t1 hm
  have bm := built hml t1 hmr
  have hcat : ∀ (K : ℕ) (w : ℕ → ℝ), (∀ k, 0 ≤ w k) → ∀ t, 0 ≤ dens (.cat K w) t := by
    intro K w hw t
    simp only [dens]
    split_ifs
    · exact hw _
    · exact le_rfl
  have hmono : Monotone (scalar (a.monoCfg mi ms K) (d 0) true mroot) := by
    refine scalar_monotone (inst_monotone hml ?_ ?_ t1 hmr) ?_
    · intro v ch _ t
      unfold cell
      split_ifs with g1 g2
      · have := tiny_pos.trans_le (hσ g1 0 v ch)
        simp only [dens]
        positivity
      · exact absurd g2.1 (by simp [Args.monoCfg])
      · exact hcat _ _ (hp v ch) t
    · intro s i o
      simpa [Args.monoCfg] using hw s i o
    · intro i
      simpa [Args.monoCfg] using hr i
  have key := C77_normalised a.disc hmk pm.1 pm.2.1
    (scalar_leaves (inst_leaves hml (fun v ch _ => cell_admissible3 rfl fun hg => hσ hg 0 v ch) t1 hmr)) hmono
    (fun c hc => by
      obtain ⟨j, -, hj⟩ := e2 c hc
      have pc := component_props hv hs ht hj
      have hlf : (a.cfg K).LeafOk := hv.leafOk_iff.2 ((component_iff hv (d j) true t1).1 ⟨c, hj⟩).1
      obtain ⟨root, hr, rfl⟩ := component_inst hlf t1 hj
      exact ⟨pc.1, pc.2.1,
        scalar_leaves (inst_leaves hlf (fun v ch _ => cell_admissible3 rfl fun hg => hσ hg j v ch) t1 hr)⟩)
    (fun c hc => by
      obtain ⟨j, -, hj⟩ := e2 c hc
      have hlf : (a.cfg K).LeafOk := hv.leafOk_iff.2 ((component_iff hv (d j) true t1).1 ⟨c, hj⟩).1
      obtain ⟨root, hr, rfl⟩ := component_inst hlf t1 hj
      have br := built hlf t1 hr
      have hal : Alike root root mroot := inst_alike hlf hlf hml (fun v i j' l =>
        ⟨(cell_kind rfl rfl v i j' (d' := d j)).1, (cell_kind rfl rfl v i j').2, (cell_kind (cfg := a.cfg K) (cfg' := a.monoCfg mi ms K) rfl rfl v i l).2⟩) t1 hr hr hmr
      exact scalar_alike hal (hal.shape br.wf br.wf bm.wf).2.1 ⟨br.reps, br.reps, bm.reps⟩) hz
  have hVe : (scalar (a.monoCfg mi ms K) (d 0) true mroot).vars = allVars a.n.toNat := pm.2.2.1
  refine ⟨e1, hVe, key.1, key.2.1, ?_, ?_⟩
  · exact hVe ▸ key.2.2.1
  · exact hVe ▸ key.2.2.2

/-- **C78 (structured decomposability).** With `structured_decomposable=True` all squares of an `SOSModel` share one region
tree; they also do without it if the region graph does not depend on the seed (linear order, quadtrees). -/
theorem C78_structured {a : Args} {rng : ℤ → List ℕ → List ℕ}
    (h : a.structured = true ∨ a.region ∈ ["lt", "qt", "qt-2", "qt-4"]) (i j : ℕ) : a.tree rng i = a.tree rng j := by
  unfold Args.tree
  rcases h with h | h
  · simp only [structureSeed, h, if_true]
  · simp only [List.mem_cons, List.not_mem_nil, or_false] at h
    unfold buildTree
    rcases h with h | h | h | h <;> simp [h]

/-- Without `structured_decomposable` the squares use the seeds `seed + 123 i`, hence different generators: the trees of
different squares need not agree. -/
theorem C78_seeds (base : ℤ) (i j : ℕ) : structureSeed base i false = structureSeed base j false ↔ i = j := by
  simp only [structureSeed, Bool.false_eq_true, if_false]
  omega

/-- **C78 (leaf families of `ExpSOSModel`).** The leaves of the squared circuits are of the family asked for; those of the
monotone circuit are Normal leaves or probability tables, never signed tables. -/
theorem C78_exp_leaf_kinds {a : Args} {mi ms : ℤ} {rng : ℤ → List ℕ → List ℕ} (hs : ∀ s l, (rng s l).Perm l)
    {d : ℕ → Draws} {e : Exp} (h : expSosModel a mi ms rng d = .ok e) :
    (∀ c ∈ e.comps, Inner.Leaves (fun _ par => LeafKind a par) c) ∧
      Inner.Leaves (fun _ par => LeafKind { a with nonMonoInputs := some false } par) e.mono := by
  obtain ⟨h1, h2, K, hv, t, m, cs, ht, hm, hcs, hmk⟩ := exp_inv h
  obtain ⟨rfl, -⟩ := (C77_constructor _ _ _).1 hmk
  obtain ⟨t1, t2, t3⟩ := hv.tree_ok hs ht
  obtain ⟨e1, e2⟩ := expComps_ok hcs
  constructor
  · intro c hc
    obtain ⟨j, -, hj⟩ := e2 c hc
    have hlf : (a.cfg K).LeafOk := hv.leafOk_iff.2 ((component_iff hv (d j) true t1).1 ⟨c, hj⟩).1
    obtain ⟨root, hr, rfl⟩ := component_inst hlf t1 hj
    exact scalar_leaves (inst_leaves hlf (fun v ch _ => cell_leafKind hv _ v ch) t1 hr)
  · obtain ⟨root, hr, rfl⟩ := component_inst (monoCfg_leafOk hv mi ms) t1 hm
    refine scalar_leaves (inst_leaves (monoCfg_leafOk hv mi ms) (fun v ch _ => ?_) t1 hr)
    have hl' := hv.layer
    simp only [List.mem_cons, List.not_mem_nil, or_false] at hl'
    rcases hl' with hg | hg | hg
    · obtain ⟨kw, k, h1, h2, h3⟩ := hv.categories hg
      subst h3
      simp [cell, Args.monoCfg, hg, LeafKind, h1, h2]
    · obtain ⟨kw, k, h1, h2, h3⟩ := hv.states hg
      subst h3
      simp [cell, Args.monoCfg, hg, LeafKind, h1, h2]
    · simp [cell, Args.monoCfg, hg, LeafKind]

end Sos
end Verif

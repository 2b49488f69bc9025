import Verif.QpcLevel
/-
C82: the mixing layer of one height.
-/
namespace Verif.Qpc
open Finset Graph

/-- The mixing weights of unit `k` of fold `f`. -/
noncomputable def mixW (θ : Params) (nm : ℕ) (l : MLayer) (f k j : ℕ) : ℝ :=
  maskedSoftmax l.arity (fun h => θ.mix nm f h k) (maskRow l.mask f) j

/-- The regions of a list with several partitions. -/
def several (g : RG) (regs : List ℕ) : List ℕ := regs.filter fun r => decide (1 < (g.parts r).length)

theorem mixLevel_none {g : RG} {out : ℕ} {regs : List ℕ} {st : St} (h : several g regs = []) :
    mixLevel g out regs st = .ok st := by
  unfold mixLevel several at *
  rw [h]
  rfl

theorem mixLevel_ok {g : RG} {ρ : Rule} {θ : Params} {out : ℕ} {st : St} {regs : List ℕ} (hn : regs.Nodup)
    (hne : several g regs ≠ []) (hcur : st.counts.getD st.cur 0 = (lparts g regs).length)
    (hlt : st.cur < st.counts.length) :
    ∃ st' b l, mixLevel g out regs st = .ok st' ∧ st'.steps = st.steps ++ [(b, .mix st.nm l)] ∧
      st'.counts = st.counts ++ [(several g regs).length] ∧ st'.cur = st.cur + 1 ∧ st'.np = st.np ∧ st'.nm = st.nm + 1 ∧
      st'.loc = assign (fun ri : ℕ × ℕ => some ri.1) (st.cur + 1) st.loc (several g regs).zipIdx ∧
      (∀ f r, (several g regs)[f]? = some r → ∀ k, (∀ j, 0 ≤ mixW θ st.nm l f k j) ∧
        ∑ j ∈ range (g.parts r).length, mixW θ st.nm l f k j = 1) ∧
      ∀ outs, Lens st.counts outs → (outs.getD st.cur ⟨0, []⟩).units = out →
        ∃ t, step ρ θ outs b (.mix st.nm l) = .ok t ∧ t.units = out ∧ t.folds.length = (several g regs).length ∧
          ∀ f r, (several g regs)[f]? = some r → ∀ k,
            Real.exp (t.folds.getD f 0 k) = ∑ j ∈ range (g.parts r).length, mixW θ st.nm l f k j *
              Real.exp (at' outs ((mixIdx (lparts g regs) r).getD j 0, st.cur) k) := by
  obtain ⟨non, hnon⟩ : ∃ non, non = several g regs := ⟨_, rfl⟩
  rw [← hnon] at hne ⊢
  have hmem : ∀ r ∈ non, r ∈ regs ∧ 1 < (g.parts r).length := by
    intro r hr
    rw [hnon] at hr
    unfold several at hr
    simpa using hr
  obtain ⟨folds, hfolds⟩ : ∃ n, n = (lparts g regs).length := ⟨_, rfl⟩
  obtain ⟨arity, har⟩ : ∃ n, n = maxLen (non.map fun r => (g.parts r).length) := ⟨_, rfl⟩
  obtain ⟨pad, hpad⟩ : ∃ b, b = non.any fun r => decide ((g.parts r).length < arity) := ⟨_, rfl⟩
  have hle : ∀ r ∈ non, (g.parts r).length ≤ arity := fun r h => by
    rw [har]; exact le_maxLen (List.mem_map.2 ⟨r, h, rfl⟩)
  have hnp : pad = false → ∀ r ∈ non, (g.parts r).length = arity := by
    intro hp r h
    rw [hpad, List.any_eq_false] at hp
    have := hp r h
    simp only [decide_eq_true_eq] at this
    have := hle r h
    omega
  have hmi : ∀ r ∈ non, (mixIdx (lparts g regs) r).length = (g.parts r).length := fun r h =>
    (mixIdx_ok g hn (hmem r h).1).1
  have hmq : ∀ r ∈ non, ∀ q ∈ mixIdx (lparts g regs) r, q < folds := by
    intro r h q hq
    obtain ⟨j, hj, rfl⟩ := List.getElem_of_mem hq
    have := ((mixIdx_ok g hn (hmem r h).1).2 j (by rw [← hmi r h]; exact hj)).2
    rw [List.getD_eq_getElem _ _ hj] at this
    rw [hfolds]
    exact this
  obtain ⟨rowOf, hrow⟩ : ∃ f : ℕ → List ℕ, f = fun r => mixIdx (lparts g regs) r ++
      List.replicate (arity - (mixIdx (lparts g regs) r).length) folds := ⟨_, rfl⟩
  obtain ⟨mask, hmask⟩ : ∃ m, m = if pad then some ((non.map rowOf).map fun row => row.map fun i => decide (i < folds)) else none := ⟨_, rfl⟩
  obtain ⟨l, hl⟩ : ∃ l : MLayer, l = ⟨non.length, arity, out, mask⟩ := ⟨_, rfl⟩
  have hkeep : ∀ f r, non[f]? = some r → ∀ h < arity, keep (maskRow l.mask f) h = decide (h < (g.parts r).length) := by
    intro f r hf h hh
    have hr : r ∈ non := List.mem_of_getElem? hf
    rw [hl]
    dsimp only
    rw [hmask]
    cases hp : pad with
    | false =>
      have := hnp hp r hr
      simp only [Bool.false_eq_true, if_false, maskRow, Option.map_none, keep]
      have : h < (g.parts r).length := by simpa [this] using hh
      simp [this]
    | true =>
      simp only [if_true, maskRow, Option.map_some]
      have e : ((non.map rowOf).map fun row => row.map fun i => decide (i < folds)).getD f [] =
          (rowOf r).map fun i => decide (i < folds) := by
        rw [List.getD_eq_getElem?_getD, List.getElem?_map, List.getElem?_map, hf]
        rfl
      rw [e, hrow]
      dsimp only
      have := keep_row (is := mixIdx (lparts g regs) r) (total := folds) (n := arity) (hmq r hr)
        (by rw [hmi r hr]; exact hle r hr) hh
      rw [this, hmi r hr]
  have hpos : ∀ r ∈ non, 0 < (g.parts r).length := fun r h => by have := (hmem r h).2; omega
  refine ⟨⟨assign (fun ri : ℕ × ℕ => some ri.1) (st.cur + 1) st.loc non.zipIdx, st.counts ++ [non.length],
    st.cur + 1, st.np, st.nm + 1, st.steps ++ [(⟨pad, [st.cur], non.map rowOf⟩, .mix st.nm l)]⟩,
    ⟨pad, [st.cur], non.map rowOf⟩, l, ?_, rfl, rfl, rfl, rfl, rfl, rfl, ?_, ?_⟩
  · unfold mixLevel
    have e0 : (regs.filter fun r => decide (1 < (g.parts r).length)) = non := by rw [hnon]; rfl
    simp only [e0, ← har, ← hpad, ← hfolds]
    rw [if_neg (by simpa using hne)]
    have e1 : ((non.zip (non.map fun r => mixIdx (lparts g regs) r)).any
        fun ri => decide (ri.2.length ≠ (g.parts ri.1).length)) = false := by
      rw [List.any_eq_false]
      rintro ⟨r, is⟩ hri
      rw [List.zip_map_right] at hri
      obtain ⟨⟨a, b⟩, hab, e⟩ := List.mem_map.1 hri
      have hb : b = a := by
        obtain ⟨i, hi, e2⟩ := List.getElem_of_mem hab
        rw [List.getElem_zip] at e2
        simp only [Prod.mk.injEq] at e2
        rw [← e2.1, ← e2.2]
      simp only [Prod.map, id, Prod.mk.injEq] at e
      obtain ⟨rfl, rfl⟩ := e
      rw [hb]
      have hr : a ∈ non := (List.of_mem_zip hab).1
      simp [hmi a hr]
    rw [e1]
    simp only [Bool.false_eq_true, if_false, List.map_map]
    have e2 : (non.map ((fun is => is ++ List.replicate (arity - is.length) folds) ∘ fun r => mixIdx (lparts g regs) r)) =
        non.map rowOf := by rw [hrow]; rfl
    have e3 : mask = if pad = true then some (non.map ((fun row => row.map fun i => decide (i < folds)) ∘
        (fun is => is ++ List.replicate (arity - is.length) folds) ∘ fun r => mixIdx (lparts g regs) r)) else none := by
      rw [hmask, List.map_map, hrow]
      rfl
    rw [e2, ← e3, ← hl]
    rfl
  · intro f r hf k
    have hr : r ∈ non := List.mem_of_getElem? hf
    refine ⟨fun j => maskedSoftmax_nonneg _ _ _ _, ?_⟩
    have hla : l.arity = arity := by rw [hl]
    have h0 := hkeep f r hf 0 (by have := hle r hr; have := hpos r hr; omega)
    rw [decide_eq_true (hpos r hr)] at h0
    have := maskedSoftmax_sum (n := arity) (fun h => θ.mix st.nm f h k) (maskRow l.mask f)
      (by have := hle r hr; have := hpos r hr; omega) h0
    rw [← this, ← sum_pad (hle r hr)]
    refine sum_congr rfl fun h hh => ?_
    rw [hkeep f r hf h (mem_range.1 hh)]
    unfold mixW
    rw [hla]
    simp
  · intro outs hL hU
    have hco : st.cur < outs.length := by rw [hL.1]; exact hlt
    obtain ⟨xs, hxs⟩ : ∃ xs : ℕ → List (ℕ → ℝ), xs = fun r =>
        ((mixIdx (lparts g regs) r).map fun q => (q, st.cur)).map (at' outs) ++
          List.replicate (arity - (mixIdx (lparts g regs) r).length) 0 := ⟨_, rfl⟩
    have hg : gather outs out ⟨pad, [st.cur], non.map rowOf⟩ = .ok (non.map xs) := by
      refine gather_ok hL (fun i hi => ?_) rfl fun r h => ?_
      · rw [List.mem_singleton.1 hi]
        exact ⟨hco, hU⟩
      · rw [hrow, hxs]
        dsimp only
        have := row_ok hL (ids := [st.cur]) (fun i hi => by rw [List.mem_singleton.1 hi]; exact hco)
          (fls := (mixIdx (lparts g regs) r).map fun q => (q, st.cur)) (fun fl hfl => by
            obtain ⟨q, hq, rfl⟩ := List.mem_map.1 hfl
            refine ⟨List.mem_singleton.2 rfl, hlt, ?_⟩
            show q < st.counts.getD st.cur 0
            rw [hcur, ← hfolds]
            exact hmq r h q hq) (pad := pad) (n := arity - (mixIdx (lparts g regs) r).length) (fun hp => by
            have := hnp hp r h
            have := hmi r h
            omega)
        rw [List.map_map] at this
        simp only [List.map_cons, List.map_nil, List.sum_cons, List.sum_nil, Nat.add_zero, hcur, ← hfolds] at this
        have e : (mixIdx (lparts g regs) r).map ((fun fl : ℕ × ℕ => baseOf st.counts [st.cur] fl.2 + fl.1) ∘
            fun q => (q, st.cur)) = mixIdx (lparts g regs) r := by
          rw [List.map_congr_left (g := id) fun q _ => by simp [baseOf]]
          simp
        rw [e] at this
        exact this
    have hxl : ∀ r ∈ non, (xs r).length = arity := by
      intro r h
      have := hle r h
      have := hmi r h
      rw [hxs]
      simp
      omega
    have hxg : ∀ r ∈ non, ∀ h < (g.parts r).length,
        (xs r).getD h 0 = at' outs ((mixIdx (lparts g regs) r).getD h 0, st.cur) := by
      intro r hr h hh
      have hh' : h < (mixIdx (lparts g regs) r).length := by rw [hmi r hr]; exact hh
      rw [hxs]
      dsimp only
      rw [List.getD_append _ _ _ _ (by simpa using hh'), List.getD_eq_getElem _ _ (by simpa using hh'),
        List.getD_eq_getElem _ _ hh']
      simp
    have hlu : l.units = out := by rw [hl]
    unfold step
    dsimp only
    rw [hlu, hg]
    dsimp only
    refine ⟨_, rfl, rfl, by simp, fun f r hf k => ?_⟩
    have hr : r ∈ non := List.mem_of_getElem? hf
    have hq' : (non.map xs)[f]? = some (xs r) := by rw [List.getElem?_map, hf]; rfl
    have h0 := hkeep f r hf 0 (by have := hle r hr; have := hpos r hr; omega)
    rw [decide_eq_true (hpos r hr)] at h0
    have h0a : 0 < arity := by have := hle r hr; have := hpos r hr; omega
    dsimp only
    rw [zipIdx_map_getD hq']
    dsimp only
    rw [hxl r hr, exp_evalMix _ (maskedSoftmax arity (fun h => θ.mix st.nm f h k) (maskRow l.mask f)) _
      (fun h _ => maskedSoftmax_nonneg _ _ _ _) ⟨0, h0a, h0, maskedSoftmax_pos _ _ h0a h0⟩,
      ← sum_pad (hle r hr)]
    refine sum_congr rfl fun h hh => ?_
    rw [hkeep f r hf h (mem_range.1 hh)]
    by_cases hlt : h < (g.parts r).length
    · simp only [hlt, decide_true, if_true]
      rw [hxg r hr h hlt]
      unfold mixW
      rw [show l.arity = arity by rw [hl]]
    · simp [hlt]

end Verif.Qpc

import Verif.QpcMix
/-
C82: one height of the region graph, partition layer and mixing layer together.
-/
namespace Verif.Qpc
open Finset Graph

/-- Specification: the weights of one partition at one output are non-negative and normalised: jointly over the
units of both children (`t`), or over the units of every child separately. -/
def WOk (t : Bool) (K n : ℕ) (W : ℕ → ℕ → ℝ) : Prop :=
  if t then (∀ i < K, ∀ j < K, 0 ≤ W i j) ∧ ∑ i ∈ range K, ∑ j ∈ range K, W i j = 1
  else ∀ h < n, (∀ k < K, 0 ≤ W h k) ∧ ∑ k ∈ range K, W h k = 1

theorem layerW_ok {ρ : Rule} (hρ : ρ.Pos) (hK : 0 < ρ.K) (θ : Params) (np : ℕ) (l : PLayer) (q o n : ℕ) :
    WOk l.tucker ρ.K n (layerW ρ θ np l q o) := by
  unfold WOk layerW
  by_cases ht : l.tucker = true
  · have := tuckerW_ok hρ hK θ np l ht q o
    simp only [ht, if_true]
    exact ⟨fun i hi j hj => (this.1 i hi j hj).le, this.2⟩
  · have ht' : l.tucker = false := by simpa using ht
    simp only [ht', Bool.false_eq_true, if_false]
    intro h _
    have := cpW_ok hρ hK θ np l ht' q h o
    exact ⟨fun k hk => (this.1 k hk).le, this.2⟩

/-- The result of a step that succeeds. -/
noncomputable def stepD (ρ : Rule) (θ : Params) (outs : List Ten) (b : Book) (op : Op) : Ten :=
  match step ρ θ outs b op with
  | .ok t => t
  | .error _ => ⟨0, []⟩

theorem stepD_of {ρ : Rule} {θ : Params} {outs : List Ten} {b : Book} {op : Op} {t : Ten} (h : step ρ θ outs b op = .ok t) :
    stepD ρ θ outs b op = t := by
  unfold stepD
  rw [h]

theorem run_append (ρ : Rule) (θ : Params) (outs : List Ten) (s1 s2 : List (Book × Op)) :
    run ρ θ outs (s1 ++ s2) = match run ρ θ outs s1 with
      | .error e => .error e
      | .ok o => run ρ θ o s2 := by
  unfold run
  rw [List.foldlM_append]
  simp only [bind, Except.bind]
  cases List.foldlM (m := Except Exc) (fun outs (bo : Book × Op) =>
    match step ρ θ outs bo.1 bo.2 with
    | .error e => .error e
    | .ok t => .ok (outs ++ [t])) outs s1 <;> rfl

theorem run_one {ρ : Rule} {θ : Params} {outs : List Ten} {b : Book} {op : Op} {t : Ten} (h : step ρ θ outs b op = .ok t) :
    run ρ θ outs [(b, op)] = .ok (outs ++ [t]) := by
  unfold run
  simp only [List.foldlM_cons, List.foldlM_nil, h, bind, Except.bind, pure, Except.pure]

theorem lens_snoc {counts : List ℕ} {outs : List Ten} (h : Lens counts outs) {t : Ten} {n : ℕ} (ht : t.folds.length = n) :
    Lens (counts ++ [n]) (outs ++ [t]) := by
  refine ⟨by simp [h.1], fun i hi => ?_⟩
  by_cases hlt : i < outs.length
  · rw [List.getD_append _ _ _ _ hlt, List.getD_append _ _ _ _ (by rw [← h.1]; exact hlt)]
    exact h.2 i hlt
  · have e : i = outs.length := by simp at hi; omega
    subst e
    have e2 : (counts ++ [n]).getD outs.length 0 = n := by rw [h.1]; simp
    rw [e2]
    simpa using ht

theorem valid_append {counts cs : List ℕ} {fl : ℕ × ℕ} (h : Valid counts fl) : Valid (counts ++ cs) fl := by
  refine ⟨by have := h.1; rw [List.length_append]; omega, ?_⟩
  rw [List.getD_append _ _ _ _ h.1]
  exact h.2

theorem at'_last {outs : List Ten} {t : Ten} {q l : ℕ} (h : l = outs.length) :
    at' (outs ++ [t]) (q, l) = t.folds.getD q 0 := by
  subst h
  unfold at'
  simp

/-- The two layers of one height. -/
def oneLevel (g : RG) (cls : Cls) (out : ℕ) (regs : List ℕ) (st : St) : Except Exc St :=
  match partLevel g cls out regs st with
  | .error e => .error e
  | .ok st' => mixLevel g out regs st'

theorem oneLevel_ok {g : RG} {ρ : Rule} {θ : Params} {cls : Cls} {out : ℕ} {st : St} {regs : List ℕ} (hρ : ρ.Pos)
    (hK : 0 < ρ.K) (hn : regs.Nodup) (hne : regs ≠ []) (hp : ∀ r ∈ regs, g.parts r ≠ [])
    (hc : st.counts.length = st.cur + 1)
    (hpl : ∀ r ∈ regs, ∀ p ∈ g.parts r, ∀ c ∈ p, ∃ fl, st.loc c = some fl ∧ Valid st.counts fl) :
    ∃ (st' : St) (ss : List (Book × Op)) (tag : Bool) (ts : List Ten → List Ten),
      oneLevel g cls out regs st = .ok st' ∧ st'.counts.length = st'.cur + 1 ∧ st'.steps = st.steps ++ ss ∧
      (∃ cs, st'.counts = st.counts ++ cs) ∧ (∀ r, r ∉ regs → st'.loc r = st.loc r) ∧
      (∀ r ∈ regs, ∃ fl, st'.loc r = some fl ∧ Valid st'.counts fl ∧
        (regs = [r] → fl = (0, st'.cur) ∧ st'.counts.getD st'.cur 0 = 1)) ∧
      (tag = true ↔ cls ≠ .cp ∧ ∀ r ∈ regs, ∀ p ∈ g.parts r, p.length = 2) ∧
      ss.any (badView ρ.K) = decide (out ≠ 1 ∧ out ≠ ρ.K) ∧
      (∀ outs, Lens st.counts outs → (∀ t ∈ outs, t.units = ρ.K) →
        run ρ θ outs ss = .ok (outs ++ ts outs) ∧ Lens st'.counts (outs ++ ts outs) ∧ ts outs ≠ [] ∧
          ∀ t ∈ ts outs, t.units = out) ∧
      ∀ r ∈ regs, ∀ u, ∃ (m : ℕ → ℝ) (W : ℕ → ℕ → ℕ → ℝ), (∀ j, 0 ≤ m j) ∧
        ∑ j ∈ range (g.parts r).length, m j = 1 ∧
        (∀ j < (g.parts r).length, WOk tag ρ.K ((g.parts r).getD j []).length (W j)) ∧
        ∀ outs, Lens st.counts outs → (∀ t ∈ outs, t.units = ρ.K) →
          Real.exp (at' (outs ++ ts outs) ((st'.loc r).getD (0, 0)) u) =
            ∑ j ∈ range (g.parts r).length, m j * partVal tag ρ.K (W j) ((g.parts r).getD j [])
              fun c k => Real.exp (at' outs ((st.loc c).getD (0, 0)) k) := by
  have hlne : lparts g regs ≠ [] := by
    obtain ⟨r, hr⟩ := List.exists_mem_of_ne_nil _ hne
    obtain ⟨p, hp'⟩ := List.exists_mem_of_ne_nil _ (hp r hr)
    exact List.ne_nil_of_mem (mem_lparts.2 ⟨hr, hp'⟩)
  obtain ⟨s1, b, l, h1, hst, hco, hcu, hnp, hnm, hloc, hout, htag, hstep⟩ :=
    partLevel_ok (θ := θ) (cls := cls) (out := out) hρ hK hlne hpl
  have hc1 : s1.counts.length = s1.cur + 1 := by rw [hco, hcu, List.length_append, hc]; rfl
  have hcur1 : s1.counts.getD s1.cur 0 = (lparts g regs).length := by
    rw [hco, hcu, ← hc]; simp
  -- regions with one partition
  have hun : ∀ r ∈ regs, (g.parts r).length = 1 → ∃ q, s1.loc r = some (q, s1.cur) ∧
      (lparts g regs)[q]? = some (r, (g.parts r).getD 0 []) := by
    intro r hr hlen
    obtain ⟨p, hpm⟩ := List.exists_mem_of_ne_nil _ (hp r hr)
    have hm := mem_lparts.2 ⟨hr, hpm⟩
    obtain ⟨i, hi, e⟩ := List.getElem_of_mem hm
    obtain ⟨ai, ha, hk, hs⟩ := assign_mem (unaryKey g) (st.cur + 1) (r := r) (lparts g regs).zipIdx st.loc
      ⟨((r, p), i), List.mem_iff_getElem?.2 ⟨i, by simp [List.getElem?_eq_getElem hi, e]⟩, by simp [unaryKey, hlen]⟩
    have hg := List.mem_zipIdx_iff_getElem?.1 ha
    have hr' : ai.1.1 = r := by
      unfold unaryKey at hk
      split at hk
      · simpa using hk
      · simp at hk
    refine ⟨ai.2, by rw [hloc, hcu]; exact hs, ?_⟩
    rw [hg]
    have hm2 := mem_lparts.1 (List.mem_of_getElem? hg : (ai.1.1, ai.1.2) ∈ lparts g regs)
    have : ai.1.2 = (g.parts r).getD 0 [] := by
      rw [hr'] at hm2
      obtain ⟨a, ha⟩ := List.length_eq_one_iff.1 hlen
      rw [ha] at hm2 ⊢
      simpa using hm2.2
    rw [← this, ← hr']
  have hnot : ∀ r, (r ∉ regs ∨ (g.parts r).length ≠ 1) → s1.loc r = st.loc r := by
    intro r hr
    rw [hloc]
    refine assign_not _ _ _ _ fun ai ha e => ?_
    have hg := List.mem_zipIdx_iff_getElem?.1 ha
    have hm2 := mem_lparts.1 (List.mem_of_getElem? hg : (ai.1.1, ai.1.2) ∈ lparts g regs)
    unfold unaryKey at e
    split at e
    · rename_i h
      have e' : ai.1.1 = r := by simpa using e
      rw [e'] at hm2 h
      rcases hr with hr | hr
      · exact hr hm2.1
      · exact hr h
    · simp at e
  -- values of the partition layer
  have hpart : ∀ outs, Lens st.counts outs → (∀ t ∈ outs, t.units = ρ.K) →
      step ρ θ outs b (.part st.np l) = .ok (stepD ρ θ outs b (.part st.np l)) ∧
      (stepD ρ θ outs b (.part st.np l)).units = out ∧
      (stepD ρ θ outs b (.part st.np l)).folds.length = (lparts g regs).length ∧
      ∀ q r p, (lparts g regs)[q]? = some (r, p) → ∀ o,
        Real.exp ((stepD ρ θ outs b (.part st.np l)).folds.getD q 0 o) =
          partVal l.tucker ρ.K (layerW ρ θ st.np l q o) p
            fun c k => Real.exp (at' outs ((st.loc c).getD (0, 0)) k) := by
    intro outs hL hU
    obtain ⟨t, h, h'⟩ := hstep outs hL hU
    rw [stepD_of h]
    exact ⟨h, h'⟩
  have hlenfold : ∀ outs, Lens st.counts outs → outs.length = s1.cur := fun outs hL => by rw [hL.1, hc, hcu]
  by_cases hsev : several g regs = []
  · have hall : ∀ r ∈ regs, (g.parts r).length = 1 := by
      intro r hr
      have h0 : 0 < (g.parts r).length := List.length_pos_iff.2 (hp r hr)
      unfold several at hsev
      have := List.filter_eq_nil_iff.1 hsev r hr
      simp only [decide_eq_true_eq] at this
      omega
    refine ⟨s1, [(b, .part st.np l)], l.tucker, fun outs => [stepD ρ θ outs b (.part st.np l)], ?_, hc1, hst, ⟨_, hco⟩,
      fun r hr => hnot r (.inl hr), ?_, htag, ?_, ?_, ?_⟩
    · unfold oneLevel
      rw [h1]
      exact mixLevel_none hsev
    · intro r hr
      obtain ⟨q, hq1, hq2⟩ := hun r hr (hall r hr)
      have hql : q < (lparts g regs).length := (List.getElem?_eq_some_iff.1 hq2).1
      refine ⟨_, hq1, ⟨by show s1.cur < _; omega, by show q < s1.counts.getD s1.cur 0; rw [hcur1]; exact hql⟩, ?_⟩
      intro hs
      have hone : (lparts g regs).length = 1 := by
        rw [hs]
        unfold lparts
        simp [hall r hr]
      refine ⟨?_, by rw [hcur1, hone]⟩
      rw [hone] at hql
      have : q = 0 := by omega
      rw [this]
    · simp [badView, hout]
    · intro outs hL hU
      obtain ⟨a1, a2, a3, _⟩ := hpart outs hL hU
      refine ⟨run_one a1, by rw [hco]; exact lens_snoc hL a3, by simp, ?_⟩
      intro t ht
      rw [List.mem_singleton.1 ht]
      exact a2
    · intro r hr u
      obtain ⟨q, hq1, hq2⟩ := hun r hr (hall r hr)
      refine ⟨fun _ => 1, fun _ => layerW ρ θ st.np l q u, fun _ => zero_le_one, by simp [hall r hr],
        fun j _ => layerW_ok hρ hK _ _ _ _ _ _, fun outs hL hU => ?_⟩
      obtain ⟨_, _, _, a4⟩ := hpart outs hL hU
      rw [hall r hr, sum_range_one, one_mul, hq1, Option.getD_some, at'_last (hlenfold outs hL).symm]
      exact a4 q r _ hq2 u
  · obtain ⟨s2, b2, l2, g1, gst, gco, gcu, gnp, gnm, gloc, gw, gstep⟩ :=
      mixLevel_ok (ρ := ρ) (θ := θ) (out := out) (st := s1) hn hsev hcur1 (by omega)
    have hc2 : s2.counts.length = s2.cur + 1 := by rw [gco, gcu, List.length_append, hc1]; rfl
    have hcur2 : s2.counts.getD s2.cur 0 = (several g regs).length := by rw [gco, gcu, ← hc1]; simp
    have hms : ∀ r, r ∈ several g regs ↔ r ∈ regs ∧ 1 < (g.parts r).length := by
      intro r
      unfold several
      simp
    have hkeep2 : ∀ r, r ∉ several g regs → s2.loc r = s1.loc r := by
      intro r hr
      rw [gloc]
      refine assign_not _ _ _ _ fun ai ha e => hr ?_
      have hg := List.mem_zipIdx_iff_getElem?.1 ha
      have e' : ai.1 = r := by simpa using e
      rw [← e']
      exact List.mem_of_getElem? hg
    have hmul : ∀ r ∈ several g regs, ∃ f, s2.loc r = some (f, s2.cur) ∧ (several g regs)[f]? = some r := by
      intro r hr
      obtain ⟨i, hi, e⟩ := List.getElem_of_mem hr
      obtain ⟨ai, ha, hk, hs⟩ := assign_mem (fun ri : ℕ × ℕ => some ri.1) (s1.cur + 1) (r := r)
        (several g regs).zipIdx s1.loc
        ⟨(r, i), List.mem_iff_getElem?.2 ⟨i, by simp [List.getElem?_eq_getElem hi, e]⟩, rfl⟩
      have hg := List.mem_zipIdx_iff_getElem?.1 ha
      have e' : ai.1 = r := by simpa using hk
      refine ⟨ai.2, by rw [gloc, gcu]; exact hs, ?_⟩
      rw [hg, e']
    have hlast : ∀ outs t, Lens st.counts outs → (outs ++ [t]).getD s1.cur ⟨0, []⟩ = t := by
      intro outs t hL
      rw [← hlenfold outs hL]
      simp
    have hmix : ∀ outs, Lens st.counts outs → (∀ t ∈ outs, t.units = ρ.K) → ∃ t,
        step ρ θ (outs ++ [stepD ρ θ outs b (.part st.np l)]) b2 (.mix s1.nm l2) = .ok t ∧ t.units = out ∧
        t.folds.length = (several g regs).length ∧
          ∀ f r, (several g regs)[f]? = some r → ∀ k,
            Real.exp (t.folds.getD f 0 k) = ∑ j ∈ range (g.parts r).length, mixW θ s1.nm l2 f k j *
              Real.exp (at' (outs ++ [stepD ρ θ outs b (.part st.np l)])
                ((mixIdx (lparts g regs) r).getD j 0, s1.cur) k) := by
      intro outs hL hU
      obtain ⟨_, a2, a3, _⟩ := hpart outs hL hU
      refine gstep _ (by rw [hco]; exact lens_snoc hL a3) ?_
      rw [hlast _ _ hL]
      exact a2
    refine ⟨s2, [(b, .part st.np l), (b2, .mix s1.nm l2)], l.tucker, fun outs =>
      [stepD ρ θ outs b (.part st.np l),
        stepD ρ θ (outs ++ [stepD ρ θ outs b (.part st.np l)]) b2 (.mix s1.nm l2)], ?_, hc2,
      by rw [gst, hst]; simp, ⟨_, by rw [gco, hco, List.append_assoc]⟩, ?_, ?_, htag, ?_, ?_, ?_⟩
    · unfold oneLevel
      rw [h1]
      exact g1
    · intro r hr
      rw [hkeep2 r fun h => hr ((hms r).1 h).1]
      exact hnot r (.inl hr)
    · intro r hr
      by_cases hrs : r ∈ several g regs
      · obtain ⟨f, hf1, hf2⟩ := hmul r hrs
        have hfl : f < (several g regs).length := (List.getElem?_eq_some_iff.1 hf2).1
        refine ⟨_, hf1, ⟨by show s2.cur < _; omega, by show f < s2.counts.getD s2.cur 0; rw [hcur2]; exact hfl⟩, ?_⟩
        intro hs
        have hone : (several g regs).length = 1 := by
          rw [hs]
          unfold several
          simp [((hms r).1 hrs).2]
        refine ⟨?_, by rw [hcur2, hone]⟩
        rw [hone] at hfl
        have : f = 0 := by omega
        rw [this]
      · have hlen : (g.parts r).length = 1 := by
          have h0 : 0 < (g.parts r).length := List.length_pos_iff.2 (hp r hr)
          by_contra hne1
          exact hrs ((hms r).2 ⟨hr, by omega⟩)
        obtain ⟨q, hq1, hq2⟩ := hun r hr hlen
        have hql : q < (lparts g regs).length := (List.getElem?_eq_some_iff.1 hq2).1
        refine ⟨_, by rw [hkeep2 r hrs]; exact hq1, ?_, ?_⟩
        · rw [gco]
          refine valid_append ⟨by show s1.cur < _; omega, ?_⟩
          show q < s1.counts.getD s1.cur 0
          rw [hcur1]
          exact hql
        · intro hs
          exfalso
          refine hsev ?_
          rw [hs]
          unfold several
          simp [hlen]
    · simp [badView, hout]
    · intro outs hL hU
      obtain ⟨a1, a2, a3, _⟩ := hpart outs hL hU
      obtain ⟨t, c1, c2, c3, _⟩ := hmix outs hL hU
      dsimp only
      rw [stepD_of c1]
      refine ⟨?_, ?_, by simp, ?_⟩
      · have := run_append ρ θ outs [(b, .part st.np l)] [(b2, .mix s1.nm l2)]
        rw [run_one a1] at this
        simp only at this
        rw [run_one c1, List.append_assoc] at this
        exact this
      · rw [gco, hco]
        have := lens_snoc (lens_snoc hL a3) c3
        rw [List.append_assoc outs] at this
        exact this
      · intro t' ht'
        rcases List.mem_cons.1 ht' with e | e
        · rw [e]; exact a2
        · rw [List.mem_singleton.1 e]; exact c2
    · intro r hr u
      by_cases hrs : r ∈ several g regs
      · obtain ⟨f, hf1, hf2⟩ := hmul r hrs
        obtain ⟨w1, w2⟩ := gw f r hf2 u
        refine ⟨mixW θ s1.nm l2 f u, fun j => layerW ρ θ st.np l ((mixIdx (lparts g regs) r).getD j 0) u, w1, w2,
          fun j _ => layerW_ok hρ hK _ _ _ _ _ _, fun outs hL hU => ?_⟩
        obtain ⟨_, _, _, a4⟩ := hpart outs hL hU
        obtain ⟨t, c1, _, _, c4⟩ := hmix outs hL hU
        dsimp only
        rw [stepD_of c1, hf1, Option.getD_some]
        have e : outs ++ [stepD ρ θ outs b (.part st.np l), t] = (outs ++ [stepD ρ θ outs b (.part st.np l)]) ++ [t] := by
          simp
        rw [e, at'_last (by rw [List.length_append, hlenfold outs hL, gcu]; rfl), c4 f r hf2 u]
        refine sum_congr rfl fun j hj => ?_
        obtain ⟨e1, _⟩ := (mixIdx_ok g hn hr).2 j (mem_range.1 hj)
        rw [at'_last (hlenfold outs hL).symm, a4 _ _ _ e1 u]
      · have hlen : (g.parts r).length = 1 := by
          have h0 : 0 < (g.parts r).length := List.length_pos_iff.2 (hp r hr)
          by_contra hne1
          exact hrs ((hms r).2 ⟨hr, by omega⟩)
        obtain ⟨q, hq1, hq2⟩ := hun r hr hlen
        refine ⟨fun _ => 1, fun _ => layerW ρ θ st.np l q u, fun _ => zero_le_one, by simp [hlen],
          fun j _ => layerW_ok hρ hK _ _ _ _ _ _, fun outs hL hU => ?_⟩
        obtain ⟨_, _, _, a4⟩ := hpart outs hL hU
        rw [hlen, sum_range_one, one_mul, hkeep2 r hrs, hq1, Option.getD_some]
        have e : ∀ t, outs ++ [stepD ρ θ outs b (.part st.np l), t] = (outs ++ [stepD ρ θ outs b (.part st.np l)]) ++ [t] := by
          simp
        rw [e, at'_append (by rw [List.length_append, hlenfold outs hL]; simp), at'_last (hlenfold outs hL).symm]
        exact a4 q r _ hq2 u

end Verif.Qpc

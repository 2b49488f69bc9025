import Verif.PromLearn
import Verif.PromCorr

/-!
# Property C76: `learn_prometheus`
-/

namespace Verif.Prometheus

open Verif Verif.Circ Verif.Build MeasureTheory
open Verif.LearnSpn (uniq sel mapM_ok forall₂_mem_left forall₂_mem_right mem_uniq Valid valid_of_ok)

variable {μ : Var → Measure ℝ} {cfg : Cfg} {O : Oracle} {L : ℕ}

/-- C76: for every clustering, similarity, fit and random draw, `learn_prometheus` with an explicit scope covered by disjoint
leaf templates of equal channel number, on data without missing values, terminates after nested calls no deeper than the scope
is wide and returns a valid circuit over exactly that scope; it has at least one channel per requested output channel. -/
theorem C76_valid_partial [∀ v, SigmaFinite (μ v)] (hc : CfgOk cfg L) (ho : OracleOk μ cfg O) (ha : argsOk cfg = true)
    {q : List Var} (hs : ScopeOk cfg q) {rows : List Row} (hfull : Complete rows q) {fuel : ℕ} (hfuel : q.length < fuel) :
    ∃ c, learnPrometheus cfg O fuel rows (some q) = .ok c ∧ Valid μ q.toFinset c ∧ cfg.outCh ≤ C c := by
  obtain ⟨l, hl, hf⟩ := mapM_ok (P := fun (_ : ℕ) c => Ok μ (· ∈ q) c) (f := fun ch => learn cfg O fuel [ch] rows q)
    (List.range cfg.outCh) (fun ch _ => by
      obtain ⟨c, h1, h2, _⟩ := learn_ok hc ho ha fuel [ch] rows q hs hfull hfuel
      exact ⟨c, h1, h2⟩)
  have hlen : l.length = cfg.outCh := by rw [← hf.length_eq, List.length_range]
  have hok : ∀ c ∈ l, Ok μ (· ∈ q) c := fun c h => by
    obtain ⟨_, _, h⟩ := forall₂_mem_right hf h
    exact h
  have hout : 1 ≤ cfg.outCh := by
    simp only [argsOk, Bool.and_eq_true, decide_eq_true_eq] at ha
    exact ha.1.1.1.1.1.1.1.1
  have hrun : learnPrometheus cfg O fuel rows (some q) = LearnSpn.stack l := by
    simp only [learnPrometheus, requested, if_pos ha, hl]
  rw [hrun]
  rcases l with _ | ⟨c, _ | ⟨d, l⟩⟩
  · simp at hlen; omega
  · refine ⟨c, rfl, valid_of_ok (hok c (by simp)) (by simp), ?_⟩
    simp at hlen
    have := (hok c (by simp)).ch
    omega
  · obtain ⟨_, h2, h3, h4⟩ := cat2_ok (l := c :: d :: l) (by simp) hok
    refine ⟨_, h2, valid_of_ok h3 (by simp), ?_⟩
    rw [h4, ← hlen]
    clear h4 h3 h2 hrun hlen hl hf
    have : ∀ l : List Circ, (∀ c ∈ l, Ok μ (· ∈ q) c) → l.length ≤ (l.map C).sum := by
      intro l
      induction l with
      | nil => simp
      | cons a l ih =>
        intro h
        have := ih fun c hc => h c (by simp [hc])
        have := (h a (by simp)).ch
        simp only [List.length_cons, List.map_cons, List.sum_cons]
        omega
    exact this _ hok

/-- C76: the same with `scope=None`: the learned scope is the union of the templates' scopes. -/
theorem C76_default_scope_partial [∀ v, SigmaFinite (μ v)] (hc : CfgOk cfg L) (ho : OracleOk μ cfg O) (ha : argsOk cfg = true)
    (hne : cfg.tmpl ≠ []) (hv : ∀ t ∈ cfg.tmpl, t.1 ≠ [] ∧ t.1.Nodup ∧ ∀ v ∈ t.1, 0 ≤ v) {rows : List Row}
    (hfull : ∀ t ∈ cfg.tmpl, Complete rows t.1) :
    ∃ (V : Finset Var), (∀ v, v ∈ V ↔ ∃ t ∈ cfg.tmpl, v ∈ t.1) ∧
      ∀ fuel > V.card, ∃ c, learnPrometheus cfg O fuel rows none = .ok c ∧ Valid μ V c ∧ cfg.outCh ≤ C c := by
  have hvalid : ∀ t ∈ cfg.tmpl.map (fun t => (⟨t.1, []⟩ : Scope)), Scope.Valid t := by
    intro t ht
    obtain ⟨a, ha, rfl⟩ := List.mem_map.1 ht
    exact ⟨(hv a ha).2.2, by simp, (hv a ha).2.1, by simp, by simp, by simp⟩
  obtain ⟨r, hr, hrv, hrq, _⟩ := Scope.joinAll_ok (cfg.tmpl.map fun t => (⟨t.1, []⟩ : Scope)) (by simpa using hne) hvalid
  have hmem : ∀ v, v ∈ r.query ↔ ∃ t ∈ cfg.tmpl, v ∈ t.1 := by
    intro v
    rw [hrq v]
    constructor
    · rintro ⟨t, ht, hvt⟩
      obtain ⟨a, ha, rfl⟩ := List.mem_map.1 ht
      exact ⟨a, ha, hvt⟩
    · rintro ⟨a, ha, hva⟩
      exact ⟨_, List.mem_map.2 ⟨a, ha, rfl⟩, hva⟩
  have hq : requested cfg none = .ok r.query := by
    obtain ⟨t, ts, hts⟩ := List.exists_cons_of_ne_nil hne
    unfold requested
    rw [hts] at hr ⊢
    simp only [hr]
  have hs : ScopeOk cfg r.query := by
    refine ⟨?_, hrv.query_nodup, hrv.query_nonneg, fun v hv' => (hmem v).1 hv'⟩
    obtain ⟨t, ht⟩ := List.exists_mem_of_ne_nil _ hne
    obtain ⟨v, hvt⟩ := List.exists_mem_of_ne_nil _ (hv t ht).1
    exact List.ne_nil_of_mem ((hmem v).2 ⟨t, ht, hvt⟩)
  refine ⟨r.query.toFinset, by simpa using hmem, fun fuel hf => ?_⟩
  rw [List.toFinset_card_of_nodup hrv.query_nodup] at hf
  obtain ⟨c, h1, h2, h3⟩ := C76_valid_partial hc ho ha hs (rows := rows) (fun r hr v hv => by
    obtain ⟨t, ht, hvt⟩ := (hmem v).1 hv
    exact hfull t ht r hr v hvt) hf
  refine ⟨c, ?_, h2, h3⟩
  unfold learnPrometheus at h1 ⊢
  rw [hq]
  exact h1

/-- C76: what one call builds.  Above the slice limits there is, for every cluster of at least two rows, one product per
partition of the maximum spanning tree (`ClusterOf`: factors over the groups of the partition, each learned once, at most
`2 (d - 1)` learner calls), and the result is the even mixture of these products, clusters weighted by their number of rows;
the learner's leaves otherwise. -/
theorem C76_mixture (hc : CfgOk cfg L) (ho : OracleOk μ cfg O) (ha : argsOk cfg = true) {path : List ℕ} {rows : List Row}
    {scope : List Var} (hs : ScopeOk cfg scope) (hfull : Complete rows scope) {fuel : ℕ} (hfuel : scope.length ≤ fuel)
    {c : Circ} (hrun : learn cfg O (fuel + 1) path rows scope = .ok c) :
    (scope.length < cfg.minF ∨ rows.length < cfg.minI → mvLeaf cfg O path rows scope = .ok c) ∧
    (cfg.minF ≤ scope.length → cfg.minI ≤ rows.length → ∃ G, Step cfg O fuel path rows scope G c) := by
  refine ⟨fun h => ?_, fun h1 h2 => ?_⟩
  · rw [← hrun]
    simp only [learn, if_pos h]
  · obtain ⟨c', h1', _, h3⟩ := learn_ok hc ho ha (fuel + 1) path rows scope hs hfull (by omega)
    rw [h1'] at hrun
    cases hrun
    exact h3 h1 h2

/-- C76: unsupported arguments and an empty list of templates without a scope are rejected. -/
theorem C76_rejects (fuel : ℕ) (rows : List Row) :
    (∀ q, argsOk cfg = false → learnPrometheus cfg O fuel rows (some q) = .error .invalidParameter) ∧
    (cfg.tmpl = [] → learnPrometheus cfg O fuel rows none = .error .invalidParameter) ∧
    ((cfg.outCh = 0 ∨ cfg.minF = 0 ∨ cfg.minI = 0 ∨ cfg.nClus = 0 ∨ cfg.mode = .unknown ∨ cfg.mode = .sampled (some 0) ∨
      cfg.known = false ∨ cfg.sim = .unknown ∨ (cfg.sim = .custom ∧ cfg.mode ≠ .full)) ↔ argsOk cfg = false) := by
  refine ⟨fun q h => by simp [learnPrometheus, requested, h], fun h => by simp [learnPrometheus, requested, h], ?_⟩
  rw [show argsOk cfg = false ↔ ¬ argsOk cfg = true by simp]
  unfold argsOk
  simp only [Bool.and_eq_true, decide_eq_true_eq]
  constructor
  · rintro (h | h | h | h | h | h | h | h | h) ⟨⟨⟨⟨⟨⟨⟨⟨h1, h2⟩, h3⟩, h4⟩, h5⟩, h6⟩, h7⟩, h8⟩, h9⟩
    · omega
    · omega
    · omega
    · omega
    · exact h5 h
    · exact h6 h
    · rw [h] at h7; cases h7
    · exact h8 h
    · simp [h.1, h.2] at h9
  · intro h
    by_contra hcon
    push Not at hcon
    obtain ⟨h1, h2, h3, h4, h5, h6, h7, h8, h9⟩ := hcon
    refine h ⟨⟨⟨⟨⟨⟨⟨⟨by omega, by omega⟩, by omega⟩, by omega⟩, h5⟩, h6⟩, by simpa using h7⟩, h8⟩, ?_⟩
    by_cases hsim : cfg.sim = .custom
    · simp [hsim, h9 hsim]
    · simp [hsim]

/-! ## Data the learner refuses -/

theorem mapM_head_error {α β : Type} {f : α → Except Exc β} {a : α} {l : List α} {e : Exc} (h : f a = .error e) :
    (a :: l).mapM f = .error e := by
  simp [List.mapM_cons, h, bind, Except.bind]

theorem mapM_mem_error {α β : Type} {f : α → Except Exc β} {a : α} {e : Exc} (h : f a = .error e) :
    ∀ l : List α, a ∈ l → ∃ e', l.mapM f = .error e' := by
  intro l
  induction l with
  | nil => simp
  | cons b l ih =>
    intro hm
    cases hb : f b with
    | error e' => exact ⟨e', mapM_head_error hb⟩
    | ok y =>
      rcases List.mem_cons.1 hm with rfl | hm
      · rw [h] at hb; cases hb
      · obtain ⟨e', he⟩ := ih hm
        exact ⟨e', by simp [List.mapM_cons, hb, he, bind, Except.bind]⟩

/-- C76: missing values.  With a built-in similarity, a cluster of at least two rows that contains a missing value among the
requested columns makes `learn_prometheus` raise; if it is the first cluster the exception is `UnsupportedOperationError`. -/
theorem C76_missing (ha : argsOk cfg = true) (hsim : cfg.sim = .corr ∨ cfg.sim = .rdc) {rows : List Row} {q : List Var}
    (hF : cfg.minF ≤ q.length) (hI : cfg.minI ≤ rows.length) {id : ℕ} (hid : id ∈ O.clus [0] rows q)
    (h2 : 2 ≤ (sel rows (O.clus [0] rows q) id).length) {r : Row} (hr : r ∈ sel rows (O.clus [0] rows q) id) {v : Var}
    (hv : v ∈ q) (hn : r v = none) (fuel : ℕ) :
    (∃ e, learnPrometheus cfg O (fuel + 1) rows (some q) = .error e) ∧
    ((∀ id' ∈ O.clus [0] rows q, id ≤ id') →
      learnPrometheus cfg O (fuel + 1) rows (some q) = .error .unsupported) := by
  have hnan : hasNaN (sel rows (O.clus [0] rows q) id) q = true := by
    unfold hasNaN
    rw [List.any_eq_true]
    exact ⟨r, hr, List.any_eq_true.2 ⟨v, hv, by simp [hn]⟩⟩
  have hpart : ∀ path, partitions cfg O path (sel rows (O.clus [0] rows q) id) q = .error .unsupported := by
    intro path
    unfold partitions
    obtain ⟨h3, h4⟩ := C32_missing_raises hr hv hn (O.rdc path (sel rows (O.clus [0] rows q) id) q)
    cases hm : cfg.mode with
    | sampled k => simp [hnan]
    | full => rcases hsim with h | h <;> simp [h, h3, h4]
    | unknown => rcases hsim with h | h <;> simp [h, h3, h4]
  have hcl : cluster cfg O ([0] ++ [id]) (fun i p => learn cfg O fuel ([0] ++ [id, i]) (sel rows (O.clus [0] rows q) id) p) q
      rows.length (sel rows (O.clus [0] rows q) id) = .error .unsupported := by
    unfold cluster
    rw [if_neg (by omega), hpart]
  obtain ⟨n, hn⟩ : ∃ n, cfg.outCh = n + 1 := by
    refine ⟨cfg.outCh - 1, ?_⟩
    simp only [argsOk, Bool.and_eq_true, decide_eq_true_eq] at ha
    have := ha.1.1.1.1.1.1.1.1
    omega
  have htop : ∀ e, learn cfg O (fuel + 1) [0] rows q = .error e →
      learnPrometheus cfg O (fuel + 1) rows (some q) = .error e := by
    intro e he
    simp only [learnPrometheus, requested, if_pos ha]
    rw [hn, List.range_succ_eq_map, mapM_head_error (f := fun ch => learn cfg O (fuel + 1) [ch] rows q) he]
  constructor
  · obtain ⟨e, he⟩ := mapM_mem_error (f := fun id => cluster cfg O ([0] ++ [id])
      (fun i p => learn cfg O fuel ([0] ++ [id, i]) (sel rows (O.clus [0] rows q) id) p) q rows.length
      (sel rows (O.clus [0] rows q) id)) hcl (uniq (O.clus [0] rows q)) (mem_uniq.2 hid)
    refine ⟨e, htop e ?_⟩
    unfold learn
    rw [if_neg (by omega)]
    simp only
    rw [he]
  · intro hfirst
    refine htop _ ?_
    obtain ⟨l, hl⟩ : ∃ l, uniq (O.clus [0] rows q) = id :: l := by
      have hs : (uniq (O.clus [0] rows q)).Pairwise (· ≤ ·) := List.pairwise_insertionSort _ _
      have hm : id ∈ uniq (O.clus [0] rows q) := mem_uniq.2 hid
      rcases hu : uniq (O.clus [0] rows q) with _ | ⟨a, l⟩
      · rw [hu] at hm; simp at hm
      · rw [hu] at hs hm
        have ha' : a ∈ O.clus [0] rows q := mem_uniq.1 (by rw [hu]; simp)
        have h1 := hfirst a ha'
        rcases List.mem_cons.1 hm with rfl | hm
        · exact ⟨l, rfl⟩
        · have := (List.pairwise_cons.1 hs).1 id hm
          exact ⟨l, by rw [show a = id by omega]⟩
    unfold learn
    rw [if_neg (by omega)]
    simp only
    rw [hl, mapM_head_error (f := fun id => cluster cfg O ([0] ++ [id])
      (fun i p => learn cfg O fuel ([0] ++ [id, i]) (sel rows (O.clus [0] rows q) id) p) q rows.length
      (sel rows (O.clus [0] rows q) id)) hcl]

/-! ## Where the property fails -/

/-- C76 FALSE of constant columns: when in every cluster at most one column varies, every correlation is zero, no cluster
yields a partition, and the clustering is thrown away: the result is the product of leaves fitted to ALL rows, exactly as if
the slice limits had been reached. -/
theorem C76_constant_columns (hsim : cfg.sim = .corr) (hmode : cfg.mode = .full) {rows : List Row}
    {q : List Var} (hfull : Complete rows q) (path : List ℕ)
    (hconst : ∀ id ∈ O.clus path rows q, ∃ v0, ∀ v ∈ q, v ≠ v0 → ∃ a, ∀ r ∈ sel rows (O.clus path rows q) id, r v = some a)
    (hq : q.Nodup) (fuel : ℕ) : learn cfg O (fuel + 1) path rows q = mvLeaf cfg O path rows q := by
  by_cases hlim : q.length < cfg.minF ∨ rows.length < cfg.minI
  · simp only [learn, if_pos hlim]
  have hcl : ∀ id ∈ uniq (O.clus path rows q), cluster cfg O (path ++ [id])
      (fun i p => learn cfg O fuel (path ++ [id, i]) (sel rows (O.clus path rows q) id) p) q rows.length
      (sel rows (O.clus path rows q) id) = .ok [] := by
    intro id hid
    obtain ⟨v0, h0⟩ := hconst id (mem_uniq.1 hid)
    have hfull' : ∀ r ∈ sel rows (O.clus path rows q) id, ∀ v ∈ q, (r v).isSome := fun r hr v hv =>
      hfull r ((LearnSpn.sel_sublist rows _ id).subset hr) v hv
    obtain ⟨A, hA, hr, hc, hdiag, hsym, hrange, hent⟩ := C32_correlation hfull'
    have hz : ∀ i j, i < q.length → j < q.length → i ≠ j → A.at2 i j = 0 := by
      intro i j hi hj hij
      by_cases hv : q[i] = v0
      · rw [hsym]
        refine (hent j hj i hi (Ne.symm hij)).2 (h0 _ (List.getElem_mem _) fun h => hij ?_)
        exact (List.Nodup.getElem_inj_iff hq).1 (hv.trans h.symm)
      · exact (hent i hi j hj hij).2 (h0 _ (List.getElem_mem _) hv)
    have hp : fullPartitions A = .ok [] := by
      have : fullPartitions A = fullPartitions ⟨A.r, A.c, fun i j => if i < q.length ∧ j < q.length then A.at2 i j else 0⟩ := by
        have hfa : fromArray A = fromArray ⟨A.r, A.c, fun i j => if i < q.length ∧ j < q.length then A.at2 i j else 0⟩ := by
          unfold fromArray
          have : ((List.range A.r).flatMap fun i => (List.range A.c).map fun j => ((i, j, A.at2 i j) : WEdge)) =
              (List.range A.r).flatMap fun i => (List.range A.c).map fun j =>
                ((i, j, if i < q.length ∧ j < q.length then A.at2 i j else 0) : WEdge) := by
            refine List.flatMap_congr fun i hi => List.map_congr_left fun j hj => ?_
            rw [List.mem_range] at hi hj
            rw [if_pos (by omega)]
          rw [this]
        unfold fullPartitions
        rw [hfa]
      rw [this]
      refine C32_matrix_zero (by simp [hr, hc]) fun i j hij => ?_
      simp only
      split_ifs with h
      · exact hz i j h.1 h.2 hij
      · rfl
    unfold cluster
    split_ifs
    · rfl
    · have : partitions cfg O (path ++ [id]) (sel rows (O.clus path rows q) id) q = .ok [] := by
        simp only [partitions, hmode, hsim, hA, hp]
      simp [this, products]
  unfold learn
  rw [if_neg hlim]
  have hm : ∀ l : List ℕ, (∀ id ∈ l, id ∈ uniq (O.clus path rows q)) → l.mapM (fun id => cluster cfg O (path ++ [id])
      (fun i p => learn cfg O fuel (path ++ [id, i]) (sel rows (O.clus path rows q) id) p) q rows.length
      (sel rows (O.clus path rows q) id)) = .ok (l.map fun _ => ([] : List (ℝ × Circ))) := by
    intro l
    induction l with
    | nil => intro _; rfl
    | cons a l ih =>
      intro h
      rw [List.mapM_cons, hcl a (h a (by simp)), ih fun id hid => h id (by simp [hid])]
      rfl
  simp only
  rw [hm _ fun _ h => h]
  have : ((uniq (O.clus path rows q)).map fun _ => ([] : List (ℝ × Circ))).flatten = [] := by simp
  simp only [this, combine]
  rfl

theorem one_channel (hout : cfg.outCh = 1) (ha : argsOk cfg = true) {fuel : ℕ} {rows : List Row} {q : List Var}
    {res : Except Exc Circ} (h : learn cfg O fuel [0] rows q = res) : learnPrometheus cfg O fuel rows (some q) = res := by
  simp only [learnPrometheus, requested, if_pos ha, hout]
  rw [show List.range 1 = [0] from rfl]
  subst h
  cases hl : learn cfg O fuel [0] rows q with
  | error e => rw [mapM_head_error (f := fun ch => learn cfg O fuel [ch] rows q) hl]
  | ok c => simp [List.mapM_cons, hl, bind, Except.bind, pure, Except.pure, LearnSpn.stack]

/-- C76 FALSE when the templates have different channel numbers: the leaf Product is rejected. -/
theorem C76_unequal_channels_fail (O : Oracle) (rows : List Row) (fuel : ℕ) :
    learnPrometheus ⟨[([0], 1), ([1], 2)], 1, 3, 2, 2, true, .corr, .full⟩ O (fuel + 1) rows (some [0, 1]) =
      .error .valueError := by
  have h : ∀ path, learn ⟨[([0], 1), ([1], 2)], 1, 3, 2, 2, true, .corr, .full⟩ O (fuel + 1) path rows [0, 1] =
      .error .valueError := by
    intro path
    unfold learn
    rw [if_pos (Or.inl (by decide))]
    rfl
  exact one_channel rfl rfl (h [0])

/-- C76 FALSE when a requested variable has no template: alone it raises ... -/
theorem C76_uncovered_fails (O : Oracle) (rows : List Row) (fuel : ℕ) :
    learnPrometheus ⟨[([0], 1)], 1, 2, 2, 2, true, .corr, .full⟩ O (fuel + 1) rows (some [5]) = .error .invalidParameter := by
  have h : ∀ path, learn ⟨[([0], 1)], 1, 2, 2, 2, true, .corr, .full⟩ O (fuel + 1) path rows [5] =
      .error .invalidParameter := by
    intro path
    unfold learn
    rw [if_pos (Or.inl (by decide))]
    rfl
  exact one_channel rfl rfl (h [0])

/-- ... and in a larger scope it is silently dropped. -/
theorem C76_uncovered_dropped (O : Oracle) (rows : List Row) (fuel : ℕ) :
    ∃ c, learnPrometheus ⟨[([0], 1)], 1, 3, 2, 2, true, .corr, .full⟩ O (fuel + 1) rows (some [0, 5]) = .ok c ∧
      (Circ.scope c).query = [0] := by
  obtain ⟨c, h, hq⟩ : ∃ c, learn ⟨[([0], 1)], 1, 3, 2, 2, true, .corr, .full⟩ O (fuel + 1) [0] rows [0, 5] = .ok c ∧
      (Circ.scope c).query = [0] := by
    unfold learn
    rw [if_pos (Or.inl (by decide))]
    exact ⟨_, rfl, rfl⟩
  exact ⟨c, one_channel rfl rfl h, hq⟩

end Verif.Prometheus

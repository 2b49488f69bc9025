import Verif.PromLink
import Verif.LearnSpnProps

/-!
# Property C76: `learn_prometheus` builds a valid circuit over the requested variables
-/

namespace Verif.Prometheus

open Verif Verif.Circ Verif.Build MeasureTheory
open Verif.LearnSpn (uniq sel mapM_ok forall₂_mem_left forall₂_mem_right forall₂_pairwise mem_uniq uniq_nodup sel_length
  Valid valid_of_ok)

/-- Admissible leaf templates: disjoint scopes, one positive channel number. -/
structure CfgOk (cfg : Cfg) (L : ℕ) : Prop where
  disj : cfg.tmpl.Pairwise fun a b => ∀ v ∈ a.1, v ∉ b.1
  chan : ∀ t ∈ cfg.tmpl, t.2 = L
  pos : 1 ≤ L

/-- What is assumed of the callables: clustering labels every row, a custom similarity returns a square matrix over the columns
it was given, neighbours are drawn among the other variables, fitted leaves are normalised, drawn logits are finite. -/
structure OracleOk (μ : Var → Measure ℝ) (cfg : Cfg) (O : Oracle) : Prop where
  clus : ∀ path rows scope, (O.clus path rows scope).length = rows.length
  custom : cfg.sim = .custom → ∀ path rows scope, ∃ A, O.custom path rows scope = .ok A ∧ A.r = scope.length ∧
    A.c = scope.length
  choices : ∀ path d k i, ∀ c ∈ O.choices path d k i, c < d - 1
  fit : ∀ path t rows q, DensOk μ q (O.fit path t rows q)
  rnd : ∀ path k f ci co r, O.rnd path k f ci co r ≠ ⊥

/-- A requestable scope: columns covered by the templates. -/
structure ScopeOk (cfg : Cfg) (scope : List Var) : Prop where
  ne : scope ≠ []
  nodup : scope.Nodup
  nonneg : ∀ v ∈ scope, 0 ≤ v
  cover : ∀ v ∈ scope, ∃ t ∈ cfg.tmpl, v ∈ t.1

/-- No missing value in these columns. -/
def Complete (rows : List Row) (scope : List Var) : Prop := ∀ r ∈ rows, ∀ v ∈ scope, (r v).isSome

variable {μ : Var → Measure ℝ} {cfg : Cfg} {O : Oracle} {L : ℕ}

theorem mvLeaf_ok (hc : CfgOk cfg L) (ho : OracleOk μ cfg O) {scope : List Var} (hs : ScopeOk cfg scope) (path : List ℕ)
    (rows : List Row) : ∃ c, mvLeaf cfg O path rows scope = .ok c ∧ Ok μ (· ∈ scope) c ∧ C c = L := by
  set ts := cfg.tmpl.zipIdx.filter fun t => (scope.filter fun v => t.1.1.contains v) ≠ [] with hts
  have hmem : ∀ t ∈ ts, t.1 ∈ cfg.tmpl ∧ (scope.filter fun v => t.1.1.contains v) ≠ [] := by
    intro t ht
    rw [hts, List.mem_filter, decide_eq_true_eq] at ht
    exact ⟨(List.mem_zipIdx' ht.1).2 ▸ List.getElem_mem _, ht.2⟩
  obtain ⟨leaves, hl, hf⟩ := mapM_ok (P := fun (t : (List Var × ℕ) × ℕ) c =>
      Pre μ (fun v => v ∈ scope ∧ v ∈ t.1.1) c ∧ C c = L ∧
        F c = (Scope.sortedSet (scope.filter fun v => t.1.1.contains v)).length)
      (f := fun t => mkLeaf (Scope.sortedSet (scope.filter fun v => t.1.1.contains v)) t.1.2 1
        (O.fit path t.2 rows (Scope.sortedSet (scope.filter fun v => t.1.1.contains v)))) ts (by
    intro t ht
    obtain ⟨h1, h2⟩ := leaf_pre (μ := μ) (q := Scope.sortedSet (scope.filter fun v => t.1.1.contains v)) (C := t.1.2)
      (d := O.fit path t.2 rows (Scope.sortedSet (scope.filter fun v => t.1.1.contains v)))
      (fun v hv => hs.nonneg v (List.mem_filter.1 ((Scope.mem_sortedSet _ _).1 hv)).1) (Scope.nodup_sortedSet _)
      (by rw [hc.chan _ (hmem t ht).1]; exact hc.pos) (ho.fit _ _ _ _)
    refine ⟨_, h1, h2.congr (fun v => ?_), hc.chan _ (hmem t ht).1, rfl⟩
    rw [Scope.mem_sortedSet, List.mem_filter]
    simp)
  have hcov : ∀ v ∈ scope, ∃ t ∈ ts, v ∈ t.1.1 := by
    intro v hv
    obtain ⟨t, ht, hvt⟩ := hs.cover v hv
    obtain ⟨i, hi, rfl⟩ := List.mem_iff_getElem.1 ht
    refine ⟨(cfg.tmpl[i], i), ?_, hvt⟩
    rw [hts, List.mem_filter, decide_eq_true_eq]
    refine ⟨by rw [List.mem_zipIdx_iff_getElem?]; simp, ?_⟩
    exact List.ne_nil_of_mem (a := v) (by simp [hv, hvt])
  have hpw : ts.Pairwise fun a b => ∀ v ∈ a.1.1, v ∉ b.1.1 := by
    rw [hts]
    refine List.Pairwise.filter _ ?_
    rw [List.pairwise_iff_getElem]
    intro i j hi hj hij
    simp only [List.getElem_zipIdx]
    exact List.pairwise_iff_getElem.1 hc.disj i j (by simpa using hi) (by simpa using hj) hij
  have hmv : mvLeaf cfg O path rows scope = pickLeaf scope leaves := by
    unfold mvLeaf
    rw [← hts, hl]
  rw [hmv]
  have hne : leaves ≠ [] := by
    obtain ⟨v, hv⟩ := List.exists_mem_of_ne_nil _ hs.ne
    obtain ⟨t, ht, _⟩ := hcov v hv
    obtain ⟨b, hb, _⟩ := forall₂_mem_left hf ht
    exact List.ne_nil_of_mem hb
  obtain ⟨c0, cs, hcs⟩ := List.exists_cons_of_ne_nil hne
  by_cases hlen : scope.length = 1
  · obtain ⟨v, rfl⟩ := List.length_eq_one_iff.1 hlen
    obtain ⟨t, ht, hp, hC, hF⟩ := forall₂_mem_right hf (b := c0) (by simp [hcs])
    have hv : v ∈ t.1.1 := by
      have := (hmem t ht).2
      by_contra hcon
      exact this (by simp [hcon])
    refine ⟨c0, by rw [hcs]; simp [pickLeaf], ⟨hp.congr fun u => ?_, ?_⟩, hC⟩
    · simp only [List.mem_singleton]
      exact ⟨fun h => h.1, fun h => ⟨h, h ▸ hv⟩⟩
    · rw [hF]
      have : ([v].filter fun v => t.1.1.contains v) = [v] := by simp [hv]
      rw [this]
      simp [Scope.sortedSet]
  · obtain ⟨c, h1, h2, h3⟩ := prod_ok (μ := μ) hne (K := L) (Vs := fun m v => v ∈ (Circ.scope m).query)
      (fun m hm => by
        obtain ⟨t, _, hp, _⟩ := forall₂_mem_right hf hm
        exact hp.congr fun v => (hp.sc v).symm)
      (fun m hm => by
        obtain ⟨t, _, _, h, _⟩ := forall₂_mem_right hf hm
        exact h)
      (forall₂_pairwise hf hpw fun a a' b b' ha hb hab v hv hv' =>
        hab v ((ha.1.sc v).1 hv).2 ((hb.1.sc v).1 hv').2)
    refine ⟨c, ?_, h2.congr fun v => ?_, h3⟩
    · rw [← h1, hcs]
      simp [pickLeaf, hlen]
    constructor
    · rintro ⟨m, hm, hv⟩
      obtain ⟨t, _, hp, _⟩ := forall₂_mem_right hf hm
      exact ((hp.sc v).1 hv).1
    · intro hv
      obtain ⟨t, ht, hvt⟩ := hcov v hv
      obtain ⟨m, hm, hp, _⟩ := forall₂_mem_left hf ht
      exact ⟨m, hm, (hp.sc v).2 ⟨hv, hvt⟩⟩

/-! ## Products -/

theorem le_width {ms : List Circ} {m : Circ} (h : m ∈ ms) : C m ≤ width ms := by
  unfold width
  induction ms with
  | nil => simp at h
  | cons a ms ih =>
    simp only [List.map_cons, List.foldr_cons]
    rcases List.mem_cons.1 h with rfl | h
    · exact le_max_left _ _
    · exact (ih h).trans (le_max_right _ _)

/-- A child after channel adaptation: itself, or a mixture of its channels (positive weights that sum to one). -/
def Adapted (m m' : Circ) (K : ℕ) : Prop :=
  C m' = K ∧ (C m = K → m' = m) ∧ (C m < K → ∃ W : ℕ → ℕ → ℝ, (∀ ch < K, ∀ i < C m, 0 < W ch i) ∧
    (∀ ch < K, ∑ i ∈ Finset.range (C m), W ch i = 1) ∧
    ∀ x, ∀ ch < K, expL (featAt (den m') 0 x 0 ch) =
      ∑ i ∈ Finset.range (C m), W ch i * expL (featAt (den m) 0 x 0 i))

theorem adapt_spec (ho : OracleOk μ cfg O) (path : List ℕ) {qs : List (List Var)} {ms : List Circ}
    (h : List.Forall₂ (fun q c => Ok μ (· ∈ q) c) qs ms) :
    List.Forall₂ (fun q c => Ok μ (· ∈ q) c) qs (adapt O path ms) ∧
    List.Forall₂ (fun m m' => Adapted m m' (width ms)) ms (adapt O path ms) := by
  have hall : ∀ m ∈ ms, ∃ q, Ok μ (· ∈ q) m := fun m hm => by
    obtain ⟨q, _, hq⟩ := forall₂_mem_right h hm
    exact ⟨q, hq⟩
  have e : ∀ i (hi : i < ms.length), (adapt O path ms)[i]'(by simpa [adapt] using hi) =
      if C ms[i] < width ms then sum ms[i] (width ms) 1 (O.rnd path i) else ms[i] := by
    intro i hi
    simp [adapt]
  constructor
  · rw [List.forall₂_iff_get] at h ⊢
    refine ⟨by rw [h.1]; simp [adapt], fun i h1 h2 => ?_⟩
    have h2' : i < ms.length := by rw [← h.1]; exact h1
    have a := h.2 i h1 h2'
    simp only [List.get_eq_getElem] at a ⊢
    rw [e i h2']
    split
    · exact sum_fresh a (le_trans a.ch (le_width (List.getElem_mem h2'))) (fun f ci co r => ho.rnd path i f ci co r)
    · exact a
  · rw [List.forall₂_iff_get]
    refine ⟨by simp [adapt], fun i h1 h2 => ?_⟩
    simp only [List.get_eq_getElem]
    rw [e i h1]
    obtain ⟨q, hq⟩ := hall ms[i] (List.getElem_mem h1)
    have hle := le_width (List.getElem_mem h1)
    by_cases hlt : C ms[i] < width ms
    · rw [if_pos hlt]
      refine ⟨rfl, fun hc => by omega, fun _ => ?_⟩
      refine ⟨fun ch k => softmax (C ms[i]) (fun j => O.rnd path i 0 j ch 0) k, fun ch hch k hk => ?_, fun ch hch => ?_,
        fun x ch hch => ?_⟩
      · exact softmax_pos hk (ho.rnd path i 0 k ch 0)
      · exact sum_softmax ⟨0, hq.ch, ho.rnd path i 0 0 ch 0⟩
      · have hacc : Accepted (sum ms[i] (width ms) 1 (O.rnd path i)) :=
          (sum_fresh hq (by omega) (fun f ci co r => ho.rnd path i f ci co r)).acc
        have := expL_featAt_sum (c := ms[i]) (Co := width ms) (R := 1) (θ := O.rnd path i) (f := 0) (by rw [hq.one]; omega) x 0 ch
        rw [this]
        rfl
    · rw [if_neg hlt]
      exact ⟨by omega, fun _ => rfl, fun hc => absurd hc hlt⟩

/-! ## Partitions -/

theorem partitions_ok (ho : OracleOk μ cfg O) (ha : argsOk cfg = true) {scope : List Var} {rows : List Row} (path : List ℕ)
    (hfull : Complete rows scope) : ∃ ps, partitions cfg O path rows scope = .ok ps ∧
      (ps = [] ∨ 2 ≤ scope.length ∧ ∃ p0, 1 ≤ p0.length ∧ Severed scope.length p0 ps) := by
  have hnan : hasNaN rows scope = false := by
    unfold hasNaN
    rw [List.any_eq_false]
    intro r hr
    rw [Bool.not_eq_true, List.any_eq_false]
    intro v hv
    have := hfull r hr v hv
    cases h : r v <;> simp_all
  have hfullcase : ∀ A : Mat, A.r = scope.length → A.c = scope.length → ∃ ps, fullPartitions A = .ok ps ∧
      (ps = [] ∨ 2 ≤ scope.length ∧ ∃ p0, 1 ≤ p0.length ∧ Severed scope.length p0 ps) := by
    intro A h1 h2
    rcases Nat.lt_or_ge 1 A.r with hd | hd
    · obtain ⟨ps, p0, g1, g2, g3⟩ := C32_matrix_partitions (h1.trans h2.symm) hd
      refine ⟨ps, g1, Or.inr ⟨by omega, p0, ?_, h1 ▸ g3⟩⟩
      obtain ⟨c, hc, _⟩ := g2.cover 0 (by omega)
      exact List.length_pos_of_mem hc
    · exact ⟨[], (C32_matrix_rejects A).2 (h1.trans h2.symm) hd, Or.inl rfl⟩
  unfold partitions
  simp only [argsOk, Bool.and_eq_true, decide_eq_true_eq, Bool.not_eq_true', ne_eq, decide_not] at ha
  cases hm : cfg.mode with
  | unknown => simp [hm] at ha
  | sampled k =>
    simp only [hnan]
    refine ⟨_, rfl, ?_⟩
    rcases Nat.lt_or_ge 1 scope.length with hd | hd
    · right
      have hk : 1 ≤ k.getD (defaultSamples scope.length) := by
        cases k with
        | none =>
          simp only [Option.getD_none, defaultSamples]
          rw [if_neg (by omega)]
          exact le_max_left _ _
        | some k =>
          simp only [Option.getD_some]
          rcases k with _ | k
          · simp [hm] at ha
          · omega
      exact ⟨hd, _, by simp, (C32_edges_partitions hd hk (fun i _ c hc => ho.choices path _ _ i c hc) _).2⟩
    · left
      unfold sampledPartitions
      rw [if_pos hd]
  | full =>
    cases hs : cfg.sim with
    | unknown => simp [hs] at ha
    | corr =>
      simp only [affinityCorr, hnan]
      exact hfullcase _ rfl rfl
    | rdc =>
      simp only [affinityRdc, hnan]
      exact hfullcase _ rfl rfl
    | custom =>
      obtain ⟨A, h1, h2, h3⟩ := ho.custom hs path rows scope
      simp only [h1]
      exact hfullcase A h2 h3

/-- The variables of a component. -/
def names (scope : List Var) (comp : List ℕ) : List Var := comp.map fun i => scope.getD i 0

theorem mem_names {scope : List Var} {comp : List ℕ} (h : ∀ a ∈ comp, a < scope.length) {v : Var} :
    v ∈ names scope comp ↔ ∃ (i : ℕ) (hi : i < scope.length), i ∈ comp ∧ scope[i] = v := by
  unfold names
  rw [List.mem_map]
  constructor
  · rintro ⟨i, hi, rfl⟩
    exact ⟨i, h i hi, hi, by rw [List.getD_eq_getElem _ _ (h i hi)]⟩
  · rintro ⟨i, hi, hc, rfl⟩
    exact ⟨i, hc, by rw [List.getD_eq_getElem _ _ hi]⟩

theorem componentScope_ok {scope : List Var} (hnd : scope.Nodup) (hpos : ∀ v ∈ scope, 0 ≤ v) {comp : List ℕ}
    (hs : comp.Pairwise (· < ·)) (h : ∀ a ∈ comp, a < scope.length) :
    componentScope scope comp = .ok (names scope comp) ∧ (names scope comp).Nodup := by
  have h1 : comp.mapM (fun i => if h : i < scope.length then (.ok scope[i] : Except Exc Var) else .error .indexError) =
      .ok (names scope comp) := by
    obtain ⟨bs, hb, hf⟩ := mapM_ok (P := fun i v => v = scope.getD i 0)
      (f := fun i => if h : i < scope.length then (.ok scope[i] : Except Exc Var) else .error .indexError) comp (by
      intro a ha
      refine ⟨scope[a]'(h a ha), by rw [dif_pos (h a ha)], by rw [List.getD_eq_getElem _ _ (h a ha)]⟩)
    rw [hb]
    congr 1
    rw [← List.forall₂_eq_eq_eq]
    unfold names
    rw [List.forall₂_map_right_iff]
    exact hf.flip
  have hnd' : (names scope comp).Nodup := by
    unfold names
    rw [List.nodup_map_iff_inj_on (hs.imp fun hab => Nat.ne_of_lt hab)]
    intro a ha b hb hab
    rw [List.getD_eq_getElem _ _ (h a ha), List.getD_eq_getElem _ _ (h b hb)] at hab
    exact (List.Nodup.getElem_inj_iff hnd).1 hab
  refine ⟨?_, hnd'⟩
  unfold componentScope
  rw [h1]
  simp only
  have : Scope.mk? (names scope comp) [] = .ok ⟨names scope comp, []⟩ := by
    refine (Scope.mk?_ok_iff _ _ _).2 ⟨rfl, ?_⟩
    refine ⟨?_, by simp, hnd', by simp, by simp, by simp⟩
    intro v hv
    obtain ⟨i, hi, _, rfl⟩ := (mem_names h).1 hv
    exact hpos _ (List.getElem_mem _)
  rw [this]

/-- A partition turned into scopes. -/
theorem scopes_ok {scope : List Var} (hs : ScopeOk cfg scope) {p : List (List ℕ)} (hp : Partition scope.length p)
    (h2 : 2 ≤ p.length) : p.mapM (componentScope scope) = .ok (p.map (names scope)) ∧
      (∀ q ∈ p.map (names scope), ScopeOk cfg q ∧ q.length < scope.length ∧ ∀ v ∈ q, v ∈ scope) ∧
      (∀ v ∈ scope, ∃ q ∈ p.map (names scope), v ∈ q) ∧
      (p.map (names scope)).Pairwise fun q q' => ∀ v ∈ q, v ∉ q' := by
  have hc : ∀ c ∈ p, componentScope scope c = .ok (names scope c) ∧ (names scope c).Nodup := fun c hc =>
    componentScope_ok hs.nodup hs.nonneg (hp.sorted c hc) (hp.range c hc)
  have hsub : ∀ c ∈ p, ∀ v ∈ names scope c, v ∈ scope := by
    intro c hc' v hv
    obtain ⟨i, hi, _, rfl⟩ := (mem_names (hp.range c hc')).1 hv
    exact List.getElem_mem _
  have hdisj : p.Pairwise fun c c' => ∀ v ∈ names scope c, v ∉ names scope c' := by
    refine hp.disjoint.imp_of_mem fun {c c'} hcm hcm' hd v hv hv' => ?_
    obtain ⟨i, hi, hic, rfl⟩ := (mem_names (hp.range c hcm)).1 hv
    obtain ⟨j, hj, hjc, hij⟩ := (mem_names (hp.range c' hcm')).1 hv'
    have : j = i := (List.Nodup.getElem_inj_iff hs.nodup).1 hij
    exact hd i hic (this ▸ hjc)
  refine ⟨?_, ?_, ?_, ?_⟩
  · obtain ⟨bs, hb, hf⟩ := mapM_ok (P := fun c q => q = names scope c) (f := componentScope scope) p fun c hc' =>
      ⟨_, (hc c hc').1, rfl⟩
    rw [hb]
    congr 1
    rw [← List.forall₂_eq_eq_eq, List.forall₂_map_right_iff]
    exact hf.flip
  · intro q hq
    obtain ⟨c, hcm, rfl⟩ := List.mem_map.1 hq
    have hnec : names scope c ≠ [] := by simpa [names] using hp.ne c hcm
    refine ⟨⟨hnec, (hc c hcm).2, fun v hv => hs.nonneg v (hsub c hcm v hv), fun v hv => hs.cover v (hsub c hcm v hv)⟩, ?_,
      hsub c hcm⟩
    -- another group exists, so this one misses a variable
    obtain ⟨i, hi, rfl⟩ := List.mem_iff_getElem.1 hcm
    obtain ⟨j, hj, hij⟩ : ∃ j, j < p.length ∧ j ≠ i := by
      rcases Nat.eq_zero_or_pos i with rfl | h
      · exact ⟨1, by omega, by omega⟩
      · exact ⟨0, by omega, by omega⟩
    obtain ⟨a, haj⟩ := List.exists_mem_of_ne_nil _ (hp.ne p[j] (List.getElem_mem _))
    have had := hp.range _ (List.getElem_mem hj) a haj
    have hai : a ∉ p[i] := by
      rcases Nat.lt_or_gt_of_ne hij with hlt | hlt
      · exact List.pairwise_iff_getElem.1 hp.disjoint j i hj hi hlt a haj
      · exact fun h => List.pairwise_iff_getElem.1 hp.disjoint i j hi hj hlt a h haj
    have hn : p[i].Nodup := (hp.sorted _ (List.getElem_mem hi)).imp fun hab => Nat.ne_of_lt hab
    have hss : p[i].toFinset ⊆ (Finset.range scope.length).erase a := by
      intro b hb
      rw [List.mem_toFinset] at hb
      rw [Finset.mem_erase, Finset.mem_range]
      exact ⟨fun h => hai (h ▸ hb), hp.range _ (List.getElem_mem hi) b hb⟩
    have hcard := Finset.card_le_card hss
    rw [List.toFinset_card_of_nodup hn, Finset.card_erase_of_mem (Finset.mem_range.2 had), Finset.card_range] at hcard
    simp only [names, List.length_map]
    omega
  · intro v hv
    obtain ⟨i, hi, rfl⟩ := List.mem_iff_getElem.1 hv
    obtain ⟨c, hcm, hic⟩ := hp.cover i hi
    exact ⟨_, List.mem_map.2 ⟨c, hcm, rfl⟩, (mem_names (hp.range c hcm)).2 ⟨i, hi, hic, rfl⟩⟩
  · exact List.pairwise_map.2 hdisj

/-! ## The memo -/

/-- The modules a cluster has learned so far: one per scope, each the answer of the learner for that scope. -/
structure MemoOk (μ : Var → Measure ℝ) (sub : ℕ → List Var → Except Exc Circ) (memo : Memo) : Prop where
  nodup : (memo.map Prod.fst).Nodup
  learned : ∀ i (hi : i < memo.length), sub i memo[i].1 = .ok memo[i].2
  ok : ∀ a ∈ memo, Ok μ (· ∈ a.1) a.2

theorem lookup_none_iff {memo : Memo} {q : List Var} : memo.lookup q = none ↔ q ∉ memo.map Prod.fst := by
  induction memo with
  | nil => simp
  | cons a memo ih =>
    obtain ⟨k, c⟩ := a
    rw [List.lookup_cons]
    by_cases h : q = k
    · simp [h]
    · have : (q == k) = false := by simpa using h
      simp [this, ih, h]

theorem lookup_mem {memo : Memo} {q : List Var} {c : Circ} (h : memo.lookup q = some c) : (q, c) ∈ memo := by
  induction memo with
  | nil => simp at h
  | cons a memo ih =>
    obtain ⟨k, c'⟩ := a
    rw [List.lookup_cons] at h
    by_cases hq : q = k
    · subst hq
      simp at h
      simp [h]
    · have : (q == k) = false := by simpa using hq
      rw [this] at h
      exact List.mem_cons_of_mem _ (ih h)

theorem lookup_grow {memo ext : Memo} {q : List Var} {c : Circ} (h : memo.lookup q = some c) :
    (memo ++ ext).lookup q = some c := by
  rw [List.lookup_append, h]; rfl

theorem child_ok {sub : ℕ → List Var → Except Exc Circ} {memo : Memo} (hm : MemoOk μ sub memo) {q : List Var}
    (hq : ∀ i, ∃ c, sub i q = .ok c ∧ Ok μ (· ∈ q) c) : ∃ c ext, child sub memo q = .ok (c, memo ++ ext) ∧
      MemoOk μ sub (memo ++ ext) ∧ (memo ++ ext).lookup q = some c ∧
      ∀ k, k ∈ (memo ++ ext).map Prod.fst ↔ k ∈ memo.map Prod.fst ∨ k = q := by
  unfold child
  cases hl : memo.lookup q with
  | some c =>
    refine ⟨c, [], by simp, by simpa using hm, by simpa using hl, fun k => ?_⟩
    have : q ∈ memo.map Prod.fst := List.mem_map.2 ⟨_, lookup_mem hl, rfl⟩
    simp only [List.append_nil]
    constructor
    · exact Or.inl
    · rintro (h | rfl)
      · exact h
      · exact this
  | none =>
    obtain ⟨c, hc, hok⟩ := hq memo.length
    have hnot := lookup_none_iff.1 hl
    refine ⟨c, [(q, c)], by simp [hc], ⟨?_, ?_, ?_⟩, ?_, fun k => by simp⟩
    · rw [List.map_append, List.nodup_append]
      refine ⟨hm.nodup, by simp, ?_⟩
      intro a ha b hb
      simp only [List.map_cons, List.map_nil, List.mem_singleton] at hb
      rintro rfl
      exact hnot (hb ▸ ha)
    · intro i hi
      rcases Nat.lt_or_ge i memo.length with h | h
      · rw [List.getElem_append_left h]
        exact hm.learned i h
      · have : i = memo.length := by simp at hi; omega
        subst this
        simpa using hc
    · intro a ha
      rcases List.mem_append.1 ha with h | h
      · exact hm.ok a h
      · simp only [List.mem_singleton] at h
        rw [h]; exact hok
    · rw [List.lookup_append, hl]
      simp

theorem children_ok {sub : ℕ → List Var → Except Exc Circ} : ∀ (qs : List (List Var)) (memo : Memo), MemoOk μ sub memo →
    (∀ q ∈ qs, ∀ i, ∃ c, sub i q = .ok c ∧ Ok μ (· ∈ q) c) → ∃ cs ext, children sub memo qs = .ok (cs, memo ++ ext) ∧
      MemoOk μ sub (memo ++ ext) ∧ List.Forall₂ (fun q c => (memo ++ ext).lookup q = some c) qs cs ∧
      ∀ k, k ∈ (memo ++ ext).map Prod.fst ↔ k ∈ memo.map Prod.fst ∨ k ∈ qs := by
  intro qs
  induction qs with
  | nil => intro memo hm _; exact ⟨[], [], by simp [children], by simpa using hm, .nil, by simp⟩
  | cons q qs ih =>
    intro memo hm hq
    obtain ⟨c, e1, h1, h2, h3, h4⟩ := child_ok hm (hq q (by simp))
    obtain ⟨cs, e2, g1, g2, g3, g4⟩ := ih _ h2 fun q' hq' => hq q' (List.mem_cons_of_mem _ hq')
    refine ⟨c :: cs, e1 ++ e2, ?_, ?_, ?_, fun k => ?_⟩
    · simp only [children, h1, g1, List.append_assoc]
    · rw [← List.append_assoc]; exact g2
    · rw [← List.append_assoc]
      exact .cons (lookup_grow h3) g3
    · rw [← List.append_assoc, g4, h4, List.mem_cons, or_assoc]

/-- `c` is the product, over the groups `qs`, of the modules `M q` (channels adapted). -/
structure IsProduct (M : List Var → Circ) (qs : List (List Var)) (c : Circ) : Prop where
  channels : ∀ q ∈ qs, C (M q) ≤ C c
  attained : ∃ q ∈ qs, C (M q) = C c
  value : ∃ ms, List.Forall₂ (fun q m => Adapted (M q) m (C c)) qs ms ∧
    ∀ x, ∀ ch, expL (featAt (den c) 0 x 0 ch) = (ms.map fun m => expL (featAt (den m) 0 x 0 ch)).prod

theorem width_mem {ms : List Circ} (hne : ms ≠ []) : ∃ m ∈ ms, C m = width ms := by
  unfold width
  induction ms with
  | nil => exact absurd rfl hne
  | cons a ms ih =>
    simp only [List.map_cons, List.foldr_cons]
    rcases ms with _ | ⟨b, ms⟩
    · exact ⟨a, by simp, by simp⟩
    · obtain ⟨m, hm, hm'⟩ := ih (by simp)
      rcases Nat.le_total (C a) ((List.map C (b :: ms)).foldr max 0) with h | h
      · exact ⟨m, List.mem_cons_of_mem _ hm, by rw [hm', max_eq_right h]⟩
      · exact ⟨a, by simp, by rw [max_eq_left h]⟩

/-- The modules of the memo as a function of the scope. -/
def modOf (memo : Memo) (q : List Var) : Circ := (memo.lookup q).getD (leaf [] 0 0 fun _ _ _ _ => ⊥)

theorem modOf_eq {memo : Memo} {q : List Var} {c : Circ} (h : memo.lookup q = some c) : modOf memo q = c := by
  unfold modOf; rw [h]; rfl

theorem modOf_grow {memo ext : Memo} {q : List Var} (h : q ∈ memo.map Prod.fst) : modOf (memo ++ ext) q = modOf memo q := by
  cases hl : memo.lookup q with
  | none => exact absurd h (lookup_none_iff.1 hl)
  | some c => rw [modOf_eq hl, modOf_eq (lookup_grow hl)]

theorem IsProduct.congr {M M' : List Var → Circ} {qs : List (List Var)} {c : Circ} (h : IsProduct M qs c)
    (he : ∀ q ∈ qs, M q = M' q) : IsProduct M' qs c := by
  refine ⟨fun q hq => he q hq ▸ h.channels q hq, ?_, ?_⟩
  · obtain ⟨q, hq, hc⟩ := h.attained
    exact ⟨q, hq, by rw [← he q hq, hc]⟩
  · obtain ⟨ms, h1, h2⟩ := h.value
    refine ⟨ms, ?_, h2⟩
    rw [List.forall₂_iff_get] at h1 ⊢
    refine ⟨h1.1, fun i a b => ?_⟩
    have := h1.2 i a b
    rwa [he _ (List.get_mem _ _)] at this

/-- One partition. -/
theorem product_ok (ho : OracleOk μ cfg O) (path : List ℕ) {scope : List Var} {qs : List (List Var)} {cs : List Circ}
    {memo : Memo} (hne : qs ≠ []) (hl : List.Forall₂ (fun q c => memo.lookup q = some c) qs cs)
    (hok : ∀ a ∈ memo, Ok μ (· ∈ a.1) a.2) (hcov : ∀ v, v ∈ scope ↔ ∃ q ∈ qs, v ∈ q)
    (hd : qs.Pairwise fun q q' => ∀ v ∈ q, v ∉ q') :
    ∃ c, mkProd (adapt O path cs) = .ok c ∧ Ok μ (· ∈ scope) c ∧ IsProduct (modOf memo) qs c := by
  have hf : List.Forall₂ (fun q c => Ok μ (· ∈ q) c) qs cs := hl.imp fun q c h => hok _ (lookup_mem h)
  obtain ⟨h1, h2⟩ := adapt_spec ho path hf
  have hcs : cs = qs.map (modOf memo) := by
    rw [← List.forall₂_eq_eq_eq, List.forall₂_map_right_iff]
    refine hl.flip.imp fun c q h => (modOf_eq h).symm
  have hlen := h1.length_eq
  have hane : adapt O path cs ≠ [] := by
    intro h; rw [h] at hlen; exact hne (List.length_eq_zero_iff.1 hlen)
  obtain ⟨c, g1, g2, g3⟩ := prod_ok (μ := μ) hane (K := width cs) (Vs := fun m v => v ∈ (Circ.scope m).query)
    (fun m hm => by
      obtain ⟨q, _, hp⟩ := forall₂_mem_right h1 hm
      exact hp.toPre.congr fun v => (hp.sc v).symm)
    (fun m hm => by
      obtain ⟨m0, _, h⟩ := forall₂_mem_right h2 hm
      exact h.1)
    (forall₂_pairwise h1 hd fun a a' b b' ha hb hab v hv hv' => hab v ((ha.sc v).1 hv) ((hb.sc v).1 hv'))
  refine ⟨c, g1, g2.congr fun v => ?_, ?_, ?_, ?_⟩
  · rw [hcov v]
    constructor
    · rintro ⟨m, hm, hv⟩
      obtain ⟨q, hq, hp⟩ := forall₂_mem_right h1 hm
      exact ⟨q, hq, (hp.sc v).1 hv⟩
    · rintro ⟨q, hq, hv⟩
      obtain ⟨m, hm, hp⟩ := forall₂_mem_left h1 hq
      exact ⟨m, hm, (hp.sc v).2 hv⟩
  · intro q hq
    rw [g3]
    exact le_width (by rw [hcs]; exact List.mem_map.2 ⟨q, hq, rfl⟩)
  · have hcne : cs ≠ [] := by rw [hcs]; simpa using hne
    obtain ⟨m, hm, hw⟩ := width_mem hcne
    rw [hcs] at hm
    obtain ⟨q, hq, rfl⟩ := List.mem_map.1 hm
    exact ⟨q, hq, by rw [hw, g3]⟩
  · refine ⟨adapt O path cs, ?_, fun x ch => ?_⟩
    · rw [g3]
      rw [hcs] at h2 ⊢
      rwa [List.forall₂_map_left_iff] at h2
    · rw [mkProd_value g1]
      congr 1
      refine List.map_congr_left fun m hm => ?_
      obtain ⟨q, _, hp⟩ := forall₂_mem_right h1 hm
      exact joint_one hp.one x ch

theorem products_ok (ho : OracleOk μ cfg O) (path : List ℕ) {scope : List Var} (hs : ScopeOk cfg scope)
    {sub : ℕ → List Var → Except Exc Circ}
    (hsub : ∀ i q, ScopeOk cfg q → q.length < scope.length → (∀ v ∈ q, v ∈ scope) → ∃ c, sub i q = .ok c ∧ Ok μ (· ∈ q) c) :
    ∀ (ps : List (List (List ℕ))) (i : ℕ) (memo : Memo), MemoOk μ sub memo →
      (∀ p ∈ ps, Partition scope.length p ∧ 2 ≤ p.length) →
      ∃ cs ext, products O path sub scope i memo ps = .ok (cs, memo ++ ext) ∧ MemoOk μ sub (memo ++ ext) ∧
        List.Forall₂ (fun p c => Ok μ (· ∈ scope) c ∧ IsProduct (modOf (memo ++ ext)) (p.map (names scope)) c) ps cs ∧
        ∀ k, k ∈ (memo ++ ext).map Prod.fst ↔ k ∈ memo.map Prod.fst ∨ ∃ p ∈ ps, k ∈ p.map (names scope) := by
  intro ps
  induction ps with
  | nil => intro i memo hm _; exact ⟨[], [], by simp [products], by simpa using hm, .nil, by simp⟩
  | cons p ps ih =>
    intro i memo hm hp
    obtain ⟨hpp, hp2⟩ := hp p (by simp)
    obtain ⟨a1, a2, a3, a4⟩ := scopes_ok hs hpp hp2
    obtain ⟨cs, e1, b1, b2, b3, b4⟩ := children_ok (p.map (names scope)) memo hm fun q hq j => by
      obtain ⟨h1, h2, h3⟩ := a2 q hq
      exact hsub j q h1 h2 h3
    have hne : p.map (names scope) ≠ [] := by
      intro h
      have := congrArg List.length h
      simp at this
      rw [this] at hp2
      simp at hp2
    obtain ⟨c, c1, c2, c3⟩ := product_ok ho (path ++ [i]) (scope := scope) hne b3 b2.ok (fun v => by
      constructor
      · exact a3 v
      · rintro ⟨q, hq, hv⟩
        exact (a2 q hq).2.2 v hv) a4
    obtain ⟨rest, e2, d1, d2, d3, d4⟩ := ih (i + 1) _ b2 fun p' hp' => hp p' (List.mem_cons_of_mem _ hp')
    refine ⟨c :: rest, e1 ++ e2, ?_, ?_, ?_, fun k => ?_⟩
    · simp only [products, a1, b1, c1, d1, List.append_assoc]
    · rw [← List.append_assoc]; exact d2
    · rw [← List.append_assoc]
      refine .cons ⟨c2, c3.congr fun q hq => ?_⟩ d3
      exact (modOf_grow ((b4 q).2 (Or.inr hq))).symm
    · rw [← List.append_assoc, d4, b4]
      simp only [List.mem_cons, exists_eq_or_imp, or_assoc]

end Verif.Prometheus

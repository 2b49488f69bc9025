import Verif.LearnSpn

/-!
# Property C31: `learn_spn` builds a valid circuit over the requested variables
-/

namespace Verif.LearnSpn

open Verif Verif.Circ Verif.Build MeasureTheory

variable {ρ : Type}

theorem mapM_ok {α β ε : Type} {f : α → Except ε β} {P : α → β → Prop} (l : List α)
    (h : ∀ a ∈ l, ∃ b, f a = .ok b ∧ P a b) : ∃ bs, l.mapM f = .ok bs ∧ List.Forall₂ P l bs := by
  induction l with
  | nil => exact ⟨[], rfl, .nil⟩
  | cons a l ih =>
    obtain ⟨b, hb, hp⟩ := h a (by simp)
    obtain ⟨bs, hbs, hps⟩ := ih fun x hx => h x (by simp [hx])
    refine ⟨b :: bs, ?_, .cons hp hps⟩
    simp [List.mapM_cons, hb, hbs, bind, Except.bind, pure, Except.pure]

theorem forall₂_mem_right {α β : Type} {R : α → β → Prop} {l : List α} {bs : List β} (h : List.Forall₂ R l bs) {b : β}
    (hb : b ∈ bs) : ∃ a ∈ l, R a b := by
  induction h with
  | nil => simp at hb
  | cons h1 _ ih =>
    rcases List.mem_cons.1 hb with rfl | hb
    · exact ⟨_, by simp, h1⟩
    · obtain ⟨a, ha, hr⟩ := ih hb
      exact ⟨a, by simp [ha], hr⟩

theorem forall₂_mem_left {α β : Type} {R : α → β → Prop} {l : List α} {bs : List β} (h : List.Forall₂ R l bs) {a : α}
    (ha : a ∈ l) : ∃ b ∈ bs, R a b := by
  induction h with
  | nil => simp at ha
  | cons h1 _ ih =>
    rcases List.mem_cons.1 ha with rfl | ha
    · exact ⟨_, by simp, h1⟩
    · obtain ⟨b, hb, hr⟩ := ih ha
      exact ⟨b, by simp [hb], hr⟩

theorem forall₂_pairwise {α β : Type} {R : α → β → Prop} {S : α → α → Prop} {S' : β → β → Prop} {l : List α} {bs : List β}
    (h : List.Forall₂ R l bs) (hp : l.Pairwise S) (hs : ∀ a a' b b', R a a' → R b b' → S a b → S' a' b') :
    bs.Pairwise S' := by
  induction h with
  | nil => simp
  | cons h1 h2 ih =>
    rw [List.pairwise_cons] at hp ⊢
    refine ⟨fun b hb => ?_, ih hp.2⟩
    obtain ⟨a, ha, hr⟩ := forall₂_mem_right h2 hb
    exact hs _ _ _ _ h1 hr (hp.1 a ha)

theorem mem_uniq {labels : List ℕ} {id : ℕ} : id ∈ uniq labels ↔ id ∈ labels := by
  simp [uniq, List.mem_insertionSort]

theorem uniq_nodup (labels : List ℕ) : (uniq labels).Nodup :=
  (List.perm_insertionSort _ _).nodup_iff.2 (List.nodup_dedup _)

theorem mem_sel {α : Type} {xs : List α} {labels : List ℕ} {id : ℕ} {x : α} :
    x ∈ sel xs labels id ↔ (x, id) ∈ xs.zip labels := by
  unfold sel
  simp only [List.mem_map, List.mem_filter, decide_eq_true_eq]
  constructor
  · rintro ⟨⟨a, b⟩, ⟨h1, rfl⟩, rfl⟩; exact h1
  · intro h; exact ⟨_, ⟨h, rfl⟩, rfl⟩

theorem sel_sublist {α : Type} (xs : List α) (labels : List ℕ) (id : ℕ) : (sel xs labels id).Sublist xs := by
  unfold sel
  induction xs generalizing labels with
  | nil => simp
  | cons x xs ih =>
    rcases labels with _ | ⟨l, labels⟩
    · simp
    · simp only [List.zip_cons_cons, List.filter_cons]
      split
      · simpa using ih labels
      · exact (ih labels).trans (List.sublist_cons_self _ _)

theorem sel_length {α : Type} {xs : List α} {labels : List ℕ} (h : labels.length = xs.length) (id : ℕ) :
    (sel xs labels id).length = (labels.filter fun l => l = id).length := by
  unfold sel
  induction xs generalizing labels with
  | nil => rw [List.length_nil, List.length_eq_zero_iff] at h; subst h; rfl
  | cons x xs ih =>
    rcases labels with _ | ⟨l, labels⟩
    · simp at h
    · have := ih (labels := labels) (by simpa using h)
      simp only [List.zip_cons_cons, List.filter_cons]
      by_cases hl : l = id
      · simp [hl] at this ⊢; exact this
      · simp [hl] at this ⊢; exact this

theorem sel_ne_nil {α : Type} {xs : List α} {labels : List ℕ} (h : labels.length = xs.length) {id : ℕ} (hid : id ∈ labels) :
    sel xs labels id ≠ [] := by
  intro hn
  have := sel_length h id
  rw [hn, List.length_nil, eq_comm, List.length_eq_zero_iff, List.filter_eq_nil_iff] at this
  simpa using this id hid

theorem sel_lt {α : Type} {xs : List α} {labels : List ℕ} (h : labels.length = xs.length) {id id' : ℕ} (hid : id' ∈ labels)
    (hne : id' ≠ id) : (sel xs labels id).length < xs.length := by
  rw [sel_length h, ← h]
  exact List.length_filter_lt_length_iff_exists.2 ⟨id', hid, by simpa using hne⟩

theorem sel_cover {α : Type} {xs : List α} {labels : List ℕ} (h : labels.length = xs.length) {x : α} (hx : x ∈ xs) :
    ∃ id ∈ labels, x ∈ sel xs labels id := by
  obtain ⟨i, hi, rfl⟩ := List.mem_iff_getElem.1 hx
  refine ⟨labels[i], List.getElem_mem _, mem_sel.2 ?_⟩
  rw [List.mem_iff_getElem]
  exact ⟨i, by simp; omega, by simp⟩

theorem sel_disjoint {α : Type} {xs : List α} {labels : List ℕ} (hnd : xs.Nodup) {id id' : ℕ} (hne : id ≠ id') {x : α}
    (h1 : x ∈ sel xs labels id) : x ∉ sel xs labels id' := by
  intro h2
  rw [mem_sel, List.mem_iff_getElem] at h1 h2
  obtain ⟨i, hi, e1⟩ := h1
  obtain ⟨j, hj, e2⟩ := h2
  simp only [List.getElem_zip, Prod.mk.injEq] at e1 e2
  have : i = j := (List.Nodup.getElem_inj_iff hnd).1 (e1.1.trans e2.1.symm)
  subst this
  exact hne (e1.2.symm.trans e2.2)

/-- Admissible arguments: templates over disjoint sets of non-negative columns, all with the same positive channel number;
`out_channels >= 1`, both slice limits at least 2. -/
structure CfgOk (cfg : Cfg) (L : ℕ) : Prop where
  disj : cfg.tmpl.Pairwise fun a b => ∀ v ∈ a.1, v ∉ b.1
  chan : ∀ t ∈ cfg.tmpl, t.2 = L
  pos : 1 ≤ L
  outCh : 1 ≤ cfg.outCh
  minF : 2 ≤ cfg.minF
  minI : 2 ≤ cfg.minI

/-- What is assumed of the callables: they label every column / row, clustering finds at least two clusters whenever it is
called, fitted leaves are normalised densities, drawn logits are finite. -/
structure OracleOk (μ : Var → Measure ℝ) (cfg : Cfg) (O : Oracle ρ) : Prop where
  part : ∀ path rows scope, (O.part path rows scope).length = scope.length
  clus : ∀ path ch rows, (O.clus path ch rows).length = rows.length
  two : ∀ path ch rows, cfg.minI ≤ rows.length →
    ∃ a ∈ O.clus path ch rows, ∃ b ∈ O.clus path ch rows, a ≠ b
  fit : ∀ path t rows q, DensOk μ q (O.fit path t rows q)
  rnd : ∀ path k f ci co r, O.rnd path k f ci co r ≠ ⊥

/-- A requestable scope: columns covered by the templates. -/
structure ScopeOk (cfg : Cfg) (scope : List Var) : Prop where
  ne : scope ≠ []
  nodup : scope.Nodup
  nonneg : ∀ v ∈ scope, 0 ≤ v
  cover : ∀ v ∈ scope, ∃ t ∈ cfg.tmpl, v ∈ t.1

variable {μ : Var → Measure ℝ} {cfg : Cfg} {O : Oracle ρ} {L : ℕ}

theorem mvLeaf_ok (hc : CfgOk cfg L) (ho : OracleOk μ cfg O) {scope : List Var} (hs : ScopeOk cfg scope) (path : List ℕ)
    (rows : List ρ) : ∃ c, mvLeaf cfg O path rows scope = .ok c ∧ Ok μ (· ∈ scope) c ∧ C c = L := by
  set ts := cfg.tmpl.zipIdx.filter fun t => (scope.filter fun v => t.1.1.contains v) ≠ [] with hts
  have hmem : ∀ t ∈ ts, t.1 ∈ cfg.tmpl ∧ (scope.filter fun v => t.1.1.contains v) ≠ [] := by
    intro t ht
    rw [hts, List.mem_filter, decide_eq_true_eq] at ht
    exact ⟨(List.mem_zipIdx' ht.1).2 ▸ List.getElem_mem _, ht.2⟩
  obtain ⟨leaves, hl, hf⟩ := mapM_ok (P := fun (t : (List Var × ℕ) × ℕ) c =>
      Pre μ (fun v => v ∈ scope ∧ v ∈ t.1.1) c ∧ C c = L ∧
        F c = (Scope.sortedSet (scope.filter fun v => t.1.1.contains v)).length)
      (f := fun t => mkLeaf (Scope.sortedSet (scope.filter fun v => t.1.1.contains v)) t.1.2 1
        (O.fit path t.2 rows (Scope.sortedSet (scope.filter fun v => t.1.1.contains v)))) ts (by
    intro t ht
    obtain ⟨h1, h2⟩ := leaf_pre (μ := μ) (q := Scope.sortedSet (scope.filter fun v => t.1.1.contains v)) (C := t.1.2)
      (d := O.fit path t.2 rows (Scope.sortedSet (scope.filter fun v => t.1.1.contains v)))
      (fun v hv => hs.nonneg v (List.mem_filter.1 ((Scope.mem_sortedSet _ _).1 hv)).1) (Scope.nodup_sortedSet _)
      (by rw [hc.chan _ (hmem t ht).1]; exact hc.pos) (ho.fit _ _ _ _)
    refine ⟨_, h1, h2.congr (fun v => ?_), hc.chan _ (hmem t ht).1, rfl⟩
    rw [Scope.mem_sortedSet, List.mem_filter]
    simp)
  have hcov : ∀ v ∈ scope, ∃ t ∈ ts, v ∈ t.1.1 := by
    intro v hv
    obtain ⟨t, ht, hvt⟩ := hs.cover v hv
    obtain ⟨i, hi, rfl⟩ := List.mem_iff_getElem.1 ht
    refine ⟨(cfg.tmpl[i], i), ?_, hvt⟩
    rw [hts, List.mem_filter, decide_eq_true_eq]
    refine ⟨by rw [List.mem_zipIdx_iff_getElem?]; simp, ?_⟩
    exact List.ne_nil_of_mem (a := v) (by simp [hv, hvt])
  have hpw : ts.Pairwise fun a b => ∀ v ∈ a.1.1, v ∉ b.1.1 := by
    rw [hts]
    refine List.Pairwise.filter _ ?_
    rw [List.pairwise_iff_getElem]
    intro i j hi hj hij
    simp only [List.getElem_zipIdx]
    exact List.pairwise_iff_getElem.1 hc.disj i j (by simpa using hi) (by simpa using hj) hij
  have hmv : mvLeaf cfg O path rows scope = pickLeaf scope leaves := by
    unfold mvLeaf
    rw [← hts, hl]
  rw [hmv]
  unfold pickLeaf
  have hne : leaves ≠ [] := by
    obtain ⟨v, hv⟩ := List.exists_mem_of_ne_nil _ hs.ne
    obtain ⟨t, ht, _⟩ := hcov v hv
    obtain ⟨b, hb, _⟩ := forall₂_mem_left hf ht
    exact List.ne_nil_of_mem hb
  split
  · obtain ⟨c, h1, h2, h3⟩ := prod_ok (μ := μ) hne (K := L) (Vs := fun m v => v ∈ (Circ.scope m).query)
      (fun m hm => by
        obtain ⟨t, _, hp, _⟩ := forall₂_mem_right hf hm
        exact hp.congr fun v => (hp.sc v).symm)
      (fun m hm => by
        obtain ⟨t, _, _, h, _⟩ := forall₂_mem_right hf hm
        exact h)
      (forall₂_pairwise hf hpw fun a a' b b' ha hb hab v hv hv' =>
        hab v ((ha.1.sc v).1 hv).2 ((hb.1.sc v).1 hv').2)
    refine ⟨c, h1, h2.congr fun v => ?_, h3⟩
    constructor
    · rintro ⟨m, hm, hv⟩
      obtain ⟨t, _, hp, _⟩ := forall₂_mem_right hf hm
      exact ((hp.sc v).1 hv).1
    · intro hv
      obtain ⟨t, ht, hvt⟩ := hcov v hv
      obtain ⟨m, hm, hp, _⟩ := forall₂_mem_left hf ht
      exact ⟨m, hm, (hp.sc v).2 ⟨hv, hvt⟩⟩
  · rename_i hlen
    obtain ⟨c, cs, rfl⟩ := List.exists_cons_of_ne_nil hne
    obtain ⟨v, rfl⟩ : ∃ v, scope = [v] := by
      apply List.length_eq_one_iff.1
      have := List.length_pos_of_ne_nil hs.ne
      omega
    obtain ⟨t, ht, hp, hC, hF⟩ := forall₂_mem_right hf (b := c) (by simp)
    have hv : v ∈ t.1.1 := by
      have := (hmem t ht).2
      by_contra hcon
      exact this (by simp [hcon])
    refine ⟨c, rfl, ⟨hp.congr fun u => ?_, ?_⟩, hC⟩
    · simp only [List.mem_singleton]
      exact ⟨fun h => h.1, fun h => ⟨h, h ▸ hv⟩⟩
    · rw [hF]
      have : ([v].filter fun v => t.1.1.contains v) = [v] := by simp [hv]
      rw [this]
      simp [Scope.sortedSet]

theorem refOc_eq (hc : CfgOk cfg L) (hne : cfg.tmpl ≠ []) : refOc cfg = max L cfg.outCh := by
  obtain ⟨t, ts, h⟩ := List.exists_cons_of_ne_nil hne
  have := hc.chan t (by simp [h])
  unfold refOc
  simp only [h, List.head?_cons, Option.map_some, Option.getD_some, this]
  rcases Nat.lt_or_ge cfg.outCh L with h1 | h1
  · rw [if_pos h1]; omega
  · rw [if_neg (by omega)]; omega

theorem adapt_spec (hc : CfgOk cfg L) (ho : OracleOk μ cfg O) (hne : cfg.tmpl ≠ []) (path : List ℕ)
    {ps : List (List Var × ℕ)} {subs : List Circ}
    (h : List.Forall₂ (fun (p : List Var × ℕ) c => Ok μ (· ∈ p.1) c ∧ C c ≤ max L cfg.outCh) ps subs) :
    List.Forall₂ (fun (p : List Var × ℕ) c => Ok μ (· ∈ p.1) c ∧ C c = max L cfg.outCh) ps (adapt cfg O path subs) := by
  have hr := refOc_eq hc hne
  have hpos := hc.pos
  rw [List.forall₂_iff_get] at h ⊢
  refine ⟨by rw [h.1]; simp [adapt], fun i h1 h2 => ?_⟩
  have h2' : i < subs.length := by rw [← h.1]; exact h1
  obtain ⟨a, b⟩ := h.2 i h1 h2'
  simp only [List.get_eq_getElem] at a b ⊢
  have e : (adapt cfg O path subs)[i] =
      if C subs[i] < max L cfg.outCh then sum subs[i] (max L cfg.outCh) 1 (O.rnd path i) else subs[i] := by
    simp [adapt, hr]
  rw [e]
  split
  · exact ⟨sum_fresh a (by omega) (fun f ci co r => ho.rnd path i f ci co r), rfl⟩
  · exact ⟨a, by omega⟩

theorem fractions_sum {labels : List ℕ} (hne : labels ≠ []) : (fractions labels labels.length).sum = 1 := by
  have h1 : ((uniq labels).map fun id => (labels.filter fun l => l = id).length).sum = labels.length := by
    have hperm : (uniq labels).Perm labels.dedup := List.perm_insertionSort _ _
    rw [(hperm.map _).sum_eq]
    have : (fun id => (labels.filter fun l => l = id).length) = fun id => labels.count id := by
      funext id
      rw [List.count_eq_length_filter]
      congr 2
    rw [this]
    exact List.sum_map_count_dedup_eq_length labels
  have h2 : (fractions labels labels.length).sum =
      ((((uniq labels).map fun id => (labels.filter fun l => l = id).length).sum : ℕ) : ℝ) / labels.length := by
    unfold fractions
    induction uniq labels with
    | nil => simp
    | cons a l ih =>
      simp only [List.map_cons, List.sum_cons, ih]
      push_cast
      ring
  rw [h2, h1]
  have : (labels.length : ℝ) ≠ 0 := by
    have := List.length_pos_of_ne_nil hne
    positivity
  exact div_self this

theorem fractions_pos {labels : List ℕ} {n : ℕ} (hn : 0 < n) : ∀ x ∈ fractions labels n, 0 < x := by
  intro x hx
  obtain ⟨id, hid, rfl⟩ := List.mem_map.1 hx
  have : 0 < (labels.filter fun l => l = id).length := by
    apply List.length_pos_of_mem (a := id)
    simp [mem_uniq.1 hid]
  positivity

/-- One channel: the Sum over clusters is accepted and is the mixture of the sub-structures with the cluster fractions. -/
theorem oneChannel_ok {sub : ℕ → List ρ → Except Exc Circ} {labels : List ℕ} {rows : List ρ} {V : Var → Prop} {K : ℕ}
    (hlen : labels.length = rows.length) (hne : rows ≠ [])
    (h : ∀ id ∈ uniq labels, ∃ c, sub id (sel rows labels id) = .ok c ∧ Ok μ V c ∧ C c ≤ K) :
    ∃ s subs, oneChannel sub labels rows = .ok s ∧ Ok μ V s ∧ C s = 1 ∧
      List.Forall₂ (fun id c => sub id (sel rows labels id) = .ok c ∧ Ok μ V c ∧ C c ≤ K) (uniq labels) subs ∧
      ∀ x, expL (featAt (den s) 0 x 0 0) = (((fractions labels rows.length).zip subs).map fun a =>
        a.1 * ((∑ k ∈ Finset.range (C a.2), expL (featAt (den a.2) 0 x 0 k)) / C a.2)).sum := by
  obtain ⟨subs, hs, hf⟩ := mapM_ok (P := fun id c => sub id (sel rows labels id) = .ok c ∧ Ok μ V c ∧ C c ≤ K)
    (f := fun id => sub id (sel rows labels id)) (uniq labels) (by
      intro id hid
      obtain ⟨c, h1, h2⟩ := h id hid
      exact ⟨c, h1, h1, h2⟩)
  have hlne : labels ≠ [] := by
    intro hl
    rw [hl] at hlen
    exact hne (List.length_eq_zero_iff.1 hlen.symm)
  have hflen : (fractions labels rows.length).length = subs.length := by
    unfold fractions; rw [List.length_map, hf.length_eq]
  have hsnd : ((fractions labels rows.length).zip subs).map Prod.snd = subs := by
    rw [List.map_snd_zip]; omega
  have hfst : ((fractions labels rows.length).zip subs).map Prod.fst = fractions labels rows.length := by
    rw [List.map_fst_zip]; omega
  have hzne : (fractions labels rows.length).zip subs ≠ [] := by
    intro hz
    have : ((fractions labels rows.length).zip subs).map Prod.fst = [] := by rw [hz]; rfl
    rw [hfst] at this
    unfold fractions at this
    rw [List.map_eq_nil_iff] at this
    obtain ⟨a, ha⟩ := List.exists_mem_of_ne_nil _ hlne
    have := mem_uniq.2 ha
    rw [‹uniq labels = []›] at this
    simp at this
  obtain ⟨c, h1, h2, h3, h4⟩ := sum_ok (μ := μ) (V := V) hzne
    (fun a ha => by
      have : a.2 ∈ subs := (List.of_mem_zip (a := a.1) (b := a.2) ha).2
      obtain ⟨id, _, _, hok, _⟩ := forall₂_mem_right hf this
      exact hok)
    (fun a ha => fractions_pos (List.length_pos_of_ne_nil hne) _ (List.of_mem_zip (a := a.1) (b := a.2) ha).1)
    (by rw [hfst, ← hlen]; exact fractions_sum hlne)
  refine ⟨c, subs, ?_, h2, h3, hf, h4⟩
  unfold oneChannel
  rw [hs]
  exact h1

theorem stack_ok {l : List Circ} (hne : l ≠ []) {V : Var → Prop} (h : ∀ m ∈ l, Ok μ V m ∧ C m = 1) :
    ∃ c, stack l = .ok c ∧ Ok μ V c ∧ C c = l.length ∧
      ∀ i (hi : i < l.length) x, featAt (den c) 0 x 0 i = featAt (den l[i]) 0 x 0 0 := by
  obtain ⟨_, h2, h3, h4⟩ := cat2_ok (μ := μ) hne fun m hm => (h m hm).1
  have hsum : (l.map C).sum = l.length := by
    rw [List.map_congr_left (g := fun _ => 1) fun m hm => (h m hm).2]
    simp
  rcases hl : l with _ | ⟨a, _ | ⟨b, l'⟩⟩
  · exact absurd hl hne
  · refine ⟨a, rfl, (h a (by simp [hl])).1, by simpa using (h a (by simp [hl])).2, fun i hi x => ?_⟩
    have : i = 0 := by simpa using hi
    subst this
    rfl
  · rw [← hl]
    refine ⟨_, ?_, h3, by rw [h4, hsum], fun i hi x => ?_⟩
    · rw [hl] at h2 ⊢
      exact h2
    · have ho : offC l.get i = i := by
        unfold offC
        have : (List.ofFn fun k => C (l.get k)) = List.replicate l.length 1 := by
          rw [List.eq_replicate_iff]
          refine ⟨by simp, fun b hb => ?_⟩
          obtain ⟨k, rfl⟩ := List.mem_ofFn.1 hb
          exact (h _ (List.get_mem l k)).2
        rw [this]
        simp; omega
      have := featAt_cat2 (cs := l.get) ⟨i, hi⟩ (f := 0) (k := 0) (by rw [h3.one]; omega)
        (by rw [(h _ (List.get_mem l ⟨i, hi⟩)).2]; omega) x 0
      rw [ho] at this
      simpa using this

theorem learn_ok (hc : CfgOk cfg L) (ho : OracleOk μ cfg O) (fuel : ℕ) : ∀ (path : List ℕ) (rows : List ρ)
    (scope : List Var), ScopeOk cfg scope → rows.length + scope.length < fuel →
    ∃ c, learn cfg O fuel path rows scope = .ok c ∧ Ok μ (· ∈ scope) c ∧ C c ≤ max L cfg.outCh := by
  induction fuel with
  | zero => intro path rows scope _ h; omega
  | succ fuel ih =>
    intro path rows scope hs hfuel
    have hleaf : ∃ c, mvLeaf cfg O path rows scope = .ok c ∧ Ok μ (· ∈ scope) c ∧ C c ≤ max L cfg.outCh := by
      obtain ⟨c, h1, h2, h3⟩ := mvLeaf_ok hc ho hs path rows
      exact ⟨c, h1, h2, by omega⟩
    unfold learn
    split
    · exact hleaf
    rename_i hminF
    by_cases hparts : (partsOf (O.part path rows scope) rows.length scope).length > 1
    · rw [if_pos hparts]
      have hr1 : rows.length ≠ 1 := by
        intro h; unfold partsOf at hparts; rw [if_pos h] at hparts; simp at hparts
      have hpe : partsOf (O.part path rows scope) rows.length scope =
        (uniq (O.part path rows scope)).map (sel scope (O.part path rows scope)) := by unfold partsOf; rw [if_neg hr1]
      rw [hpe] at hparts ⊢
      set labels := O.part path rows scope with hlab
      have hll : labels.length = scope.length := ho.part _ _ _
      obtain ⟨subs, hsubs, hf⟩ := mapM_ok (P := fun (p : List Var × ℕ) c => Ok μ (· ∈ p.1) c ∧ C c ≤ max L cfg.outCh)
        (f := fun p => learn cfg O fuel (path ++ [p.2]) rows p.1) ((uniq labels).map (sel scope labels)).zipIdx (by
          intro p hp
          have hpm : p.1 ∈ (uniq labels).map (sel scope labels) := (List.mem_zipIdx' hp).2 ▸ List.getElem_mem _
          obtain ⟨id, hid, hpe⟩ := List.mem_map.1 hpm
          rw [mem_uniq] at hid
          have hsub : p.1.Sublist scope := hpe ▸ sel_sublist _ _ _
          have hlt : p.1.length < scope.length := by
            rw [List.length_map] at hparts
            obtain ⟨id', hid', hne⟩ : ∃ id' ∈ uniq labels, id' ≠ id := by
              by_contra hcon
              push Not at hcon
              have : (uniq labels).length ≤ 1 := by
                have hsub : uniq labels ⊆ [id] := fun a ha => by simpa using hcon a ha
                exact ((uniq_nodup labels).subperm hsub).length_le
              omega
            rw [← hpe]
            exact sel_lt hll (mem_uniq.1 hid') hne
          obtain ⟨c, h1, h2⟩ := ih (path ++ [p.2]) rows p.1
            ⟨hpe ▸ sel_ne_nil hll hid, hs.nodup.sublist hsub, fun v hv => hs.nonneg v (hsub.subset hv),
              fun v hv => hs.cover v (hsub.subset hv)⟩ (by omega)
          exact ⟨c, h1, h2⟩)
      rw [hsubs]
      simp only
      have htne : cfg.tmpl ≠ [] := by
        obtain ⟨v, hv⟩ := List.exists_mem_of_ne_nil _ hs.ne
        obtain ⟨t, ht, _⟩ := hs.cover v hv
        exact List.ne_nil_of_mem ht
      have ha := adapt_spec hc ho htne path hf
      have hane : adapt cfg O path subs ≠ [] := by
        intro h
        have := ha.length_eq
        rw [h, List.length_zipIdx] at this
        rw [List.length_nil] at this
        omega
      have hdis : (((uniq labels).map (sel scope labels)).zipIdx).Pairwise fun a b => ∀ v ∈ a.1, v ∉ b.1 := by
        rw [List.pairwise_iff_getElem]
        intro i j hi hj hij v hv
        simp only [List.getElem_zipIdx, List.getElem_map] at hv ⊢
        refine sel_disjoint hs.nodup (fun h => ?_) hv
        have := (List.Nodup.getElem_inj_iff (uniq_nodup labels)).1 h
        omega
      obtain ⟨c, h1, h2, h3⟩ := prod_ok (μ := μ) hane (K := max L cfg.outCh) (Vs := fun m v => v ∈ (Circ.scope m).query)
        (fun m hm => by
          obtain ⟨t, _, hp, _⟩ := forall₂_mem_right ha hm
          exact hp.toPre.congr fun v => (hp.sc v).symm)
        (fun m hm => by
          obtain ⟨t, _, _, h⟩ := forall₂_mem_right ha hm
          exact h)
        (forall₂_pairwise ha hdis fun a a' b b' ha hb hab v hv hv' =>
          hab v ((ha.1.sc v).1 hv) ((hb.1.sc v).1 hv'))
      refine ⟨c, h1, h2.congr fun v => ?_, h3.le⟩
      constructor
      · rintro ⟨m, hm, hv⟩
        obtain ⟨p, hp, hok, _⟩ := forall₂_mem_right ha hm
        have hpm : p.1 ∈ (uniq labels).map (sel scope labels) := (List.mem_zipIdx' hp).2 ▸ List.getElem_mem _
        obtain ⟨id, hid, hpe⟩ := List.mem_map.1 hpm
        have : v ∈ p.1 := (hok.sc v).1 hv
        rw [← hpe] at this
        exact (sel_sublist _ _ _).subset this
      · intro hv
        obtain ⟨id, hid, hvs⟩ := sel_cover hll hv
        have hpm : sel scope labels id ∈ (uniq labels).map (sel scope labels) :=
          List.mem_map.2 ⟨id, mem_uniq.2 hid, rfl⟩
        obtain ⟨i, hi, hpe⟩ := List.mem_iff_getElem.1 hpm
        obtain ⟨m, hm, hok, _⟩ := forall₂_mem_left ha (a := (sel scope labels id, i)) (by
          rw [List.mem_zipIdx_iff_getElem?]
          rw [List.getElem?_eq_getElem hi, hpe])
        exact ⟨m, hm, (hok.sc v).2 hvs⟩
    · rw [if_neg hparts]
      split
      · exact hleaf
      rename_i hminI
      have hmi := hc.minI
      have hrne : rows ≠ [] := by
        intro h; rw [h, List.length_nil] at hminI; omega
      obtain ⟨sums, hsums, hf⟩ := mapM_ok (P := fun _ s => Ok μ (· ∈ scope) s ∧ C s = 1)
        (f := fun ch => oneChannel (fun id sub => learn cfg O fuel (path ++ [ch, id]) sub scope) (O.clus path ch rows) rows)
        (List.range cfg.outCh) (by
          intro ch _
          obtain ⟨s, subs, h1, h2, h3, _⟩ := oneChannel_ok (μ := μ) (V := (· ∈ scope)) (K := max L cfg.outCh)
            (sub := fun id sub => learn cfg O fuel (path ++ [ch, id]) sub scope) (ho.clus path ch rows) hrne (by
              intro id hid
              obtain ⟨a, ha, b, hb, hab⟩ := ho.two path ch rows (by omega)
              have hlt : (sel rows (O.clus path ch rows) id).length < rows.length := by
                by_cases hida : a = id
                · exact sel_lt (ho.clus path ch rows) hb (fun h => hab (hida.trans h.symm))
                · exact sel_lt (ho.clus path ch rows) ha hida
              exact ih _ _ _ hs (by omega))
          exact ⟨s, h1, h2, h3⟩)
      rw [hsums]
      simp only
      have hsne : sums ≠ [] := by
        intro h
        have := hf.length_eq
        rw [h, List.length_range] at this
        have := hc.outCh
        simp_all
      obtain ⟨c, h1, h2, h3, _⟩ := stack_ok (μ := μ) (V := (· ∈ scope)) hsne (fun m hm => by
        obtain ⟨_, _, h⟩ := forall₂_mem_right hf hm
        exact h)
      refine ⟨c, h1, h2, ?_⟩
      rw [h3, ← hf.length_eq, List.length_range]
      omega

/-! ## The claims -/

/-- What the user gets: a module whose constructor checks all passed (smooth, decomposable), with one feature, whose scope is
exactly `V`, and each of whose channels is a normalised density over `V`. -/
structure Valid (μ : Var → Measure ℝ) (V : Finset Var) (c : Circ) : Prop where
  accepted : Accepted c
  aligned : Aligned c
  single : F c = 1
  channels : 1 ≤ C c
  scope_eq : ∀ v, v ∈ (Circ.scope c).query ↔ v ∈ V
  normalised : ∀ ch < C c, ∀ x : Var → ℝ,
    (∫⋯∫⁻_V, (fun y => ENNReal.ofReal (expL (featAt (den c) 0 (fun v => some (y v)) 0 ch))) ∂μ) x = 1

theorem valid_of_ok [∀ v, SigmaFinite (μ v)] {P : Var → Prop} {V : Finset Var} {c : Circ} (h : Ok μ P c)
    (hV : ∀ v, P v ↔ v ∈ V) : Valid μ V c := by
  refine ⟨h.acc, h.al, h.one, h.ch, fun v => (h.sc v).trans (hV v), fun ch hch x => ?_⟩
  have e : fscope c 0 = V := by
    obtain ⟨u, hu, hv⟩ := h.feat
    ext v
    rw [← hV v, ← hv v]
    simp [fscope, hu]
  have := C10_normalised_partial h.acc h.al h.lf h.rep (f := 0) (ch := ch) (r := 0) (by rw [h.one]; omega) hch
    (by omega) x
  rwa [e] at this

/-- C31: for every answer of the callables (as long as clustering separates at least two clusters), `learn_spn` with an
explicit scope covered by the leaf templates terminates, within as many nested calls as there are rows and columns, and
returns a valid circuit over exactly that scope. -/
theorem C31_learn_explicit_scope_partial [∀ v, SigmaFinite (μ v)] (hc : CfgOk cfg L) (ho : OracleOk μ cfg O)
    {q : List Var} (hs : ScopeOk cfg q) (rows : List ρ) {fuel : ℕ} (hfuel : rows.length + q.length < fuel) :
    ∃ c, learnSpn cfg O fuel rows (some q) = .ok c ∧ Valid μ q.toFinset c ∧ C c ≤ max L cfg.outCh := by
  obtain ⟨c, h1, h2, h3⟩ := learn_ok hc ho fuel [] rows q hs hfuel
  refine ⟨c, ?_, valid_of_ok h2 (by simp), h3⟩
  have := hc.minI
  have := hc.minF
  simp only [learnSpn, requested]
  rw [if_neg (by omega), if_neg (by omega)]
  exact h1

/-- C31: the same with `scope=None`: the learned scope is the union of the templates' scopes. -/
theorem C31_learn_default_scope_partial [∀ v, SigmaFinite (μ v)] (hc : CfgOk cfg L) (ho : OracleOk μ cfg O)
    (hne : cfg.tmpl ≠ []) (hv : ∀ t ∈ cfg.tmpl, t.1 ≠ [] ∧ t.1.Nodup ∧ ∀ v ∈ t.1, 0 ≤ v) (rows : List ρ) :
    ∃ (V : Finset Var) (n : ℕ), (∀ v, v ∈ V ↔ ∃ t ∈ cfg.tmpl, v ∈ t.1) ∧
      ∀ fuel > n, ∃ c, learnSpn cfg O fuel rows none = .ok c ∧ Valid μ V c := by
  have hvalid : ∀ t ∈ cfg.tmpl.map (fun t => (⟨t.1, []⟩ : Scope)), Scope.Valid t := by
    intro t ht
    obtain ⟨a, ha, rfl⟩ := List.mem_map.1 ht
    exact ⟨(hv a ha).2.2, by simp, (hv a ha).2.1, by simp, by simp, by simp⟩
  have hreq : ∃ q, requested cfg none = .ok q ∧ q.Nodup ∧ (∀ v ∈ q, 0 ≤ v) ∧ ∀ v, v ∈ q ↔ ∃ t ∈ cfg.tmpl, v ∈ t.1 := by
    obtain ⟨r, hr, hrv, hrq, _⟩ := Scope.joinAll_ok (cfg.tmpl.map fun t => (⟨t.1, []⟩ : Scope)) (by simpa using hne) hvalid
    have hmem : ∀ v, v ∈ r.query ↔ ∃ t ∈ cfg.tmpl, v ∈ t.1 := by
      intro v
      rw [hrq v]
      constructor
      · rintro ⟨t, ht, hvt⟩
        obtain ⟨a, ha, rfl⟩ := List.mem_map.1 ht
        exact ⟨a, ha, hvt⟩
      · rintro ⟨a, ha, hva⟩
        exact ⟨_, List.mem_map.2 ⟨a, ha, rfl⟩, hva⟩
    obtain ⟨t, ts, hts⟩ := List.exists_cons_of_ne_nil hne
    rcases ts with _ | ⟨t', ts⟩
    · refine ⟨t.1, by simp [requested, hts], (hv t (by simp [hts])).2.1, (hv t (by simp [hts])).2.2, by simp [hts]⟩
    · refine ⟨r.query, ?_, hrv.query_nodup, hrv.query_nonneg, hmem⟩
      have hd : Scope.allPairwiseDisjoint (cfg.tmpl.map fun t => (⟨t.1, []⟩ : Scope)) = .ok true := by
        obtain ⟨s0, ss, hss⟩ : ∃ s0 ss, cfg.tmpl.map (fun t => (⟨t.1, []⟩ : Scope)) = s0 :: ss := by
          rw [hts]; exact ⟨_, _, rfl⟩
        have hpw : (cfg.tmpl.map fun t => (⟨t.1, []⟩ : Scope)).Pairwise fun s t => ∀ x ∈ s.query, x ∉ t.query := by
          rw [List.pairwise_map]; exact hc.disj
        rw [hss] at hpw hvalid ⊢
        obtain ⟨b, hb, hiff⟩ := Scope.pairwiseLoop_ok ss s0 (hvalid s0 (by simp)) (fun t ht => hvalid t (by simp [ht]))
        rw [List.pairwise_cons] at hpw
        have : b = true := hiff.2 hpw
        rw [this] at hb
        exact hb
      unfold requested
      rw [hts] at hd hr ⊢
      simp only [hd, hr, bind, Except.bind, pure, Except.pure]
      rfl
  obtain ⟨q, hq, hnd, hnn, hmem⟩ := hreq
  have hs : ScopeOk cfg q := by
    refine ⟨?_, hnd, hnn, fun v hv' => (hmem v).1 hv'⟩
    obtain ⟨t, ht⟩ := List.exists_mem_of_ne_nil _ hne
    obtain ⟨v, hvt⟩ := List.exists_mem_of_ne_nil _ (hv t ht).1
    exact List.ne_nil_of_mem ((hmem v).2 ⟨t, ht, hvt⟩)
  refine ⟨q.toFinset, rows.length + q.length, by simpa using hmem, fun fuel hf => ?_⟩
  obtain ⟨c, h1, h2, _⟩ := C31_learn_explicit_scope_partial hc ho hs rows hf
  refine ⟨c, ?_, h2⟩
  unfold learnSpn
  rw [hq]
  exact h1

/-- C31: the clustering step.  If the columns are not split and there are enough rows, the result has `out_channels` channels,
and channel `ch` is the mixture, with the fractions of rows per cluster (which are positive and sum to one) as weights, of the
circuits learned from the clusters' rows (each with its own channels averaged). -/
theorem C31_cluster_weights (hc : CfgOk cfg L) (ho : OracleOk μ cfg O) {fuel : ℕ} {path : List ℕ} {rows : List ρ}
    {scope : List Var} (hs : ScopeOk cfg scope) (hfuel : rows.length + scope.length < fuel + 1)
    (hF : cfg.minF ≤ scope.length) (hpart : (O.part path rows scope).dedup.length ≤ 1) (hI : cfg.minI ≤ rows.length) :
    ∃ c, learn cfg O (fuel + 1) path rows scope = .ok c ∧ C c = cfg.outCh ∧
      ∀ ch < cfg.outCh, ∃ subs : List Circ,
        List.Forall₂ (fun id s => learn cfg O fuel (path ++ [ch, id]) (sel rows (O.clus path ch rows) id) scope = .ok s)
          (uniq (O.clus path ch rows)) subs ∧
        (fractions (O.clus path ch rows) rows.length).sum = 1 ∧
        (∀ p ∈ fractions (O.clus path ch rows) rows.length, 0 < p) ∧
        ∀ x, expL (featAt (den c) 0 x 0 ch) = (((fractions (O.clus path ch rows) rows.length).zip subs).map fun a =>
          a.1 * ((∑ k ∈ Finset.range (C a.2), expL (featAt (den a.2) 0 x 0 k)) / C a.2)).sum := by
  have hmi := hc.minI
  have hrne : rows ≠ [] := by
    intro h; rw [h, List.length_nil] at hI; omega
  obtain ⟨sums, hsums, hf⟩ := mapM_ok (P := fun ch s => Ok μ (· ∈ scope) s ∧ C s = 1 ∧ ∃ subs : List Circ,
        List.Forall₂ (fun id s => learn cfg O fuel (path ++ [ch, id]) (sel rows (O.clus path ch rows) id) scope = .ok s)
          (uniq (O.clus path ch rows)) subs ∧
        ∀ x, expL (featAt (den s) 0 x 0 0) = (((fractions (O.clus path ch rows) rows.length).zip subs).map fun a =>
          a.1 * ((∑ k ∈ Finset.range (C a.2), expL (featAt (den a.2) 0 x 0 k)) / C a.2)).sum)
    (f := fun ch => oneChannel (fun id sub => learn cfg O fuel (path ++ [ch, id]) sub scope) (O.clus path ch rows) rows)
    (List.range cfg.outCh) (by
      intro ch _
      obtain ⟨s, subs, h1, h2, h3, h4, h5⟩ := oneChannel_ok (μ := μ) (V := (· ∈ scope)) (K := max L cfg.outCh)
        (sub := fun id sub => learn cfg O fuel (path ++ [ch, id]) sub scope) (ho.clus path ch rows) hrne (by
          intro id hid
          obtain ⟨a, ha, b, hb, hab⟩ := ho.two path ch rows hI
          have hlt : (sel rows (O.clus path ch rows) id).length < rows.length := by
            by_cases hida : a = id
            · exact sel_lt (ho.clus path ch rows) hb (fun h => hab (hida.trans h.symm))
            · exact sel_lt (ho.clus path ch rows) ha hida
          exact learn_ok hc ho fuel _ _ _ hs (by omega))
      exact ⟨s, h1, h2, h3, subs, h4.imp fun _ _ h => h.1, h5⟩)
  have hsl : sums.length = cfg.outCh := by rw [← hf.length_eq, List.length_range]
  have hsne : sums ≠ [] := by
    intro h
    have := hc.outCh
    rw [h, List.length_nil] at hsl; omega
  obtain ⟨c, h1, h2, h3, h4⟩ := stack_ok (μ := μ) (V := (· ∈ scope)) hsne (fun m hm => by
    obtain ⟨_, _, h⟩ := forall₂_mem_right hf hm
    exact ⟨h.1, h.2.1⟩)
  refine ⟨c, ?_, by rw [h3, hsl], fun ch hch => ?_⟩
  · unfold learn
    rw [if_neg (by omega), if_neg, if_neg (by omega), hsums]
    · exact h1
    · unfold partsOf uniq
      split
      · simp
      · rw [List.length_map, List.length_insertionSort]; omega
  · have hch' : ch < sums.length := by omega
    have := (List.forall₂_iff_get.1 hf).2 ch (by simpa using hch) hch'
    simp only [List.get_eq_getElem, List.getElem_range] at this
    obtain ⟨_, _, subs, hsub, hx⟩ := this
    refine ⟨subs, hsub, ?_, fractions_pos (List.length_pos_of_ne_nil hrne), fun x => ?_⟩
    · rw [← ho.clus path ch rows]
      apply fractions_sum
      intro h
      have := ho.clus path ch rows
      rw [h, List.length_nil] at this
      exact hrne (List.length_eq_zero_iff.1 this.symm)
    · rw [h4 ch hch' x]; exact hx x

/-- C31: slice limits below two are rejected with a ValueError. -/
theorem C31_rejects_limits (hbad : cfg.minI < 2 ∨ cfg.minF < 2) (fuel : ℕ) (rows : List ρ) (q : List Var) :
    learnSpn cfg O fuel rows (some q) = .error .valueError := by
  simp only [learnSpn, requested]
  rcases hbad with h | h
  · rw [if_pos h]
  · rw [if_pos h]
    split <;> rfl

/-- C31: two templates that share a variable are rejected with a ValueError when the scope is taken from the templates. -/
theorem C31_overlapping_templates_raise (hv : ∀ t ∈ cfg.tmpl, t.1.Nodup ∧ ∀ v ∈ t.1, 0 ≤ v) {i j : ℕ} (hij : i < j)
    (hj : j < cfg.tmpl.length) {x : Var} (hx : x ∈ (cfg.tmpl[i]'(hij.trans hj)).1) (hx' : x ∈ (cfg.tmpl[j]).1)
    (fuel : ℕ) (rows : List ρ) : learnSpn cfg O fuel rows none = .error .valueError := by
  have hvalid : ∀ t ∈ cfg.tmpl.map (fun t => (⟨t.1, []⟩ : Scope)), Scope.Valid t := by
    intro t ht
    obtain ⟨a, ha, rfl⟩ := List.mem_map.1 ht
    exact ⟨(hv a ha).2, by simp, (hv a ha).1, by simp, by simp, by simp⟩
  obtain ⟨b, hb, hiff⟩ := Scope.C03_allPairwiseDisjoint (l := cfg.tmpl.map fun t => (⟨t.1, []⟩ : Scope))
    fun t ht => reachable_of_valid (hvalid t ht)
  have hbf : b = false := by
    rcases b with _ | _
    · rfl
    · have h1 := hiff.1 rfl i j (by simp; omega) (by simpa using hj) hij x (by simpa using hx)
      exact absurd hx' (by simpa using h1)
  subst hbf
  have hreq : requested cfg none = .error .valueError := by
    unfold requested
    rcases hts : cfg.tmpl with _ | ⟨t, _ | ⟨t', ts⟩⟩
    · simp [hts] at hj
    · simp [hts] at hj; omega
    · rw [hts] at hb
      simp only [hb, bind, Except.bind, throw, throwThe, MonadExceptOf.throw]
      rfl
  unfold learnSpn
  rw [hreq]

/-- The hypotheses are satisfiable. -/
example (O : Oracle ℕ) : learnSpn ⟨[([0], 1), ([1, 0], 1)], 2, 3, 2⟩ O 5 [7, 8] none = .error .valueError :=
  C31_overlapping_templates_raise (by simp) (i := 0) (j := 1) (by decide) (by decide) (x := 0) (by simp) (by simp) _ _

theorem sel_replicate {α : Type} (xs : List α) (k : ℕ) : sel xs (List.replicate xs.length k) k = xs := by
  unfold sel
  induction xs with
  | nil => rfl
  | cons x xs ih => simpa [List.replicate_succ] using ih

theorem uniq_replicate {n : ℕ} (hn : 0 < n) (k : ℕ) : uniq (List.replicate n k) = [k] := by
  unfold uniq
  rw [List.replicate_dedup (by omega)]
  rfl

/-- C31 FALSE without the two-cluster assumption: if clustering puts every row in one cluster (as k-means does on identical
rows) and the columns are not split, the recursion never ends, whatever the stack limit. -/
theorem C31_one_cluster_diverges (O : Oracle ρ) (hO : ∀ path ch rows, O.clus path ch rows = List.replicate rows.length 0)
    (hP : ∀ path rows scope, O.part path rows scope = List.replicate scope.length 0) (hout : 1 ≤ cfg.outCh)
    (hI2 : 1 ≤ cfg.minI) {rows : List ρ} {scope : List Var}
    (hF : cfg.minF ≤ scope.length) (hI : cfg.minI ≤ rows.length) (fuel : ℕ) :
    ∀ path, learn cfg O fuel path rows scope = .error .recursionError := by
  induction fuel with
  | zero => intro path; rfl
  | succ fuel ih =>
    intro path
    unfold learn
    have hparts : ¬ (partsOf (O.part path rows scope) rows.length scope).length > 1 := by
      unfold partsOf
      split
      · simp
      · rw [List.length_map, hP]
        rcases Nat.eq_zero_or_pos scope.length with h | h
        · rw [h]; simp [uniq]
        · rw [uniq_replicate h]; simp
    rw [if_neg (by omega), if_neg hparts, if_neg (by omega)]
    have hone : ∀ ch, oneChannel (fun id sub => learn cfg O fuel (path ++ [ch, id]) sub scope) (O.clus path ch rows) rows =
        .error .recursionError := by
      intro ch
      unfold oneChannel
      rw [hO, uniq_replicate (by omega)]
      simp [List.mapM_cons, sel_replicate, ih, bind, Except.bind]
    obtain ⟨n, hn⟩ : ∃ n, cfg.outCh = n + 1 := ⟨cfg.outCh - 1, by omega⟩
    rw [hn, List.range_succ_eq_map]
    simp [List.mapM_cons, hone, bind, Except.bind]

/-! ### Concrete cases -/

section Witness

/-- Two Bernoulli templates; every callable splits by parity of the position. -/
def wCfg : Cfg := ⟨[([0], 1), ([1], 1)], 2, 3, 2⟩

noncomputable def wOracle : Oracle ℕ where
  part := fun _ _ scope => (List.range scope.length).map (· % 2)
  clus := fun _ _ rows => (List.range rows.length).map (· % 2)
  fit := fun _ _ _ _ => fun _ _ _ => Leaves.bernoulliLL (3 / 4)
  rnd := fun _ _ _ _ _ _ => ((0 : ℝ) : LogV)

/-- The assumptions of the C31 theorems are satisfiable. -/
theorem C31_witness : CfgOk wCfg 1 ∧ OracleOk (fun _ => Leaves.countBelow 2) wCfg wOracle ∧ ScopeOk wCfg [0, 1] := by
  refine ⟨⟨by simp [wCfg], by simp [wCfg], le_rfl, by decide, by decide, by decide⟩,
    ⟨by simp [wOracle], by simp [wOracle], ?_, ?_, by simp [wOracle]⟩,
    ⟨by simp, by simp, by simp, by simp [wCfg]⟩⟩
  · intro path ch rows h
    have h2 : 2 ≤ rows.length := h
    refine ⟨0, ?_, 1, ?_, by decide⟩
    · exact List.mem_map.2 ⟨0, by simp; omega, rfl⟩
    · exact List.mem_map.2 ⟨1, by simp; omega, rfl⟩
  · intro path t rows q i hi ch r
    exact ⟨Leaves.bernoulli_measurable _, Leaves.bernoulli_normalised (by norm_num) (by norm_num)⟩

/-- C31 FALSE when the templates have different channel numbers: the leaf Product is rejected. -/
theorem C31_unequal_channels_fail (O : Oracle ρ) (rows : List ρ) (fuel : ℕ) :
    learnSpn ⟨[([0], 1), ([1], 2)], 1, 3, 2⟩ O (fuel + 1) rows (some [0, 1]) = .error .valueError := by
  simp only [learnSpn, requested]
  rw [if_neg (by decide), if_neg (by decide)]
  unfold learn
  rw [if_pos (by decide)]
  rfl

/-- C31 FALSE when a requested variable has no template: a scope of one variable raises an IndexError ... -/
theorem C31_uncovered_fails (O : Oracle ρ) (rows : List ρ) (fuel : ℕ) :
    learnSpn ⟨[([0], 1)], 1, 2, 2⟩ O (fuel + 1) rows (some [5]) = .error .indexError := by
  simp only [learnSpn, requested]
  rw [if_neg (by decide), if_neg (by decide)]
  unfold learn
  rw [if_pos (by decide)]
  rfl

/-- ... and in a larger scope the variable is silently dropped. -/
theorem C31_uncovered_dropped (O : Oracle ρ) (rows : List ρ) (fuel : ℕ) :
    ∃ c, learnSpn ⟨[([0], 1)], 1, 3, 2⟩ O (fuel + 1) rows (some [0, 5]) = .ok c ∧ (Circ.scope c).query = [0] := by
  simp only [learnSpn, requested]
  rw [if_neg (by decide), if_neg (by decide)]
  unfold learn
  rw [if_pos (by decide)]
  exact ⟨_, rfl, rfl⟩

end Witness

end Verif.LearnSpn

import Verif.Prometheus

/-!
# Property C32: the partitions Prometheus derives from a spanning tree
-/

namespace Verif.Prom

open Verif.Span Verif.Mst

variable {n : ℕ}

/-- A partition of the variables into sorted, non-empty, pairwise disjoint groups that cover all of them. -/
def IsPartition (P : List (List (Fin n))) : Prop :=
  (∀ c ∈ P, c ≠ [] ∧ c.Pairwise (· < ·)) ∧ P.Pairwise List.Disjoint ∧ ∀ v, ∃ c ∈ P, v ∈ c

/-- Every group of `Q` is contained in a group of `P`. -/
def Refines (Q P : List (List (Fin n))) : Prop := ∀ c ∈ Q, ∃ d ∈ P, c ⊆ d

/-- A sort by weight: some permutation with increasing weights. -/
def Sorts (w : Edge n → ℝ) (sort : List (Edge n) → List (Edge n)) : Prop :=
  ∀ l, (sort l).Perm l ∧ (sort l).Pairwise fun e f => w e ≤ w f

theorem finRange_pairwise : (List.finRange n).Pairwise (· < ·) := List.pairwise_lt_finRange n

open Classical in
theorem mem_components {S : List (Edge n)} {c : List (Fin n)} :
    c ∈ components S ↔ ∃ r ∈ reps S.toFinset, c = (List.finRange n).filter fun v => Conn S.toFinset r v := by
  unfold components
  simp only [List.mem_map, List.mem_filter, List.mem_finRange, true_and, decide_eq_true_eq]
  exact ⟨fun ⟨r, h, e⟩ => ⟨r, h, e.symm⟩, fun ⟨r, h, e⟩ => ⟨r, h, e.symm⟩⟩

theorem components_partition (S : List (Edge n)) : IsPartition (components S) := by
  classical
  refine ⟨fun c hc => ?_, ?_, fun v => ?_⟩
  · obtain ⟨r, hr, rfl⟩ := mem_components.1 hc
    refine ⟨List.ne_nil_of_mem (a := r) ?_, finRange_pairwise.filter _⟩
    simp [Conn.refl]
  · unfold components
    rw [List.pairwise_map]
    refine List.Pairwise.imp_of_mem (fun {a b} ha hb h => ?_) (finRange_pairwise.filter _)
    rw [List.mem_filter, decide_eq_true_eq] at ha hb
    intro v hv hv'
    rw [List.mem_filter, decide_eq_true_eq] at hv hv'
    exact h.ne (rep_unique ha.2 hb.2 (hv.2.trans hv'.2.symm))
  · obtain ⟨r, hr, hc⟩ := exists_rep S.toFinset v
    exact ⟨_, mem_components.2 ⟨r, hr, rfl⟩, by simpa using hc.symm⟩

theorem components_length (S : List (Edge n)) : (components S).length = comps S.toFinset := by
  classical
  unfold components comps
  rw [List.length_map, ← List.toFinset_card_of_nodup ((List.nodup_finRange n).filter _)]
  congr 1
  ext r
  simp

theorem components_refine {S S' : List (Edge n)} (h : ∀ e ∈ S, e ∈ S') : Refines (components S) (components S') := by
  classical
  intro c hc
  obtain ⟨r, hr, rfl⟩ := mem_components.1 hc
  obtain ⟨r', hr', hc'⟩ := exists_rep S'.toFinset r
  refine ⟨_, mem_components.2 ⟨r', hr', rfl⟩, fun v hv => ?_⟩
  rw [List.mem_filter, decide_eq_true_eq] at hv ⊢
  have hsub : S.toFinset ⊆ S'.toFinset := fun e he => List.mem_toFinset.2 (h e (List.mem_toFinset.1 he))
  exact ⟨hv.1, hc'.symm.trans (hv.2.mono hsub)⟩

/-- Two variables are in the same group iff they are connected. -/
theorem components_same {S : List (Edge n)} {u v : Fin n} :
    (∃ c ∈ components S, u ∈ c ∧ v ∈ c) ↔ Conn S.toFinset u v := by
  classical
  constructor
  · rintro ⟨c, hc, hu, hv⟩
    obtain ⟨r, hr, rfl⟩ := mem_components.1 hc
    rw [List.mem_filter, decide_eq_true_eq] at hu hv
    exact hu.2.symm.trans hv.2
  · intro h
    obtain ⟨r, hr, hc⟩ := exists_rep S.toFinset u
    exact ⟨_, mem_components.2 ⟨r, hr, rfl⟩, by simpa using hc.symm, by simpa using hc.symm.trans h⟩

/-- A list of partitions, each of which refines all earlier ones and has one group more than the one before; the first
has `g + 1` groups. -/
def Ladder (g : ℕ) (P : List (List (List (Fin n)))) : Prop :=
  ∀ k p, P[k]? = some p → IsPartition p ∧ p.length = g + k + 1 ∧ ∀ j q, j ≤ k → P[j]? = some q → Refines p q

theorem severed_spec {F : List (Edge n)} (hF : Forest F.toFinset) (hnd : F.Nodup) :
    (severed F).length = F.length ∧ Ladder (comps F.toFinset) (severed F) := by
  have hlen : (severed F).length = F.length := by simp [severed]
  have hget : ∀ i p, (severed F)[i]? = some p → i < F.length ∧ p = components (F.drop (i + 1)) := by
    intro i p hi
    unfold severed at hi
    rw [List.getElem?_map, Option.map_eq_some_iff] at hi
    obtain ⟨a, ha, rfl⟩ := hi
    rw [List.getElem?_eq_some_iff] at ha
    obtain ⟨h1, h2⟩ := ha
    rw [List.getElem_range] at h2
    subst h2
    exact ⟨by simpa using h1, rfl⟩
  refine ⟨hlen, fun k p hk => ?_⟩
  obtain ⟨hkl, rfl⟩ := hget k p hk
  refine ⟨components_partition _, ?_, fun j q hj hq => ?_⟩
  · rw [components_length]
    have hsub : (F.drop (k + 1)).toFinset ⊆ F.toFinset := fun e he =>
      List.mem_toFinset.2 (List.mem_of_mem_drop (List.mem_toFinset.1 he))
    have h1 := hF.subset hsub
    unfold Forest at h1 hF
    rw [List.toFinset_card_of_nodup (hnd.sublist (List.drop_sublist _ _)), List.length_drop] at h1
    rw [List.toFinset_card_of_nodup hnd] at hF
    omega
  · obtain ⟨_, rfl⟩ := hget j q hq
    refine components_refine fun e he => ?_
    have : F.drop (k + 1) = (F.drop (j + 1)).drop (k - j) := by
      rw [List.drop_drop]; congr 1; omega
    rw [this] at he
    exact List.mem_of_mem_drop he

theorem forest_nil : Forest ([] : List (Edge n)).toFinset := by simpa using Forest.empty

open Classical in
theorem maxTree_spec (w : Edge n → ℝ) (es : List (Edge n)) :
    Forest (maxTree w es).toFinset ∧ (maxTree w es).Nodup ∧ (∀ e ∈ maxTree w es, e ∈ es) ∧
    ∀ a b, Conn (maxTree w es).toFinset a b ↔ Conn es.toFinset a b := by
  obtain ⟨h1, h2, ⟨g, hg, hg'⟩, h4⟩ := greedy_spec (es.insertionSort fun e f => w f ≤ w e) [] forest_nil (by simp)
  refine ⟨h1, h2, fun e he => ?_, fun a b => ?_⟩
  · unfold maxTree at he
    rw [hg] at he
    exact (List.mem_insertionSort _).1 (hg' e (by simpa using he))
  · have : (es.insertionSort fun e f => w f ≤ w e).toFinset = es.toFinset := by
      ext e; simp [List.mem_insertionSort]
    have h5 := h4 a b
    rw [this] at h5
    rw [List.toFinset_nil, Finset.empty_union] at h5
    exact h5

theorem perm_toFinset {l l' : List (Edge n)} (h : l.Perm l') : l.toFinset = l'.toFinset := by
  ext e; simp [h.mem_iff]

open Classical in
/-- The edges with non-zero affinity. -/
noncomputable def nonzero (w : Edge n → ℝ) : Finset (Edge n) := Finset.univ.filter fun e => e.1 < e.2 ∧ w e ≠ 0

theorem nzEdges_toFinset (w : Edge n → ℝ) : (nzEdges w).toFinset = nonzero w := by
  ext e; simp [nzEdges, nonzero, mem_triu]

theorem comps_congr {S S' : Finset (Edge n)} (h : ∀ a b, Conn S a b ↔ Conn S' a b) : comps S = comps S' :=
  le_antisymm (comps_anti fun a b => (h a b).2) (comps_anti fun a b => (h a b).1)

/-- General form: whatever the affinities, there are as many partitions as the maximum spanning forest has edges, every
partition is a partition, has one more group than the one before, refines all earlier ones, and the first has one more
group than the graph of non-zero affinities has components. -/
theorem C32_affinity_general (hn : 2 ≤ n) (w : Edge n → ℝ) (sort : List (Edge n) → List (Edge n)) (hs : Sorts w sort) :
    (fromAffinity w sort).length = n - comps (nonzero w) ∧ Ladder (comps (nonzero w)) (fromAffinity w sort) := by
  obtain ⟨h1, h2, h3, h4⟩ := maxTree_spec w (nzEdges w)
  have hperm := (hs (maxTree w (nzEdges w))).1
  have hF : Forest (sort (maxTree w (nzEdges w))).toFinset := by rw [perm_toFinset hperm]; exact h1
  have hnd : (sort (maxTree w (nzEdges w))).Nodup := hperm.nodup_iff.2 h2
  have heq : fromAffinity w sort = severed (sort (maxTree w (nzEdges w))) := by
    unfold fromAffinity; rw [if_neg (by omega)]
  rw [heq]
  obtain ⟨hlen, hk⟩ := severed_spec hF hnd
  have hcomps : comps (maxTree w (nzEdges w)).toFinset = comps (nonzero w) := by
    rw [← nzEdges_toFinset]; exact comps_congr h4
  rw [perm_toFinset hperm, hcomps] at hk
  refine ⟨?_, hk⟩
  unfold Forest at h1
  rw [hcomps, List.toFinset_card_of_nodup h2, ← hperm.length_eq] at h1
  omega

/-- C32: with at least two variables and non-zero affinities, there are `d - 1` partitions; the `k`-th (from 0) has
exactly `k + 2` groups, which are non-empty, sorted, pairwise disjoint and cover all variables, and it refines every
earlier partition. -/
theorem C32_affinity (hn : 2 ≤ n) (w : Edge n → ℝ) (hw : ∀ e : Edge n, e.1 < e.2 → w e ≠ 0)
    (sort : List (Edge n) → List (Edge n)) (hs : Sorts w sort) :
    (fromAffinity w sort).length = n - 1 ∧ Ladder 1 (fromAffinity w sort) := by
  have h1c : comps (nonzero w) = 1 := by
    refine comps_eq_one (by omega) (conn_complete fun e he => ?_)
    simp [nonzero, he, hw e he]
  have := C32_affinity_general hn w sort hs
  rwa [h1c] at this

/-- C32 is false when affinities vanish (a constant column has correlation 0 with everything): two variables with zero
affinity yield no partition at all. -/
theorem C32_zero_affinity_no_partition : fromAffinity (n := 2) (fun _ => 0) (fun l => l) = [] := by
  have : nzEdges (n := 2) (fun _ => 0) = [] := by
    unfold nzEdges
    rw [List.filter_eq_nil_iff]
    simp
  unfold fromAffinity
  rw [if_neg (by omega), this]
  simp [severed, maxTree, greedy]

/-- ... and in general the first partition has more than two groups. -/
theorem C32_zero_affinity_first (hn : 2 ≤ n) (w : Edge n → ℝ) (v u : Fin n) (hvu : u ≠ v)
    (hv : ∀ e : Edge n, e.1 = v ∨ e.2 = v → w e = 0)
    (sort : List (Edge n) → List (Edge n)) (hs : Sorts w sort) (p : List (List (Fin n)))
    (hp : (fromAffinity w sort)[0]? = some p) : p.length ≠ 2 := by
  have h := ((C32_affinity_general hn w sort hs).2 0 p hp).2.1
  have hiso : ∀ b, Conn (nonzero w) v b → b = v := by
    intro b hb
    induction hb with
    | refl => rfl
    | tail _ h2 ih =>
      subst ih
      rcases h2 with h2 | h2
      · simp [nonzero] at h2; exact absurd (hv _ (Or.inl rfl)) h2.2
      · simp [nonzero] at h2; exact absurd (hv _ (Or.inr rfl)) h2.2
  have hgt : comps (nonzero w) ≠ 1 := by
    intro h1
    exact hvu (hiso u (conn_of_comps_le_one h1.le v u))
  omega

/-- Groups are single-linkage clusters: if the severed edges have affinity at most `t` and the remaining ones more than
`t`, two variables share a group exactly when a chain of affinities above `t` joins them. -/
theorem C32_single_linkage (w : Edge n → ℝ) (hw : ∀ e : Edge n, e.1 < e.2 → w e ≠ 0)
    (sort : List (Edge n) → List (Edge n)) (hs : Sorts w sort) (k : ℕ) (t : ℝ)
    (hrem : ∀ e ∈ (sort (maxTree w (nzEdges w))).take (k + 1), w e ≤ t)
    (hkeep : ∀ e ∈ (sort (maxTree w (nzEdges w))).drop (k + 1), t < w e) (p : List (List (Fin n)))
    (hp : (fromAffinity w sort)[k]? = some p) (u v : Fin n) :
    (∃ c ∈ p, u ∈ c ∧ v ∈ c) ↔ Conn (Finset.univ.filter fun e : Edge n => e.1 < e.2 ∧ t < w e) u v := by
  classical
  have heq : p = components ((sort (maxTree w (nzEdges w))).drop (k + 1)) := by
    unfold fromAffinity at hp
    split at hp
    · simp at hp
    · unfold severed at hp
      rw [List.getElem?_map, Option.map_eq_some_iff] at hp
      obtain ⟨a, ha, rfl⟩ := hp
      rw [List.getElem?_eq_some_iff] at ha
      obtain ⟨h1, h2⟩ := ha
      rw [List.getElem_range] at h2
      subst h2
      rfl
  rw [heq, components_same]
  set L := (nzEdges w).insertionSort fun e f => w f ≤ w e with hL
  have hperm := (hs (maxTree w (nzEdges w))).1
  have hkept : ∀ e, e ∈ (sort (maxTree w (nzEdges w))).drop (k + 1) ↔ e ∈ maxTree w (nzEdges w) ∧ t < w e := by
    intro e
    rw [← hperm.mem_iff]
    constructor
    · intro h; exact ⟨List.mem_of_mem_drop h, hkeep e h⟩
    · rintro ⟨h1, h2⟩
      rw [← List.take_append_drop (k + 1) (sort (maxTree w (nzEdges w))), List.mem_append] at h1
      rcases h1 with h1 | h1
      · exact absurd (hrem e h1) (not_le.2 h2)
      · exact h1
  have : IsTrans (Edge n) fun e f => w f ≤ w e := ⟨fun a b c h1 h2 => h2.trans h1⟩
  have : Std.Total (fun e f : Edge n => w f ≤ w e) := ⟨fun a b => le_total _ _⟩
  have hsorted : L.Pairwise fun e f => w f ≤ w e := List.pairwise_insertionSort _ _
  have hsplit := split_sorted (l := L) (fun e => t < w e) (hsorted.imp fun {a b} h hb => hb.trans_le h)
  obtain ⟨p1, p2, ⟨g, hg, hg'⟩, p4⟩ := greedy_spec (L.filter fun e => t < w e) [] forest_nil (by simp)
  obtain ⟨q1, q2, ⟨g2, hg2, hg2'⟩, q4⟩ := greedy_spec (L.filter fun e => ¬ t < w e) (greedy (L.filter fun e => t < w e) [])
    p1 p2
  have hmt : maxTree w (nzEdges w) = greedy (L.filter fun e => t < w e) [] ++ g2 := by
    unfold maxTree
    rw [← hg2, ← greedy_append, ← hsplit]
  have hset : ((sort (maxTree w (nzEdges w))).drop (k + 1)).toFinset = (greedy (L.filter fun e => t < w e) []).toFinset := by
    ext e
    rw [List.mem_toFinset, List.mem_toFinset, hkept, hmt, List.mem_append]
    constructor
    · rintro ⟨h | h, h2⟩
      · exact h
      · have := List.mem_filter.1 (hg2' e h)
        simp [h2] at this
    · intro h
      refine ⟨Or.inl h, ?_⟩
      rw [hg] at h
      have := (List.mem_filter.1 (hg' e (by simpa using h))).2
      simpa using this
  have hfin : (L.filter fun e => t < w e).toFinset = Finset.univ.filter fun e : Edge n => e.1 < e.2 ∧ t < w e := by
    ext e
    simp only [List.mem_toFinset, List.mem_filter, hL, List.mem_insertionSort, Finset.mem_filter, Finset.mem_univ, true_and,
      nzEdges, mem_triu, decide_eq_true_eq]
    exact ⟨fun h => ⟨h.1.1, h.2⟩, fun h => ⟨⟨h.1, hw e h.1⟩, h.2⟩⟩
  rw [hset, p4, List.toFinset_nil, Finset.empty_union, hfin]

/-! ## Sampled edges -/

theorem head_filter {p : Fin n → Bool} {r : Fin n} (h1 : p r = true) (h2 : ∀ v, p v = true → r ≤ v) :
    ((List.finRange n).filter p).head? = some r := by
  have hs : ((List.finRange n).filter p).Pairwise (· < ·) := finRange_pairwise.filter _
  have hm : r ∈ (List.finRange n).filter p := by simp [h1]
  rcases hl : (List.finRange n).filter p with _ | ⟨a, l⟩
  · rw [hl] at hm; simp at hm
  · have ha : p a = true := by
      have : a ∈ (List.finRange n).filter p := by rw [hl]; simp
      exact (List.mem_filter.1 this).2
    rw [hl] at hm hs
    rcases List.mem_cons.1 hm with rfl | hm
    · rfl
    · have := (List.pairwise_cons.1 hs).1 r hm
      exact absurd (h2 a ha) (not_le.2 this)

open Classical in
theorem heads (F : List (Edge n)) :
    ((components F).map fun c => c.head?).reduceOption = (List.finRange n).filter fun r => r ∈ reps F.toFinset := by
  have : ((components F).map fun c => c.head?) =
      ((List.finRange n).filter fun r => r ∈ reps F.toFinset).map some := by
    unfold components
    rw [List.map_map]
    refine List.map_congr_left fun r hr => ?_
    rw [List.mem_filter, decide_eq_true_eq] at hr
    refine head_filter (by simp [Conn.refl]) fun v hv => ?_
    rw [decide_eq_true_eq] at hv
    exact mem_reps.1 hr.2 v hv
  rw [this]
  simp [List.reduceOption, List.filterMap_map]

theorem zip_tail_conn {S : Finset (Edge n)} : ∀ (l : List (Fin n)), (∀ e ∈ l.zip l.tail, e ∈ S) → ∀ a ∈ l, ∀ b ∈ l, Conn S a b := by
  have key : ∀ (l : List (Fin n)) (x : Fin n), (∀ e ∈ (x :: l).zip l, e ∈ S) → ∀ a ∈ x :: l, Conn S x a := by
    intro l
    induction l with
    | nil => intro x _ a ha; rw [List.mem_singleton.1 ha]; exact Conn.refl _ _
    | cons y l ih =>
      intro x h a ha
      rcases List.mem_cons.1 ha with rfl | ha
      · exact Conn.refl _ _
      · have h1 : Conn S x y := Conn.edge (e := (x, y)) (h _ (by simp))
        exact h1.trans (ih y (fun e he => h e (by rw [List.zip_cons_cons]; exact List.mem_cons_of_mem _ he)) a ha)
  intro l h a ha b hb
  rcases l with _ | ⟨x, l⟩
  · simp at ha
  · exact (key l x h a ha).symm.trans (key l x h b hb)

theorem completed_spanning (hn : 2 ≤ n) {F : List (Edge n)} (hF : Forest F.toFinset) (hnd : F.Nodup)
    (ch : List (Edge n)) (hch : ch = if (components F).length > 1 then chain F else []) :
    Forest (F ++ ch).toFinset ∧ (F ++ ch).Nodup ∧ ∀ a b, Conn (F ++ ch).toFinset a b := by
  classical
  rw [components_length] at hch
  have hlen : ch.length = comps F.toFinset - 1 := by
    rw [hch]
    split
    · unfold chain
      simp only
      rw [heads, List.length_zip, List.length_tail, ← List.toFinset_card_of_nodup ((List.nodup_finRange n).filter _)]
      have : ((List.finRange n).filter fun r => r ∈ reps F.toFinset).toFinset = reps F.toFinset := by ext; simp
      rw [this]
      unfold comps
      omega
    · simp; omega
  have hsubF : F.toFinset ⊆ (F ++ ch).toFinset := by rw [List.toFinset_append]; exact Finset.subset_union_left
  have hconn : ∀ a b, Conn (F ++ ch).toFinset a b := by
    intro a b
    by_cases hc : comps F.toFinset > 1
    · obtain ⟨r1, hr1, hc1⟩ := exists_rep F.toFinset a
      obtain ⟨r2, hr2, hc2⟩ := exists_rep F.toFinset b
      have hz : Conn (F ++ ch).toFinset r1 r2 := by
        refine zip_tail_conn ((List.finRange n).filter fun r => r ∈ reps F.toFinset) (fun e he => ?_) r1 (by simp [hr1]) r2
          (by simp [hr2])
        rw [List.toFinset_append, Finset.mem_union]
        right
        rw [hch, if_pos hc, List.mem_toFinset]
        unfold chain
        simp only
        rw [heads]
        exact he
      exact ((hc1.mono hsubF).trans hz).trans (hc2.mono hsubF).symm
    · exact (conn_of_comps_le_one (by omega) a b).mono hsubF
  have hone := comps_eq_one (by omega : 0 < n) hconn
  have hge := comps_add_card_ge (F ++ ch).toFinset
  have hle := List.toFinset_card_le (F ++ ch)
  have hF' := hF
  unfold Forest at hF'
  rw [List.toFinset_card_of_nodup hnd] at hF'
  rw [List.length_append, hlen] at hle
  have hpos : 1 ≤ comps F.toFinset := by
    obtain ⟨r, hr, _⟩ := exists_rep F.toFinset ⟨0, by omega⟩
    exact Finset.card_pos.2 ⟨r, hr⟩
  refine ⟨by unfold Forest; omega, ?_, hconn⟩
  have hm : (Multiset.toFinset (F ++ ch : Multiset (Edge n))).card = Multiset.card (F ++ ch : Multiset (Edge n)) := by
    show (F ++ ch).toFinset.card = (F ++ ch).length
    rw [List.length_append, hlen]
    omega
  exact Multiset.coe_nodup.1 (Multiset.toFinset_card_eq_card_iff_nodup.1 hm)

/-- C32 for sampled affinities: whatever edges were sampled (with whatever weights, also zero), the completed tree yields
`d - 1` partitions, the `k`-th with `k + 2` groups. -/
theorem C32_sampled (hn : 2 ≤ n) (w : Edge n → ℝ) (es : List (Edge n))
    (sort : (Edge n → ℝ) → List (Edge n) → List (Edge n)) (hs : ∀ w, Sorts w (sort w)) :
    (fromSampled w es sort).length = n - 1 ∧ Ladder 1 (fromSampled w es sort) := by
  classical
  obtain ⟨h1, h2, h3, h4⟩ := maxTree_spec w es
  set F := maxTree w es with hFdef
  obtain ⟨g1, g2, g3⟩ := completed_spanning hn h1 h2 _ rfl
  set ch := if (components F).length > 1 then chain F else [] with hch
  set w' : Edge n → ℝ := fun e => if e ∈ ch then 0 else w e
  have hperm := (hs w' (F ++ ch)).1
  have heq : fromSampled w es sort = severed (sort w' (F ++ ch)) := by
    unfold fromSampled
    rw [if_neg (by omega)]
  rw [heq]
  have hF' : Forest (sort w' (F ++ ch)).toFinset := by rw [perm_toFinset hperm]; exact g1
  obtain ⟨hlen, hk⟩ := severed_spec hF' (hperm.nodup_iff.2 g2)
  have hone := comps_eq_one (by omega : 0 < n) g3
  rw [perm_toFinset hperm, hone] at hk
  refine ⟨?_, hk⟩
  unfold Forest at g1
  rw [hone, List.toFinset_card_of_nodup g2] at g1
  rw [hlen, hperm.length_eq]
  omega

open Classical in
/-- Sorting functions as assumed above exist. -/
theorem C32_sort_exists (w : Edge n → ℝ) : Sorts w fun l => l.insertionSort fun e f => w e ≤ w f := by
  intro l
  have : IsTrans (Edge n) fun e f => w e ≤ w f := ⟨fun a b c h1 h2 => h1.trans h2⟩
  have : Std.Total (fun e f : Edge n => w e ≤ w f) := ⟨fun a b => le_total _ _⟩
  exact ⟨List.perm_insertionSort _ _, List.pairwise_insertionSort _ _⟩

end Verif.Prom

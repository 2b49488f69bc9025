import Verif.PromForest

/-!
# Property C32, on matrices: the variable partitions of Prometheus
-/

namespace Verif.Prometheus

open Verif

/-- A partition of the variables `0..d-1` into non-empty, increasing, disjoint groups. -/
structure Partition (d : ℕ) (p : List (List ℕ)) : Prop where
  ne : ∀ c ∈ p, c ≠ []
  sorted : ∀ c ∈ p, c.Pairwise (· < ·)
  range : ∀ c ∈ p, ∀ a ∈ c, a < d
  cover : ∀ a < d, ∃ c ∈ p, a ∈ c
  disjoint : p.Pairwise fun c c' => ∀ a ∈ c, a ∉ c'

/-- Every group of `p` lies inside a group of `q`. -/
def Refines (p q : List (List ℕ)) : Prop := ∀ c ∈ p, ∃ c' ∈ q, ∀ a ∈ c, a ∈ c'

theorem Components.partition {d : ℕ} {R : ℕ → ℕ → Prop} {p : List (List ℕ)} (h : Components d R p) : Partition d p where
  ne := h.ne
  sorted := h.sorted
  range := h.range
  cover := h.cover
  disjoint := by
    refine h.nodup.imp_of_mem fun {c c'} hc hc' hne a ha ha' => hne ?_
    have hs : ∀ b, b ∈ c ↔ b ∈ c' := by
      intro b
      constructor
      · intro hb
        exact (h.same c' hc' a ha' b (h.range c hc b hb)).2 ((h.same c hc a ha b (h.range c hc b hb)).1 hb)
      · intro hb
        exact (h.same c hc a ha b (h.range c' hc' b hb)).2 ((h.same c' hc' a ha' b (h.range c' hc' b hb)).1 hb)
    have n1 : c.Nodup := (h.sorted c hc).imp fun hab => Nat.ne_of_lt hab
    have n2 : c'.Nodup := (h.sorted c' hc').imp fun hab => Nat.ne_of_lt hab
    exact List.Perm.eq_of_pairwise (le := (· < ·)) (fun a b _ _ h1 h2 => absurd h1 (Nat.lt_asymm h2)) (h.sorted c hc)
      (h.sorted c' hc') ((List.perm_ext_iff_of_nodup n1 n2).2 hs)

theorem Components.refines {d : ℕ} {R S : ℕ → ℕ → Prop} {p q : List (List ℕ)} (hp : Components d R p)
    (hq : Components d S q) (h : ∀ a b, Joined R a b → Joined S a b) : Refines p q := by
  intro c hc
  obtain ⟨a, ha⟩ := List.exists_mem_of_ne_nil _ (hp.ne c hc)
  obtain ⟨c', hc', ha'⟩ := hq.cover a (hp.range c hc a ha)
  refine ⟨c', hc', fun b hb => ?_⟩
  have hbd := hp.range c hc b hb
  exact (hq.same c' hc' a ha' b hbd).2 (h _ _ ((hp.same c hc a ha b hbd).1 hb))

theorem sever_length (d : ℕ) (es : List WEdge) : (sever d es).length = es.length := by
  induction es with
  | nil => rfl
  | cons e es ih => simp [sever, ih]

theorem sever_get (d : ℕ) : ∀ (es : List WEdge) (k : ℕ) (hk : k < (sever d es).length),
    (sever d es)[k] = comps d (es.drop (k + 1)) := by
  intro es
  induction es with
  | nil => intro k hk; simp [sever] at hk
  | cons e es ih =>
    intro k hk
    rcases k with _ | k
    · simp [sever]
    · simpa [sever] using ih k (by simpa [sever] using hk)

/-- What severing a forest one edge at a time gives: one partition per edge, each one a partition of all variables with one
group more than the one before, which it refines; `p0` are the components of the unsevered forest. -/
structure Severed (d : ℕ) (p0 : List (List ℕ)) (ps : List (List (List ℕ))) : Prop where
  count : ps.length + p0.length = d
  partition : ∀ p ∈ ps, Partition d p
  groups : ∀ k (hk : k < ps.length), ps[k].length = p0.length + k + 1
  nested : (p0 :: ps).Pairwise fun p q => Refines q p
  split : ∀ k (hk : k < ps.length), ∃ g ∈ (p0 :: ps)[k]'(by simp; omega), ∃ a ∈ ps[k], ∃ b ∈ ps[k],
    (∀ x, x ∈ g ↔ x ∈ a ∨ x ∈ b) ∧ ∀ c ∈ ps[k], c ∈ (p0 :: ps)[k]'(by simp; omega) ∨ c = a ∨ c = b

/-- Removing an edge splits one component in two. -/
theorem sever_step {d : ℕ} {e : WEdge} {es : List WEdge} (hin : e.1 < d ∧ e.2.1 < d) :
    ∃ g ∈ comps d (e :: es), ∃ a ∈ comps d es, ∃ b ∈ comps d es,
      (∀ x, x ∈ g ↔ x ∈ a ∨ x ∈ b) ∧ ∀ c ∈ comps d es, c ∈ comps d (e :: es) ∨ c = a ∨ c = b := by
  rw [comps_perm (List.perm_append_singleton e es).symm d]
  have hu := label_le es e.1
  have hv := label_le es e.2.1
  have hmin : label (es ++ [e]) (min (label es e.1) (label es e.2.1)) = min (label es e.1) (label es e.2.1) := by
    rw [label_append]
    simp only [merge]
    rw [if_pos]
    rcases Nat.le_total (label es e.1) (label es e.2.1) with hm | hm
    · rw [min_eq_left hm]; exact Or.inl (label_label es _)
    · rw [min_eq_right hm]; exact Or.inr (label_label es _)
  refine ⟨_, mem_comps.2 ⟨min (label es e.1) (label es e.2.1), by omega, hmin, rfl⟩,
    _, mem_comps.2 ⟨label es e.1, by omega, label_label es _, rfl⟩,
    _, mem_comps.2 ⟨label es e.2.1, by omega, label_label es _, rfl⟩, ?_, ?_⟩
  · intro x
    simp only [List.mem_filter, List.mem_range, decide_eq_true_eq]
    rw [label_append]
    simp only [merge]
    rw [← and_or_left]
    refine and_congr_right fun hx => ?_
    split_ifs with h
    · simp only [h]
    · simp only [h, iff_false]
      omega
  · intro c hc
    obtain ⟨r, hr, hl, rfl⟩ := mem_comps.1 hc
    by_cases h1 : r = label es e.1
    · exact Or.inr (Or.inl (by rw [h1]))
    by_cases h2 : r = label es e.2.1
    · exact Or.inr (Or.inr (by rw [h2]))
    left
    refine mem_comps.2 ⟨r, hr, ?_, ?_⟩
    · rw [label_append]
      simp only [merge]
      rw [if_neg (by omega), hl]
    · refine List.filter_congr fun x _ => ?_
      rw [label_append]
      simp only [merge]
      congr 1
      apply propext
      split_ifs with h <;> omega

theorem Forest.drop {d : ℕ} {es : List WEdge} (h : Forest d es) (hin : In d es) (k : ℕ) : Forest d (es.drop k) := by
  induction k generalizing es with
  | zero => simpa using h
  | succ k ih =>
    rcases es with _ | ⟨e, es⟩
    · simpa using h
    · exact ih (h.tail hin) fun f hf => hin f (List.mem_cons_of_mem _ hf)

theorem partitionsOf_spec {d : ℕ} {tree : List WEdge} (h : Forest d tree) (hin : In d tree) :
    Severed d (comps d tree) (partitionsOf d tree) := by
  obtain ⟨S, hS⟩ : ∃ S, S = ascending (edgesOf d tree) := ⟨_, rfl⟩
  have hperm : S.Perm tree := by rw [hS]; exact (ascending_perm _).trans (edgesOf_perm hin)
  have hF : Forest d S := h.perm hperm.symm
  have hI : In d S := hin.perm hperm.symm
  have hlen : (partitionsOf d tree).length = S.length := by rw [partitionsOf, sever_length, hS]
  have hget : ∀ k (hk : k < (partitionsOf d tree).length), (partitionsOf d tree)[k] = comps d (S.drop (k + 1)) := by
    intro k hk
    have := sever_get d S k (by rw [sever_length, ← hlen]; exact hk)
    rw [← this]
    simp only [partitionsOf, hS]
  have h0 : comps d tree = comps d (S.drop 0) := by simpa using (comps_perm hperm d).symm
  have hall : ∀ k (hk : k < (comps d tree :: partitionsOf d tree).length),
      (comps d tree :: partitionsOf d tree)[k] = comps d (S.drop k) := by
    intro k hk
    rcases k with _ | k
    · exact h0
    · simpa using hget k (by simpa using hk)
  have hF' : ∀ k, (comps d (S.drop k)).length + (S.length - k) = d := by
    intro k
    have := hF.drop hI k
    unfold Forest at this
    rwa [List.length_drop] at this
  refine ⟨?_, ?_, ?_, ?_, ?_⟩
  · rw [hlen, h0]
    have := hF' 0
    omega
  · intro p hp
    obtain ⟨k, hk, rfl⟩ := List.mem_iff_getElem.1 hp
    rw [hget k hk]
    exact (comps_spec _ _).partition
  · intro k hk
    rw [hget k hk, h0]
    have h1 := hF' 0
    have h2 := hF' (k + 1)
    omega
  · rw [List.pairwise_iff_getElem]
    intro i j hi hj hij
    rw [hall i hi, hall j hj]
    refine (comps_spec _ _).refines (comps_spec _ _) fun a b hab => joined_mono (fun _ _ => Link.mono fun e he => ?_) hab
    have : S.drop j = (S.drop i).drop (j - i) := by rw [List.drop_drop]; congr 1; omega
    rw [this] at he
    exact List.mem_of_mem_drop he
  · intro k hk
    rw [hall k (by simp; omega), hget k hk]
    have hkS : k < S.length := by omega
    have hd : S.drop k = S[k] :: S.drop (k + 1) := List.drop_eq_getElem_cons hkS
    rw [hd]
    exact sever_step (hI _ (List.getElem_mem _))

/-- There are at most `d + |ps| - 1 ≤ 2 (d - 1)` different groups in all partitions together. -/
theorem Severed.distinct {d : ℕ} {p0 : List (List ℕ)} {ps : List (List (List ℕ))} (h : Severed d p0 ps) (hne : ps ≠ []) :
    ps.flatten.toFinset.card + 1 ≤ d + ps.length := by
  have hpos := List.length_pos_of_ne_nil hne
  have key : ∀ k, k < ps.length → (ps.take (k + 1)).flatten.toFinset.card ≤ p0.length + 1 + 2 * k := by
    intro k
    induction k with
    | zero =>
      intro hk
      have hg := h.groups 0 hk
      have : ps.take (0 + 1) = [ps[0]] := by
        rw [List.take_succ_eq_append_getElem hk]; simp
      rw [this]
      simp only [List.flatten_cons, List.flatten_nil, List.append_nil]
      refine (List.toFinset_card_le _).trans ?_
      omega
    | succ k ih =>
      intro hk
      have h1 := ih (by omega)
      rw [List.take_succ_eq_append_getElem hk, List.flatten_append, List.toFinset_append]
      obtain ⟨g, hg, a, ha, b, hb, _, hs⟩ := h.split (k + 1) hk
      have hsub : (ps.take (k + 1)).flatten.toFinset ∪ [ps[k + 1]].flatten.toFinset ⊆
          insert a (insert b (ps.take (k + 1)).flatten.toFinset) := by
        intro c hc
        rw [Finset.mem_union] at hc
        rw [Finset.mem_insert, Finset.mem_insert]
        rcases hc with hc | hc
        · exact Or.inr (Or.inr hc)
        · simp only [List.flatten_cons, List.flatten_nil, List.append_nil, List.mem_toFinset] at hc
          rcases hs c hc with hp | hp | hp
          · right; right
            rw [List.mem_toFinset, List.mem_flatten]
            refine ⟨ps[k], ?_, by simpa using hp⟩
            rw [List.mem_take_iff_getElem]
            exact ⟨k, by omega, rfl⟩
          · exact Or.inl hp
          · exact Or.inr (Or.inl hp)
      refine (Finset.card_le_card hsub).trans ?_
      have := Finset.card_insert_le a (insert b (ps.take (k + 1)).flatten.toFinset)
      have := Finset.card_insert_le b (ps.take (k + 1)).flatten.toFinset
      omega
  have := key (ps.length - 1) (by omega)
  rw [show ps.length - 1 + 1 = ps.length by omega, List.take_length] at this
  have := h.count
  omega

/-! ## The graph -/

theorem link_addEdge (g : List WEdge) (e : WEdge) (a b : ℕ) :
    Link (addEdge g e) a b ↔ Link g a b ∨ (a = min e.1 e.2.1 ∧ b = max e.1 e.2.1) := by
  unfold addEdge
  obtain ⟨u, v, w⟩ := e
  simp only
  split_ifs with h
  · have hp : ∀ f : WEdge, samePair (min u v, max u v, w) f = true ↔ f.1 = min u v ∧ f.2.1 = max u v := by
      intro f; simp only [samePair, Bool.and_eq_true, decide_eq_true_eq]; exact ⟨fun h => ⟨h.1.symm, h.2.symm⟩, fun h => ⟨h.1.symm, h.2.symm⟩⟩
    obtain ⟨f, hf, hfp⟩ := List.any_eq_true.1 h
    rw [hp] at hfp
    constructor
    · rintro ⟨w', hw⟩
      rw [List.mem_map] at hw
      obtain ⟨f', hf', he⟩ := hw
      split_ifs at he with hs
      · right
        simp only [Prod.mk.injEq] at he
        exact ⟨he.1.symm, he.2.1.symm⟩
      · left; exact ⟨w', he ▸ hf'⟩
    · rintro (⟨w', hw⟩ | ⟨rfl, rfl⟩)
      · by_cases hs : samePair (min u v, max u v, w) (a, b, w') = true
        · refine ⟨w, List.mem_map.2 ⟨_, hw, ?_⟩⟩
          rw [if_pos hs]
          obtain ⟨h1, h2⟩ := (hp _).1 hs
          simp only at h1 h2
          rw [h1, h2]
        · refine ⟨w', List.mem_map.2 ⟨_, hw, ?_⟩⟩
          rw [if_neg hs]
      · refine ⟨w, List.mem_map.2 ⟨f, hf, ?_⟩⟩
        rw [if_pos ((hp f).2 hfp)]
  · constructor
    · rintro ⟨w', hw⟩
      rw [List.mem_append, List.mem_singleton] at hw
      rcases hw with hw | hw
      · exact Or.inl ⟨w', hw⟩
      · simp only [Prod.mk.injEq] at hw
        exact Or.inr ⟨hw.1, hw.2.1⟩
    · rintro (⟨w', hw⟩ | ⟨rfl, rfl⟩)
      · exact ⟨w', by simp [hw]⟩
      · exact ⟨w, by simp⟩

theorem link_foldl (L : List WEdge) : ∀ (g : List WEdge) (a b : ℕ), Link (L.foldl addEdge g) a b ↔
    Link g a b ∨ ∃ e ∈ L, a = min e.1 e.2.1 ∧ b = max e.1 e.2.1 := by
  induction L with
  | nil => intro g a b; simp
  | cons e L ih =>
    intro g a b
    rw [List.foldl_cons, ih, link_addEdge]
    simp only [List.mem_cons, exists_eq_or_imp, or_assoc]

theorem mem_entries {A : Mat} {e : WEdge} :
    e ∈ (((List.range A.r).flatMap fun i => (List.range A.c).map fun j => ((i, j, A.at2 i j) : WEdge)).filter
      fun e => e.2.2 ≠ 0) ↔ e.1 < A.r ∧ e.2.1 < A.c ∧ e.2.2 = A.at2 e.1 e.2.1 ∧ e.2.2 ≠ 0 := by
  simp only [List.mem_filter, List.mem_flatMap, List.mem_range, List.mem_map, decide_eq_true_eq]
  constructor
  · rintro ⟨⟨i, hi, j, hj, rfl⟩, h⟩
    exact ⟨hi, hj, rfl, h⟩
  · rintro ⟨h1, h2, h3, h4⟩
    exact ⟨⟨e.1, h1, e.2.1, h2, by rw [← h3]⟩, h4⟩

/-- The graph has a link between two columns exactly when one of the two affinity entries is not zero. -/
theorem link_fromArray {A : Mat} (hsq : A.r = A.c) (a b : ℕ) :
    Link (fromArray A) a b ↔ a ≤ b ∧ b < A.r ∧ (A.at2 a b ≠ 0 ∨ A.at2 b a ≠ 0) := by
  unfold fromArray
  rw [link_foldl]
  constructor
  · rintro (⟨w, hw⟩ | ⟨e, he, rfl, rfl⟩)
    · simp at hw
    · obtain ⟨h1, h2, h3, h4⟩ := mem_entries.1 he
      rw [h3] at h4
      refine ⟨min_le_max, by omega, ?_⟩
      rcases Nat.le_total e.1 e.2.1 with hm | hm
      · rw [min_eq_left hm, max_eq_right hm]; exact Or.inl h4
      · rw [min_eq_right hm, max_eq_left hm]; exact Or.inr h4
  · rintro ⟨h1, h2, h | h⟩
    · exact Or.inr ⟨(a, b, A.at2 a b), mem_entries.2 ⟨by simp only; omega, by simp only; omega, rfl, h⟩,
        by simp [h1], by simp [h1]⟩
    · exact Or.inr ⟨(b, a, A.at2 b a), mem_entries.2 ⟨by simp only; omega, by simp only; omega, rfl, h⟩,
        by simp [h1], by simp [h1]⟩

theorem In.of_links {d : ℕ} {g : List WEdge} (h : ∀ a b, Link g a b → a < d ∧ b < d) : In d g := by
  intro e he
  exact h e.1 e.2.1 ⟨e.2.2, he⟩

theorem fromArray_in {A : Mat} (hsq : A.r = A.c) : In A.r (fromArray A) := by
  refine In.of_links fun a b h => ?_
  have := (link_fromArray hsq a b).1 h
  omega

theorem fullPartitions_eq {A : Mat} (hsq : A.r = A.c) (hd : 2 ≤ A.r) :
    fullPartitions A = .ok (partitionsOf A.r (maxTree A.r (fromArray A))) := by
  unfold fullPartitions
  rw [if_neg (by simpa using hsq), if_neg (by omega)]

/-- C32: for every square affinity matrix over at least two variables.  Let `p0` be the groups of variables joined by non-zero
affinities.  There are as many partitions as variables minus groups in `p0`; each is a partition of all variables, the first
splits one group of `p0` in two, each later one splits one group of the one before in two. -/
theorem C32_matrix_partitions {A : Mat} (hsq : A.r = A.c) (hd : 2 ≤ A.r) : ∃ ps p0, fullPartitions A = .ok ps ∧
    Components A.r (fun a b => a ≤ b ∧ b < A.r ∧ (A.at2 a b ≠ 0 ∨ A.at2 b a ≠ 0)) p0 ∧ Severed A.r p0 ps := by
  obtain ⟨h1, h2, _, h4⟩ := maxTree_spec (fromArray_in hsq)
  refine ⟨_, _, fullPartitions_eq hsq hd, ?_, partitionsOf_spec h1 h2⟩
  rw [comps_congr h4]
  have := comps_spec A.r (fromArray A)
  have e : Link (fromArray A) = fun a b => a ≤ b ∧ b < A.r ∧ (A.at2 a b ≠ 0 ∨ A.at2 b a ≠ 0) := by
    funext a b; exact propext (link_fromArray hsq a b)
  rwa [e] at this

/-- C32: if no off-diagonal affinity is zero, this is what the documentation says: `d - 1` partitions, the first into two
groups, the last into `d` groups. -/
theorem C32_matrix_documented {A : Mat} (hsq : A.r = A.c) (hd : 2 ≤ A.r)
    (hnz : ∀ i < A.r, ∀ j < A.r, i ≠ j → A.at2 i j ≠ 0) : ∃ ps, fullPartitions A = .ok ps ∧ ps.length = A.r - 1 ∧
      (∀ k (hk : k < ps.length), Partition A.r ps[k] ∧ ps[k].length = k + 2) ∧ ps.Pairwise fun p q => Refines q p := by
  obtain ⟨ps, p0, h1, h2, h3⟩ := C32_matrix_partitions hsq hd
  have hj : ∀ a < A.r, Joined (fun a b => a ≤ b ∧ b < A.r ∧ (A.at2 a b ≠ 0 ∨ A.at2 b a ≠ 0)) 0 a := by
    intro a ha
    rcases Nat.eq_zero_or_pos a with rfl | hpos
    · exact .refl _
    · exact .rel _ _ ⟨by omega, ha, Or.inl (hnz 0 (by omega) a ha (by omega))⟩
  have hlen : p0.length = 1 := by
    obtain ⟨c, hc, h0c⟩ := h2.cover 0 (by omega)
    obtain ⟨i, hi, rfl⟩ := List.mem_iff_getElem.1 hc
    have hall : ∀ j (hj' : j < p0.length), j = i := by
      intro j hj'
      by_contra hne
      obtain ⟨a, ha⟩ := List.exists_mem_of_ne_nil _ (h2.ne p0[j] (List.getElem_mem _))
      have had := h2.range _ (List.getElem_mem hj') a ha
      have hmem := (h2.same _ hc 0 h0c a had).2 (hj a had)
      rcases Nat.lt_or_gt_of_ne hne with hlt | hlt
      · exact List.pairwise_iff_getElem.1 h2.partition.disjoint j i hj' hi hlt a ha hmem
      · exact List.pairwise_iff_getElem.1 h2.partition.disjoint i j hi hj' hlt a hmem ha
    have h0 := hall 0 (by omega)
    by_contra hne
    have := hall 1 (by omega)
    omega
  refine ⟨ps, h1, ?_, fun k hk => ⟨h3.partition _ (List.getElem_mem _), ?_⟩, (List.pairwise_cons.1 h3.nested).2⟩
  · have := h3.count; omega
  · have := h3.groups k hk; omega

/-- C32: a matrix that is not square is rejected; up to one variable gives no partition. -/
theorem C32_matrix_rejects (A : Mat) : (A.r ≠ A.c → fullPartitions A = .error .invalidParameter) ∧
    (A.r = A.c → A.r ≤ 1 → fullPartitions A = .ok []) := by
  constructor
  · intro h; unfold fullPartitions; rw [if_pos h]
  · intro h h'; unfold fullPartitions; rw [if_neg (by simpa using h), if_pos h']

/-- C32 (the documentation is wrong with zero affinities): when all off-diagonal affinities vanish, whatever the number of
variables, there is no partition at all. -/
theorem C32_matrix_zero {A : Mat} (hsq : A.r = A.c) (hz : ∀ i j, i ≠ j → A.at2 i j = 0) : fullPartitions A = .ok [] := by
  rcases Nat.lt_or_ge 1 A.r with hd | hd
  · obtain ⟨ps, p0, h1, h2, h3⟩ := C32_matrix_partitions hsq hd
    have hj : ∀ a b, Joined (fun a b => a ≤ b ∧ b < A.r ∧ (A.at2 a b ≠ 0 ∨ A.at2 b a ≠ 0)) a b → a = b := by
      intro a b h
      induction h with
      | rel a b hab =>
        by_contra hne
        rcases hab.2.2 with h | h
        · exact h (hz a b hne)
        · exact h (hz b a (Ne.symm hne))
      | refl a => rfl
      | symm a b _ ih => exact ih.symm
      | trans a b c _ _ ih1 ih2 => exact ih1.trans ih2
    have hp0 : A.r ≤ p0.length := by
      have hex : ∀ a : Fin A.r, ∃ i : Fin p0.length, a.1 ∈ p0[i] := by
        intro a
        obtain ⟨c, hc, hac⟩ := h2.cover a a.2
        obtain ⟨i, hi, rfl⟩ := List.mem_iff_getElem.1 hc
        exact ⟨⟨i, hi⟩, hac⟩
      choose f hf using hex
      have hinj : Function.Injective f := by
        intro a b hab
        have h1 := hf a
        have h2' := hf b
        rw [hab] at h1
        exact Fin.ext (hj _ _ ((h2.same _ (List.getElem_mem _) a h1 b b.2).1 h2'))
      simpa using Fintype.card_le_of_injective f hinj
    have := h3.count
    rw [h1, List.length_eq_zero_iff.1 (by omega : ps.length = 0)]
  · exact (C32_matrix_rejects A).2 hsq hd

end Verif.Prometheus

import Verif.PromParts

/-!
# Property C32, on matrices continued: the partitions are single-linkage clusterings; sampled affinities
-/

namespace Verif.Prometheus

open Verif

theorem kruskal_append (P Q acc : List WEdge) : kruskal (P ++ Q) acc = kruskal Q (kruskal P acc) := by
  induction P generalizing acc with
  | nil => rfl
  | cons e P ih => simp only [List.cons_append, kruskal]; split_ifs <;> exact ih _

theorem descending_sorted (es : List WEdge) : (descending es).Pairwise fun a b => b.2.2 ≤ a.2.2 := by
  haveI : Std.Total (α := WEdge) (fun a b : WEdge => b.2.2 ≤ a.2.2) := ⟨fun a b => le_total _ _⟩
  haveI : IsTrans WEdge (fun a b : WEdge => b.2.2 ≤ a.2.2) := ⟨fun a b c h1 h2 => le_trans h2 h1⟩
  exact List.pairwise_insertionSort _ _

theorem ascending_sorted (es : List WEdge) : (ascending es).Pairwise fun a b => a.2.2 ≤ b.2.2 := by
  haveI : Std.Total (α := WEdge) (fun a b : WEdge => a.2.2 ≤ b.2.2) := ⟨fun a b => le_total _ _⟩
  haveI : IsTrans WEdge (fun a b : WEdge => a.2.2 ≤ b.2.2) := ⟨fun a b c h1 h2 => le_trans h1 h2⟩
  exact List.pairwise_insertionSort _ _

open Classical in
/-- Edges of weight at least `t`. -/
noncomputable def above (t : ℝ) (es : List WEdge) : List WEdge := es.filter fun e => t ≤ e.2.2

theorem mem_above {t : ℝ} {es : List WEdge} {e : WEdge} : e ∈ above t es ↔ e ∈ es ∧ t ≤ e.2.2 := by simp [above]

/-- A list sorted by decreasing weight begins with the edges above any threshold. -/
theorem split_desc (t : ℝ) : ∀ es : List WEdge, (es.Pairwise fun a b => b.2.2 ≤ a.2.2) →
    ∃ Q, es = above t es ++ Q ∧ ∀ e ∈ Q, e.2.2 < t := by
  intro es
  induction es with
  | nil => intro _; exact ⟨[], rfl, by simp⟩
  | cons e es ih =>
    intro h
    obtain ⟨h1, h2⟩ := List.pairwise_cons.1 h
    by_cases ht : t ≤ e.2.2
    · obtain ⟨Q, hQ, hQ'⟩ := ih h2
      refine ⟨Q, ?_, hQ'⟩
      have : above t (e :: es) = e :: above t es := by simp [above, ht]
      rw [this, List.cons_append, ← hQ]
    · refine ⟨e :: es, ?_, ?_⟩
      · have : above t (e :: es) = [] := by
          unfold above
          rw [List.filter_eq_nil_iff]
          intro f hf
          rw [decide_eq_true_eq]
          rcases List.mem_cons.1 hf with rfl | hf
          · exact ht
          · exact fun hc => ht (hc.trans (h1 f hf))
        rw [this]; rfl
      · intro f hf
        rcases List.mem_cons.1 hf with rfl | hf
        · exact not_le.1 ht
        · exact lt_of_le_of_lt (h1 f hf) (not_le.1 ht)

/-- The heavy edges of the maximum spanning forest join the same variables as all heavy edges. -/
theorem above_maxTree {d : ℕ} {g : List WEdge} (h : In d g) (t : ℝ) (a b : ℕ) :
    Joined (Link (above t (maxTree d g))) a b ↔ Joined (Link (above t g)) a b := by
  have hp := (descending_perm (edgesOf d g)).trans (edgesOf_perm h)
  obtain ⟨D, hD⟩ : ∃ D, D = descending (edgesOf d g) := ⟨_, rfl⟩
  rw [← hD] at hp
  obtain ⟨Q, hQ, hQ'⟩ := split_desc t D (hD ▸ descending_sorted _)
  have hDi : In d D := h.perm hp.symm
  have hPi : In d (above t D) := fun e he => hDi e (mem_above.1 he).1
  have hQi : In d Q := fun e he => hDi e (by rw [hQ]; simp [he])
  obtain ⟨a1, a2, a3, _, a5⟩ := kruskal_spec (d := d) (above t D) [] hPi (In.nil d) (Forest.nil d)
  obtain ⟨b1, b2, b3, ⟨r, b4⟩, b5⟩ := kruskal_spec (d := d) Q _ hQi a2 a1
  have hT : maxTree d g = kruskal Q (kruskal (above t D) []) := by
    unfold maxTree
    rw [← kruskal_append, ← hQ, hD]
  obtain ⟨_, hF2, _, _⟩ := maxTree_spec h
  -- the heavy edges of the forest are those taken before the light ones
  have hab : above t (maxTree d g) = kruskal (above t D) [] := by
    rw [hT, b4]
    obtain ⟨K, hK⟩ : ∃ K, K = kruskal (above t D) [] := ⟨_, rfl⟩
    rw [← hK] at b1 b2 b3 b4 a3 ⊢
    have e1 : above t K = K := by
      refine List.filter_eq_self.2 fun e he => ?_
      rw [decide_eq_true_eq]
      rcases a3 e he with hc | hc
      · simp at hc
      · exact (mem_above.1 hc).2
    have e2 : above t r = [] := by
      refine List.filter_eq_nil_iff.2 fun e he => ?_
      rw [decide_eq_true_eq]
      -- an edge of the rest comes from `Q`, or equals an earlier one, which forests exclude
      have hmem : e ∈ kruskal Q K := by rw [b4]; simp [he]
      intro hle
      rcases b3 e hmem with hc | hc
      · obtain ⟨s1, s2, hs⟩ := List.append_of_mem he
        have hperm : (kruskal Q K).Perm (e :: (K ++ (s1 ++ s2))) := by
          rw [b4, hs]
          have : (K ++ (s1 ++ e :: s2)).Perm (K ++ (e :: (s1 ++ s2))) := List.Perm.append_left _ List.perm_middle
          exact this.trans List.perm_middle
        have hf := b1.perm hperm
        have hi := b2.perm hperm
        have hft := hf.tail hi
        have hj : Joined (Link (K ++ (s1 ++ s2))) e.1 e.2.1 := .rel _ _ ⟨e.2.2, List.mem_append_left _ hc⟩
        have hcc := comps_append_joined (d := d) hj
        rw [comps_perm (List.perm_append_singleton e _) d] at hcc
        unfold Forest at hf hft
        rw [hcc] at hf
        simp only [List.length_cons] at hf
        omega
      · exact absurd hle (not_le.2 (hQ' e hc))
    have e3 : above t (K ++ r) = above t K ++ above t r := List.filter_append ..
    rw [e3, e1, e2, List.append_nil]
  rw [hab]
  refine (a5 a b).trans ?_
  rw [List.nil_append]
  constructor <;> refine joined_mono fun _ _ => Link.mono fun e he => ?_
  · rw [mem_above] at he ⊢; exact ⟨hp.mem_iff.1 he.1, he.2⟩
  · rw [mem_above] at he ⊢; exact ⟨hp.mem_iff.2 he.1, he.2⟩

/-- A list sorted by increasing weight ends with the edges above any threshold. -/
theorem split_asc (t : ℝ) : ∀ es : List WEdge, (es.Pairwise fun a b => a.2.2 ≤ b.2.2) →
    ∃ k ≤ es.length, above t es = es.drop k := by
  intro es
  induction es with
  | nil => intro _; exact ⟨0, le_rfl, rfl⟩
  | cons e es ih =>
    intro h
    obtain ⟨h1, h2⟩ := List.pairwise_cons.1 h
    by_cases ht : t ≤ e.2.2
    · refine ⟨0, by simp, ?_⟩
      rw [List.drop_zero]
      unfold above
      rw [List.filter_eq_self]
      intro f hf
      rw [decide_eq_true_eq]
      rcases List.mem_cons.1 hf with rfl | hf
      · exact ht
      · exact ht.trans (h1 f hf)
    · obtain ⟨k, hk, hk'⟩ := ih h2
      refine ⟨k + 1, by simpa using hk, ?_⟩
      rw [List.drop_succ_cons, ← hk']
      simp [above, ht]

theorem Forest.not_joined {d : ℕ} {e : WEdge} {es : List WEdge} (h : Forest d (e :: es)) (hin : In d (e :: es)) :
    ¬ Joined (Link es) e.1 e.2.1 := by
  intro hj
  have hft := h.tail hin
  have hcc := comps_append_joined (d := d) hj
  rw [comps_perm (List.perm_append_singleton e es) d] at hcc
  unfold Forest at h hft
  rw [hcc] at h
  simp only [List.length_cons] at h
  omega

/-- In a forest no pair of nodes carries two edges. -/
theorem Forest.pairs {d : ℕ} : ∀ {es : List WEdge}, Forest d es → In d es →
    es.Pairwise fun e f => ¬ (e.1 = f.1 ∧ e.2.1 = f.2.1) := by
  intro es
  induction es with
  | nil => intro _ _; exact .nil
  | cons e es ih =>
    intro h hin
    refine List.pairwise_cons.2 ⟨fun f hf hc => h.not_joined hin ?_, ih (h.tail hin) fun f hf => hin f (List.mem_cons_of_mem _ hf)⟩
    exact .rel _ _ ⟨f.2.2, by rw [hc.1, hc.2]; exact hf⟩

/-- Partitions of a tree: the components above any threshold are among them (or are those of the whole tree); if all weights
differ, every partition consists of the components above some threshold. -/
theorem partitionsOf_above {d : ℕ} {tree : List WEdge} (h : Forest d tree) (hin : In d tree) :
    (∀ t, comps d (above t tree) ∈ comps d tree :: partitionsOf d tree) ∧
    ((∀ e ∈ tree, ∀ f ∈ tree, e.2.2 = f.2.2 → e.1 = f.1 ∧ e.2.1 = f.2.1) →
      ∀ p ∈ partitionsOf d tree, ∃ t, p = comps d (above t tree) ∧ ∃ e ∈ tree, e.2.2 < t) := by
  obtain ⟨S, hS⟩ : ∃ S, S = ascending (edgesOf d tree) := ⟨_, rfl⟩
  have hperm : S.Perm tree := by rw [hS]; exact (ascending_perm _).trans (edgesOf_perm hin)
  have hsort : S.Pairwise fun a b => a.2.2 ≤ b.2.2 := hS ▸ ascending_sorted _
  have hlen : (partitionsOf d tree).length = S.length := by rw [partitionsOf, sever_length, hS]
  have hget : ∀ k (hk : k < (partitionsOf d tree).length), (partitionsOf d tree)[k] = comps d (S.drop (k + 1)) := by
    intro k hk
    have := sever_get d S k (by rw [sever_length, ← hlen]; exact hk)
    rw [← this]
    simp only [partitionsOf, hS]
  have habove : ∀ t, comps d (above t tree) = comps d (above t S) := by
    intro t
    refine comps_congr (fun a b => ?_) d
    exact ⟨joined_mono fun _ _ => Link.mono fun e he => mem_above.2 ⟨hperm.mem_iff.2 (mem_above.1 he).1, (mem_above.1 he).2⟩,
      joined_mono fun _ _ => Link.mono fun e he => mem_above.2 ⟨hperm.mem_iff.1 (mem_above.1 he).1, (mem_above.1 he).2⟩⟩
  constructor
  · intro t
    rw [habove]
    obtain ⟨k, hk, hk'⟩ := split_asc t S hsort
    rw [hk']
    rcases k with _ | k
    · rw [List.drop_zero, comps_perm hperm d]
      exact List.mem_cons_self
    · refine List.mem_cons_of_mem _ ?_
      rw [← hget k (by omega)]
      exact List.getElem_mem _
  · intro hdist p hp
    obtain ⟨k, hk, rfl⟩ := List.mem_iff_getElem.1 hp
    have hkS : k < S.length := by omega
    rw [hget k hk]
    have hpairs := (h.perm hperm.symm).pairs (hin.perm hperm.symm)
    -- strictly increasing weights
    have hstrict : S.Pairwise fun a b => a.2.2 < b.2.2 := by
      refine (hsort.and hpairs).imp_of_mem fun {a b} ha hb hab => lt_of_le_of_ne hab.1 fun he => hab.2 ?_
      exact hdist a (hperm.mem_iff.1 ha) b (hperm.mem_iff.1 hb) he
    obtain ⟨t, ht1, ht2⟩ : ∃ t, S[k].2.2 < t ∧ ∀ j (hj : j < S.length), k < j → t ≤ S[j].2.2 := by
      by_cases hk1 : k + 1 < S.length
      · refine ⟨S[k + 1].2.2, List.pairwise_iff_getElem.1 hstrict k (k + 1) hkS hk1 (by omega), fun j hj hkj => ?_⟩
        rcases Nat.eq_or_lt_of_le (show k + 1 ≤ j from hkj) with rfl | hlt
        · exact le_rfl
        · exact (List.pairwise_iff_getElem.1 hstrict (k + 1) j hk1 hj hlt).le
      · exact ⟨S[k].2.2 + 1, by linarith, fun j hj hkj => by omega⟩
    refine ⟨t, ?_, S[k], hperm.mem_iff.1 (List.getElem_mem _), ht1⟩
    rw [habove]
    refine comps_congr (fun a b => ?_) d
    constructor <;> refine joined_mono fun _ _ => Link.mono fun e he => ?_
    · obtain ⟨i, hi, rfl⟩ := List.mem_iff_getElem.1 he
      rw [List.length_drop] at hi
      rw [List.getElem_drop]
      exact mem_above.2 ⟨List.getElem_mem _, ht2 _ (by omega) (by omega)⟩
    · obtain ⟨he1, he2⟩ := mem_above.1 he
      obtain ⟨i, hi, rfl⟩ := List.mem_iff_getElem.1 he1
      rw [List.mem_iff_getElem]
      have hik : k < i := by
        by_contra hc
        rcases Nat.eq_or_lt_of_le (Nat.le_of_not_lt hc) with rfl | hlt
        · linarith
        · have := List.pairwise_iff_getElem.1 hstrict i k hi hkS hlt
          linarith
      refine ⟨i - (k + 1), by rw [List.length_drop]; omega, ?_⟩
      rw [List.getElem_drop]
      congr 1
      omega

/-! ## Symmetric matrices -/

/-- Consistent weights: each pair is always entered with the same weight. -/
theorem mem_foldl_addEdge {W : ℕ → ℕ → ℝ} : ∀ (L g : List WEdge),
    (∀ e ∈ L, e.2.2 = W (min e.1 e.2.1) (max e.1 e.2.1)) → (∀ e ∈ g, e.2.2 = W e.1 e.2.1) →
    ∀ e ∈ L.foldl addEdge g, e.2.2 = W e.1 e.2.1 := by
  intro L
  induction L with
  | nil => intro g _ hg; exact hg
  | cons f L ih =>
    intro g hL hg
    rw [List.foldl_cons]
    refine ih _ (fun e he => hL e (List.mem_cons_of_mem _ he)) ?_
    have hf := hL f (by simp)
    intro e he
    unfold addEdge at he
    simp only at he
    split_ifs at he
    · obtain ⟨e', he', rfl⟩ := List.mem_map.1 he
      split_ifs
      · exact hf
      · exact hg e' he'
    · rw [List.mem_append, List.mem_singleton] at he
      rcases he with he | rfl
      · exact hg e he
      · exact hf

theorem mem_graph {A : Mat} (hsq : A.r = A.c) (hsym : ∀ i j, A.at2 i j = A.at2 j i) (e : WEdge) :
    e ∈ fromArray A ↔ e.1 ≤ e.2.1 ∧ e.2.1 < A.r ∧ e.2.2 = A.at2 e.1 e.2.1 ∧ A.at2 e.1 e.2.1 ≠ 0 := by
  have hw : ∀ e ∈ fromArray A, e.2.2 = A.at2 e.1 e.2.1 := by
    refine mem_foldl_addEdge (W := A.at2) _ [] (fun e he => ?_) (by simp)
    obtain ⟨_, _, h3, _⟩ := mem_entries.1 he
    rcases Nat.le_total e.1 e.2.1 with hm | hm
    · rw [min_eq_left hm, max_eq_right hm, h3]
    · rw [min_eq_right hm, max_eq_left hm, h3, hsym]
  constructor
  · intro he
    obtain ⟨h1, h2, h3⟩ := (link_fromArray hsq e.1 e.2.1).1 ⟨e.2.2, he⟩
    refine ⟨h1, h2, hw e he, ?_⟩
    rcases h3 with h3 | h3
    · exact h3
    · rw [hsym]; exact h3
  · rintro ⟨h1, h2, h3, h4⟩
    obtain ⟨w, hw'⟩ := (link_fromArray hsq e.1 e.2.1).2 ⟨h1, h2, Or.inl h4⟩
    have := hw _ hw'
    simp only at this
    rw [← h3] at this
    rw [this] at hw'
    exact hw'

/-- C32: for a symmetric affinity matrix and every threshold, the groups of variables joined by affinities of at least the
threshold (zero entries never join) are one of the produced partitions, unless the threshold separates nothing. -/
theorem C32_matrix_thresholds {A : Mat} (hsq : A.r = A.c) (hd : 2 ≤ A.r) (hsym : ∀ i j, A.at2 i j = A.at2 j i) :
    ∃ ps p0, fullPartitions A = .ok ps ∧
      Components A.r (fun a b => a ≤ b ∧ b < A.r ∧ A.at2 a b ≠ 0) p0 ∧
      ∀ t, ∃ p ∈ p0 :: ps, Components A.r (fun a b => a ≤ b ∧ b < A.r ∧ A.at2 a b ≠ 0 ∧ t ≤ A.at2 a b) p := by
  have hI := fromArray_in hsq
  obtain ⟨h1, h2, _, h4⟩ := maxTree_spec hI
  have hl : Link (fromArray A) = fun a b => a ≤ b ∧ b < A.r ∧ A.at2 a b ≠ 0 := by
    funext a b
    refine propext ((link_fromArray hsq a b).trans ?_)
    rw [hsym b a, or_self]
  refine ⟨_, comps A.r (fromArray A), fullPartitions_eq hsq hd, ?_, fun t => ?_⟩
  · have := comps_spec A.r (fromArray A)
    rwa [hl] at this
  · refine ⟨comps A.r (above t (fromArray A)), ?_, ?_⟩
    · have := (partitionsOf_above h1 h2).1 t
      rwa [comps_congr h4, comps_congr (above_maxTree hI t)] at this
    · have := comps_spec A.r (above t (fromArray A))
      have e : Link (above t (fromArray A)) = fun a b => a ≤ b ∧ b < A.r ∧ A.at2 a b ≠ 0 ∧ t ≤ A.at2 a b := by
        funext a b
        apply propext
        constructor
        · rintro ⟨w, hw⟩
          obtain ⟨hm, ht⟩ := mem_above.1 hw
          obtain ⟨g1, g2, g3, g4⟩ := (mem_graph hsq hsym _).1 hm
          simp only at g1 g2 g3 g4 ht
          exact ⟨g1, g2, g4, by rw [← g3]; exact ht⟩
        · rintro ⟨g1, g2, g3, g4⟩
          exact ⟨A.at2 a b, mem_above.2 ⟨(mem_graph hsq hsym _).2 ⟨g1, g2, rfl, g3⟩, g4⟩⟩
      rwa [e] at this

/-- C32: if moreover no two pairs of variables have the same non-zero affinity, every produced partition is such a clustering
(single linkage), for a threshold above at least one non-zero affinity. -/
theorem C32_matrix_single_linkage {A : Mat} (hsq : A.r = A.c) (hd : 2 ≤ A.r) (hsym : ∀ i j, A.at2 i j = A.at2 j i)
    (hdist : ∀ i j k l, i < j → j < A.r → k < l → l < A.r → A.at2 i j ≠ 0 → A.at2 i j = A.at2 k l → i = k ∧ j = l) :
    ∃ ps, fullPartitions A = .ok ps ∧ ∀ p ∈ ps, ∃ t,
      Components A.r (fun a b => a ≤ b ∧ b < A.r ∧ A.at2 a b ≠ 0 ∧ t ≤ A.at2 a b) p ∧
      ∃ a b, a < b ∧ b < A.r ∧ A.at2 a b ≠ 0 ∧ A.at2 a b < t := by
  have hI := fromArray_in hsq
  obtain ⟨h1, h2, h3, h4⟩ := maxTree_spec hI
  -- forest edges join two different variables
  have hlt : ∀ e ∈ maxTree A.r (fromArray A), e.1 < e.2.1 := by
    intro e he
    obtain ⟨g1, _⟩ := (mem_graph hsq hsym e).1 (h3 e he)
    refine lt_of_le_of_ne g1 fun hc => ?_
    obtain ⟨s1, s2, hs⟩ := List.append_of_mem he
    have hp : (maxTree A.r (fromArray A)).Perm (e :: (s1 ++ s2)) := by rw [hs]; exact List.perm_middle
    exact (h1.perm hp).not_joined (h2.perm hp) (by rw [hc]; exact .refl _)
  refine ⟨_, fullPartitions_eq hsq hd, fun p hp => ?_⟩
  obtain ⟨t, rfl, e, he, het⟩ := (partitionsOf_above h1 h2).2 (fun e he f hf hw => by
    obtain ⟨e1, e2, e3, e4⟩ := (mem_graph hsq hsym e).1 (h3 e he)
    obtain ⟨f1, f2, f3, f4⟩ := (mem_graph hsq hsym f).1 (h3 f hf)
    exact hdist _ _ _ _ (hlt e he) e2 (hlt f hf) f2 e4 (by rw [← e3, ← f3, hw])) p hp
  obtain ⟨e1, e2, e3, e4⟩ := (mem_graph hsq hsym e).1 (h3 e he)
  refine ⟨t, ?_, e.1, e.2.1, hlt e he, e2, e4, by rw [← e3]; exact het⟩
  rw [comps_congr (above_maxTree hI t)]
  have := comps_spec A.r (above t (fromArray A))
  have e : Link (above t (fromArray A)) = fun a b => a ≤ b ∧ b < A.r ∧ A.at2 a b ≠ 0 ∧ t ≤ A.at2 a b := by
    funext a b
    apply propext
    constructor
    · rintro ⟨w, hw⟩
      obtain ⟨hm, ht⟩ := mem_above.1 hw
      obtain ⟨g1, g2, g3, g4⟩ := (mem_graph hsq hsym _).1 hm
      simp only at g1 g2 g3 g4 ht
      exact ⟨g1, g2, g4, by rw [← g3]; exact ht⟩
    · rintro ⟨g1, g2, g3, g4⟩
      exact ⟨A.at2 a b, mem_above.2 ⟨(mem_graph hsq hsym _).2 ⟨g1, g2, rfl, g3⟩, g4⟩⟩
  rwa [e] at this

/-! ## Sampled affinities -/

theorem sampledFold_spec {w : ℕ → ℕ → ℝ} (L : List (ℕ × ℕ)) : ∀ es : List WEdge, (∀ e ∈ es, e.2.2 = w e.1 e.2.1) →
    ∀ a b v, (a, b, v) ∈ L.foldl (fun es p => if es.any (fun f => f.1 = p.1 && f.2.1 = p.2) then es
      else es ++ [((p.1, p.2, w p.1 p.2) : WEdge)]) es ↔ v = w a b ∧ ((a, b) ∈ L ∨ Link es a b) := by
  induction L with
  | nil =>
    intro es hes a b v
    simp only [List.foldl_nil, List.not_mem_nil, false_or]
    constructor
    · intro h; exact ⟨hes _ h, v, h⟩
    · rintro ⟨rfl, v', h⟩
      have := hes _ h
      simp only at this
      rwa [this] at h
  | cons p L ih =>
    intro es hes a b v
    rw [List.foldl_cons]
    split_ifs with h
    · rw [ih es hes]
      refine and_congr_right fun _ => ?_
      rw [List.mem_cons]
      constructor
      · rintro (h | h); exacts [Or.inl (Or.inr h), Or.inr h]
      · rintro ((h' | h') | h')
        · right
          obtain ⟨f, hf, hfp⟩ := List.any_eq_true.1 h
          simp only [Bool.and_eq_true, decide_eq_true_eq] at hfp
          refine ⟨f.2.2, ?_⟩
          rw [← h'] at hfp
          simp only at hfp
          rw [← hfp.1, ← hfp.2]
          exact hf
        · exact Or.inl h'
        · exact Or.inr h'
    · rw [ih _ (by
        intro e he
        rw [List.mem_append, List.mem_singleton] at he
        rcases he with he | rfl
        · exact hes e he
        · rfl)]
      refine and_congr_right fun _ => ?_
      rw [List.mem_cons]
      constructor
      · rintro (h' | ⟨v', h'⟩)
        · exact Or.inl (Or.inr h')
        · rw [List.mem_append, List.mem_singleton] at h'
          rcases h' with h' | h'
          · exact Or.inr ⟨v', h'⟩
          · simp only [Prod.mk.injEq] at h'
            exact Or.inl (Or.inl (by rw [h'.1, h'.2.1]))
      · rintro ((h' | h') | ⟨v', h'⟩)
        · right
          refine ⟨w p.1 p.2, ?_⟩
          rw [List.mem_append, ← h']
          exact Or.inr (by simp)
        · exact Or.inl h'
        · exact Or.inr ⟨v', by simp [h']⟩

/-- `a` and `b` (in this order, `a < b`) were drawn as neighbours. -/
def Drawn (d : ℕ) (choices : ℕ → List ℕ) (a b : ℕ) : Prop :=
  ∃ i < d, ∃ c ∈ choices i, a = min i (neighbour i c) ∧ b = max i (neighbour i c)

theorem neighbour_ne (i c : ℕ) : neighbour i c ≠ i := by unfold neighbour; split_ifs <;> omega

theorem neighbour_lt {d i c : ℕ} (hc : c < d - 1) (hi : i < d) : neighbour i c < d := by
  unfold neighbour; split_ifs <;> omega

theorem mem_sampledEdges {d k : ℕ} (hd : 2 ≤ d) (hk : 1 ≤ k) (choices : ℕ → List ℕ) (w : ℕ → ℕ → ℝ) (a b : ℕ) (v : ℝ) :
    (a, b, v) ∈ sampledEdges d k choices w ↔ v = w a b ∧ Drawn d choices a b := by
  unfold sampledEdges
  rw [if_neg (by omega), sampledFold_spec _ [] (by simp)]
  refine and_congr_right fun _ => ?_
  have : ¬ Link [] a b := by rintro ⟨w, hw⟩; simp at hw
  simp only [this, or_false, List.mem_flatMap, List.mem_range, List.mem_map, Prod.mk.injEq, Drawn]
  constructor
  · rintro ⟨i, hi, c, hc, h1, h2⟩; exact ⟨i, hi, c, hc, h1.symm, h2.symm⟩
  · rintro ⟨i, hi, c, hc, h1, h2⟩; exact ⟨i, hi, c, hc, h1.symm, h2.symm⟩

theorem Drawn.lt {d : ℕ} {choices : ℕ → List ℕ} (hch : ∀ i < d, ∀ c ∈ choices i, c < d - 1) {a b : ℕ}
    (h : Drawn d choices a b) : a < b ∧ b < d := by
  obtain ⟨i, hi, c, hc, rfl, rfl⟩ := h
  have h1 := neighbour_ne i c
  have h2 := neighbour_lt (hch i hi c hc) hi
  omega

theorem addEdge_foldl_mem {d k : ℕ} (hd : 2 ≤ d) (hk : 1 ≤ k) {choices : ℕ → List ℕ}
    (hch : ∀ i < d, ∀ c ∈ choices i, c < d - 1) (w : ℕ → ℕ → ℝ) (a b : ℕ) (v : ℝ) :
    (a, b, v) ∈ (sampledEdges d k choices w).foldl addEdge [] ↔ v = w a b ∧ Drawn d choices a b := by
  have hord : ∀ e ∈ sampledEdges d k choices w, e.1 < e.2.1 ∧ e.2.2 = w e.1 e.2.1 ∧ Drawn d choices e.1 e.2.1 := by
    intro e he
    obtain ⟨h1, h2⟩ := (mem_sampledEdges hd hk choices w e.1 e.2.1 e.2.2).1 he
    exact ⟨(h2.lt hch).1, h1, h2⟩
  have hw : ∀ e ∈ (sampledEdges d k choices w).foldl addEdge [], e.2.2 = w e.1 e.2.1 := by
    refine mem_foldl_addEdge (W := w) _ [] (fun e he => ?_) (by simp)
    obtain ⟨h1, h2, _⟩ := hord e he
    rw [min_eq_left h1.le, max_eq_right h1.le, h2]
  have hl : ∀ a b, Link ((sampledEdges d k choices w).foldl addEdge []) a b ↔ Drawn d choices a b := by
    intro a b
    rw [link_foldl]
    constructor
    · rintro (⟨v, hv⟩ | ⟨e, he, rfl, rfl⟩)
      · simp at hv
      · obtain ⟨h1, _, h3⟩ := hord e he
        rwa [min_eq_left h1.le, max_eq_right h1.le]
    · intro h
      have hlt := (h.lt hch).1
      refine Or.inr ⟨(a, b, w a b), (mem_sampledEdges hd hk choices w a b _).2 ⟨rfl, h⟩, ?_, ?_⟩
      · simp [hlt.le]
      · simp [hlt.le]
  constructor
  · intro h; exact ⟨hw _ h, (hl a b).1 ⟨v, h⟩⟩
  · rintro ⟨rfl, h⟩
    obtain ⟨v, hv⟩ := (hl a b).2 h
    have := hw _ hv
    simp only at this
    rwa [this] at hv

/-- The chained tree is a spanning tree that contains the forest, and the added edges have weight zero. -/
theorem chain_spec {d : ℕ} {tree : List WEdge} (hd : 1 ≤ d) (h : Forest d tree) (hin : In d tree) :
    Forest d (chain d tree) ∧ In d (chain d tree) ∧ (comps d (chain d tree)).length = 1 ∧
      ∃ z, chain d tree = tree ++ z ∧ ∀ e ∈ z, e.2.2 = 0 := by
  obtain ⟨reps, hreps⟩ : ∃ reps, reps = (comps d tree).map fun c => c.headD 0 := ⟨_, rfl⟩
  have hlenr : reps.length = (comps d tree).length := by rw [hreps]; simp
  -- every node is joined to some representative
  have hrep : ∀ a < d, ∃ r ∈ reps, Joined (Link tree) a r := by
    intro a ha
    obtain ⟨c, hc, hac⟩ := (comps_spec d tree).cover a ha
    refine ⟨c.headD 0, by rw [hreps]; exact List.mem_map.2 ⟨c, hc, rfl⟩, ?_⟩
    have hne := (comps_spec d tree).ne c hc
    have hmem : c.headD 0 ∈ c := by
      obtain ⟨x, xs, rfl⟩ := List.exists_cons_of_ne_nil hne
      simp
    exact ((comps_spec d tree).same c hc a hac _ ((comps_spec d tree).range c hc _ hmem)).1 hmem
  have hrlt : ∀ r ∈ reps, r < d := by
    intro r hr
    rw [hreps] at hr
    obtain ⟨c, hc, rfl⟩ := List.mem_map.1 hr
    obtain ⟨x, xs, rfl⟩ := List.exists_cons_of_ne_nil ((comps_spec d tree).ne c hc)
    exact (comps_spec d tree).range _ hc _ (by simp)
  have hpos : 0 < reps.length := by
    obtain ⟨r, hr, _⟩ := hrep 0 (by omega)
    exact List.length_pos_of_mem hr
  have hch : chain d tree = tree ++ (reps.zip reps.tail).map (fun p => ((p.1, p.2, 0) : WEdge)) := by
    unfold chain
    simp only [← hreps]
    split_ifs with h1
    · rfl
    · obtain ⟨x, hx⟩ := List.length_eq_one_iff.1 (by omega : reps.length = 1)
      rw [hx]; simp
  have hin' : In d (chain d tree) := by
    rw [hch]
    intro e he
    rcases List.mem_append.1 he with he | he
    · exact hin e he
    · obtain ⟨p, hp, rfl⟩ := List.mem_map.1 he
      exact ⟨hrlt _ (List.of_mem_zip hp).1, hrlt _ (List.mem_of_mem_tail (List.of_mem_zip hp).2)⟩
  have hjr : ∀ i (hi : i < reps.length), Joined (Link (chain d tree)) reps[0] reps[i] := by
    intro i
    induction i with
    | zero => intro _; exact .refl _
    | succ i ih =>
      intro hi
      refine .trans _ _ _ (ih (by omega)) (.rel _ _ ⟨0, ?_⟩)
      rw [hch]
      refine List.mem_append_right _ (List.mem_map.2 ⟨(reps[i], reps[i + 1]), ?_, rfl⟩)
      rw [List.mem_iff_getElem]
      refine ⟨i, by simp; omega, ?_⟩
      simp
  have hall : ∀ a < d, Joined (Link (chain d tree)) a reps[0] := by
    intro a ha
    obtain ⟨r, hr, hj⟩ := hrep a ha
    obtain ⟨i, hi, rfl⟩ := List.mem_iff_getElem.1 hr
    refine .trans _ _ _ (joined_mono (fun _ _ => Link.mono fun e he => ?_) hj) (.symm _ _ (hjr i hi))
    rw [hch]; exact List.mem_append_left _ he
  have hone : (comps d (chain d tree)).length = 1 := by
    rw [comps_length, Finset.card_eq_one]
    refine ⟨0, ?_⟩
    ext v
    simp only [Finset.mem_filter, Finset.mem_range, Finset.mem_singleton]
    constructor
    · rintro ⟨hv, hl⟩
      have h1 := (label_eq_iff (chain d tree) v 0).2 (.trans _ _ _ (hall v hv) (.symm _ _ (hall 0 (by omega))))
      have := label_le (chain d tree) 0
      omega
    · rintro rfl
      have := label_le (chain d tree) 0
      exact ⟨by omega, by omega⟩
  refine ⟨?_, hin', hone, _, hch, ?_⟩
  · unfold Forest at h ⊢
    rw [hone]
    rw [hch, List.length_append, List.length_map, List.length_zip, List.length_tail]
    omega
  · intro e he
    obtain ⟨p, _, rfl⟩ := List.mem_map.1 he
    rfl

theorem whole {d : ℕ} {es : List WEdge} (h : (comps d es).length = 1) : comps d es = [List.range d] := by
  obtain ⟨c, hc⟩ := List.length_eq_one_iff.1 h
  have hs := comps_spec d es
  rw [hc] at hs ⊢
  congr 1
  have hcov : ∀ a, a ∈ c ↔ a < d := by
    intro a
    constructor
    · exact hs.range c (by simp) a
    · intro ha
      obtain ⟨c', hc', ha'⟩ := hs.cover a ha
      rw [List.mem_singleton] at hc'
      rwa [← hc']
  have n1 : c.Nodup := (hs.sorted c (by simp)).imp fun hab => Nat.ne_of_lt hab
  exact List.Perm.eq_of_pairwise (le := (· < ·)) (fun a b _ _ h1 h2 => absurd h1 (Nat.lt_asymm h2)) (hs.sorted c (by simp))
    List.pairwise_lt_range ((List.perm_ext_iff_of_nodup n1 List.nodup_range).2 fun a => by rw [hcov, List.mem_range])

/-- C32 (sampled affinities): for every set of drawn neighbours there are `d - 1` partitions; the first splits the set of all
variables in two, each later one splits one group of the one before in two, the last has `d` groups. -/
theorem C32_edges_partitions {d k : ℕ} (hd : 2 ≤ d) (hk : 1 ≤ k) {choices : ℕ → List ℕ}
    (hch : ∀ i < d, ∀ c ∈ choices i, c < d - 1) (w : ℕ → ℕ → ℝ) :
    (sampledPartitions d (sampledEdges d k choices w)).length = d - 1 ∧
    Severed d [List.range d] (sampledPartitions d (sampledEdges d k choices w)) := by
  have hI : In d ((sampledEdges d k choices w).foldl addEdge []) := by
    intro e he
    have := ((addEdge_foldl_mem hd hk hch w e.1 e.2.1 e.2.2).1 he).2.lt hch
    omega
  obtain ⟨h1, h2, _, _⟩ := maxTree_spec hI
  obtain ⟨c1, c2, c3, _⟩ := chain_spec (by omega) h1 h2
  have hs := partitionsOf_spec c1 c2
  have e : sampledPartitions d (sampledEdges d k choices w) =
      partitionsOf d (chain d (maxTree d ((sampledEdges d k choices w).foldl addEdge []))) := by
    unfold sampledPartitions; rw [if_neg (by omega)]
  rw [e]
  have hc := hs.count
  rw [whole c3] at hs
  exact ⟨by omega, hs⟩

/-- C32 (sampled affinities): for every positive threshold, the groups of variables joined by sampled affinities of at least the
threshold are one of the partitions, or the threshold joins all variables. -/
theorem C32_edges_thresholds {d k : ℕ} (hd : 2 ≤ d) (hk : 1 ≤ k) {choices : ℕ → List ℕ}
    (hch : ∀ i < d, ∀ c ∈ choices i, c < d - 1) (w : ℕ → ℕ → ℝ) {t : ℝ} (ht : 0 < t) :
    ∃ p, Components d (fun a b => Drawn d choices a b ∧ t ≤ w a b) p ∧
      (p ∈ sampledPartitions d (sampledEdges d k choices w) ∨ p = [List.range d]) := by
  have hI : In d ((sampledEdges d k choices w).foldl addEdge []) := by
    intro e he
    have := ((addEdge_foldl_mem hd hk hch w e.1 e.2.1 e.2.2).1 he).2.lt hch
    omega
  obtain ⟨g, hg⟩ : ∃ g, g = (sampledEdges d k choices w).foldl addEdge [] := ⟨_, rfl⟩
  have hmem : ∀ a b v, (a, b, v) ∈ g ↔ v = w a b ∧ Drawn d choices a b := by
    intro a b v; rw [hg]; exact addEdge_foldl_mem hd hk hch w a b v
  rw [← hg] at hI
  obtain ⟨h1, h2, _, _⟩ := maxTree_spec hI
  obtain ⟨c1, c2, c3, z, c4, c5⟩ := chain_spec (by omega) h1 h2
  have e : sampledPartitions d (sampledEdges d k choices w) = partitionsOf d (chain d (maxTree d g)) := by
    unfold sampledPartitions; rw [if_neg (by omega), hg]
  have hab : above t (chain d (maxTree d g)) = above t (maxTree d g) := by
    rw [c4]
    unfold above
    rw [List.filter_append, List.filter_eq_nil_iff.2 (show ∀ f ∈ z, ¬ (decide (t ≤ f.2.2) = true) from ?_), List.append_nil]
    intro f hf
    rw [decide_eq_true_eq, c5 f hf]
    exact not_le.2 ht
  refine ⟨comps d (above t g), ?_, ?_⟩
  · have := comps_spec d (above t g)
    have e : Link (above t g) = fun a b => Drawn d choices a b ∧ t ≤ w a b := by
      funext a b
      apply propext
      constructor
      · rintro ⟨v, hv⟩
        obtain ⟨hm, ht⟩ := mem_above.1 hv
        obtain ⟨rfl, hdr⟩ := (hmem a b v).1 hm
        exact ⟨hdr, ht⟩
      · rintro ⟨h1, h2⟩
        exact ⟨w a b, mem_above.2 ⟨(hmem a b _).2 ⟨rfl, h1⟩, h2⟩⟩
    rwa [e] at this
  · have := (partitionsOf_above c1 c2).1 t
    rw [hab, comps_congr (above_maxTree hI t), ← e, List.mem_cons] at this
    rcases this with h | h
    · right
      rw [h, whole c3]
    · exact Or.inl h

end Verif.Prometheus

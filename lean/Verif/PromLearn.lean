import Verif.PromProps

/-!
# Property C76: the learned circuit and its mixture weights
-/

namespace Verif.Prometheus

open Verif Verif.Circ Verif.Build MeasureTheory
open Verif.LearnSpn (uniq sel mapM_ok forall₂_mem_left forall₂_mem_right forall₂_pairwise mem_uniq uniq_nodup sel_length
  Valid valid_of_ok mem_sel)

variable {μ : Var → Measure ℝ} {cfg : Cfg} {O : Oracle} {L : ℕ}

/-- The products `cs` of one cluster: one per partition `ps` of the variables, made of the modules `M q` learned for the groups.
`calls` lists the groups learned, each exactly once and at most `2 (|scope| - 1)` of them; `sub i` is the `i`-th call of the
learner. -/
structure ClusterOf (sub : ℕ → List Var → Except Exc Circ) (scope : List Var) (ps : List (List (List ℕ)))
    (calls : List (List Var)) (M : List Var → Circ) (cs : List Circ) : Prop where
  products : List.Forall₂ (fun p c => IsProduct M (p.map (names scope)) c) ps cs
  partitions : ∀ p ∈ ps, Partition scope.length p ∧ 2 ≤ p.length
  once : calls.Nodup
  few : calls.length ≤ 2 * (scope.length - 1)
  learned : ∀ i (hi : i < calls.length), sub i calls[i] = .ok (M calls[i])
  groups : ∀ q, q ∈ calls ↔ ∃ p ∈ ps, q ∈ p.map (names scope)

theorem cluster_ok (ho : OracleOk μ cfg O) (ha : argsOk cfg = true) (path : List ℕ) {scope : List Var} (hs : ScopeOk cfg scope)
    {sub : ℕ → List Var → Except Exc Circ}
    (hsub : ∀ i q, ScopeOk cfg q → q.length < scope.length → (∀ v ∈ q, v ∈ scope) → ∃ c, sub i q = .ok c ∧ Ok μ (· ∈ q) c)
    {rows : List Row} (hfull : Complete rows scope) (total : ℕ) :
    ∃ cs, cluster cfg O path sub scope total rows = .ok (cs.map fun c => ((rows.length : ℝ) / total / cs.length, c)) ∧
      (∀ c ∈ cs, Ok μ (· ∈ scope) c) ∧ (rows.length < 2 → cs = []) ∧
      (2 ≤ rows.length → ∃ ps calls M, partitions cfg O path rows scope = .ok ps ∧ ClusterOf sub scope ps calls M cs) := by
  by_cases hr : rows.length < 2
  · exact ⟨[], by simp [cluster, hr], by simp, fun _ => rfl, fun h => by omega⟩
  obtain ⟨ps, hps, hsev⟩ := partitions_ok ho ha path hfull
  have hpp : ∀ p ∈ ps, Partition scope.length p ∧ 2 ≤ p.length := by
    rcases hsev with rfl | ⟨_, p0, h0, hsev⟩
    · simp
    · intro p hp
      refine ⟨hsev.partition p hp, ?_⟩
      obtain ⟨k, hk, rfl⟩ := List.mem_iff_getElem.1 hp
      have := hsev.groups k hk
      omega
  obtain ⟨cs, memo, h1, h2, h3, h4⟩ := products_ok ho path hs hsub ps 0 [] ⟨by simp, by simp, by simp⟩ hpp
  rw [List.nil_append] at h1 h2 h3 h4
  have hlen := h3.length_eq
  refine ⟨cs, ?_, fun c hc => ?_, fun h => absurd h hr, fun _ => ?_⟩
  · simp only [cluster, if_neg hr, hps, h1, hlen]
  · obtain ⟨p, _, hp⟩ := forall₂_mem_right h3 hc
    exact hp.1
  · refine ⟨ps, memo.map Prod.fst, modOf memo, hps, h3.imp fun p c h => h.2, hpp, h2.nodup, ?_, ?_, fun q => ?_⟩
    · rcases hsev with rfl | ⟨hd, p0, h0, hsev⟩
      · have : memo.map Prod.fst = [] := by
          refine List.eq_nil_iff_forall_not_mem.2 fun q hq => ?_
          have := (h4 q).1 hq
          simp at this
        rw [this]; simp
      · have hsub' : (memo.map Prod.fst).toFinset ⊆ (ps.flatten.toFinset).image (names scope) := by
          intro q hq
          rw [List.mem_toFinset, h4] at hq
          rcases hq with hq | ⟨p, hp, hq⟩
          · simp at hq
          · obtain ⟨c, hc, rfl⟩ := List.mem_map.1 hq
            exact Finset.mem_image.2 ⟨c, List.mem_toFinset.2 (List.mem_flatten.2 ⟨p, hp, hc⟩), rfl⟩
        have hcard := (Finset.card_le_card hsub').trans Finset.card_image_le
        rw [List.toFinset_card_of_nodup h2.nodup] at hcard
        have hcount := hsev.count
        by_cases hpe : ps = []
        · subst hpe
          simp at hcard
          simp [hcard]
        · have := hsev.distinct hpe
          omega
    · intro i hi
      simp only [List.getElem_map]
      have hi' : i < memo.length := by simpa using hi
      rw [h2.learned i hi']
      congr 1
      symm
      refine modOf_eq ?_
      cases hl : memo.lookup memo[i].1 with
      | none => exact absurd (List.mem_map.2 ⟨memo[i], List.getElem_mem _, rfl⟩) (lookup_none_iff.1 hl)
      | some c =>
        have hm := lookup_mem hl
        obtain ⟨j, hj, hje⟩ := List.mem_iff_getElem.1 hm
        have : j = i := by
          have e : (memo.map Prod.fst)[j]'(by simpa using hj) = (memo.map Prod.fst)[i]'(by simpa using hi') := by
            simp [hje]
          exact (List.Nodup.getElem_inj_iff h2.nodup).1 e
        subst this
        rw [hje]
    · rw [h4]; simp

/-! ## The Sum -/

/-- The mean of a module's channels. -/
noncomputable def mean (c : Circ) (x : Row) : ℝ := (∑ k ∈ Finset.range (C c), expL (featAt (den c) 0 x 0 k)) / C c

theorem spread_map (l : List (ℝ × Circ)) (T : ℝ) :
    spread (l.map fun a => (a.1 / T, a.2)) = (spread l).map fun w => w / T := by
  induction l with
  | nil => rfl
  | cons a l ih =>
    obtain ⟨p, c⟩ := a
    simp only [List.map_cons, spread, ih, List.map_append, List.map_replicate]
    rw [div_right_comm]

theorem combine_ok {fallback : Except Exc Circ} {l : List (ℝ × Circ)} {V : Var → Prop} (h : ∀ a ∈ l, Ok μ V a.2)
    (hp : ∀ a ∈ l, 0 < a.1) :
    (l = [] → combine fallback l = fallback) ∧ (∀ a, l = [a] → combine fallback l = .ok a.2) ∧
    (2 ≤ l.length → ∃ c, combine fallback l = .ok c ∧ Ok μ V c ∧ C c = 1 ∧
      ∀ x, expL (featAt (den c) 0 x 0 0) = (l.map fun a => a.1 / (l.map Prod.fst).sum * mean a.2 x).sum) := by
  have hT : (spread l).sum = (l.map Prod.fst).sum := spread_sum l fun a ha => (h a ha).ch
  have hpos : l ≠ [] → 0 < (spread l).sum := by
    intro hne
    rw [hT]
    exact List.sum_pos _ (by simpa using fun a c hac => hp _ hac) (by simpa using hne)
  refine ⟨?_, ?_, ?_⟩
  · rintro rfl; simp [combine]
  · rintro a rfl
    have := hpos (by simp)
    unfold combine
    rw [if_neg (by simp), if_neg (not_le.2 this)]
  · intro hlen
    have hne : l ≠ [] := by intro hc; rw [hc] at hlen; simp at hlen
    have hS := hpos hne
    obtain ⟨c, h1, h2, h3, h4⟩ := sum_ok (μ := μ) (l := l.map fun a => (a.1 / (spread l).sum, a.2)) (by simpa using hne) (V := V)
      (fun a ha => by
        obtain ⟨b, hb, rfl⟩ := List.mem_map.1 ha
        exact h b hb)
      (fun a ha => by
        obtain ⟨b, hb, rfl⟩ := List.mem_map.1 ha
        exact div_pos (hp b hb) hS)
      (by
        rw [List.map_map]
        have : (Prod.fst ∘ fun a : ℝ × Circ => (a.1 / (spread l).sum, a.2)) = fun a => a.1 * (spread l).sum⁻¹ := by
          funext a; simp [div_eq_mul_inv]
        rw [this, List.sum_map_mul_right, ← hT]
        exact mul_inv_cancel₀ hS.ne')
    refine ⟨c, ?_, h2, h3, fun x => ?_⟩
    · have hw : spreadW 1 (l.map fun a => (a.1 / (spread l).sum, a.2)) = weightTensor l := by
        have hl := spread_length (l.map fun a => (a.1 / (spread l).sum, a.2))
        unfold spreadW weightTensor
        rw [← hl, spread_map, List.length_map]
      rw [hw, List.map_map] at h1
      have hc : combine fallback l = mkSum (l.map Prod.snd) (weightTensor l) := by
        unfold combine
        rw [if_neg (by simpa using hne), if_neg (not_le.2 hS)]
        rcases l with _ | ⟨a, _ | ⟨b, l⟩⟩
        · exact absurd rfl hne
        · simp at hlen
        · rfl
      rw [hc, ← h1]
      rfl
    · rw [h4, List.map_map, hT]
      rfl

/-! ## The learner -/

theorem Complete.mono {rows rows' : List Row} {scope scope' : List Var} (h : Complete rows scope)
    (hr : ∀ r ∈ rows', r ∈ rows) (hs : ∀ v ∈ scope', v ∈ scope) : Complete rows' scope' :=
  fun r hr' v hv => h r (hr r hr') v (hs v hv)

/-- One call of the learner above the slice limits: the products of every cluster, and the circuit made of them. -/
structure Step (cfg : Cfg) (O : Oracle) (fuel : ℕ) (path : List ℕ) (rows : List Row) (scope : List Var)
    (G : ℕ → List Circ) (c : Circ) : Prop where
  /-- A cluster with fewer than two rows contributes nothing; otherwise one product per partition. -/
  clusters : ∀ id ∈ O.clus path rows scope,
    ((sel rows (O.clus path rows scope) id).length < 2 → G id = []) ∧
    (2 ≤ (sel rows (O.clus path rows scope) id).length → ∃ ps calls M,
      partitions cfg O (path ++ [id]) (sel rows (O.clus path rows scope) id) scope = .ok ps ∧
      ClusterOf (fun i q => learn cfg O fuel (path ++ [id, i]) (sel rows (O.clus path rows scope) id) q) scope ps calls M
        (G id))
  /-- No product at all: leaves fitted to all rows. -/
  none : (∀ id ∈ O.clus path rows scope, G id = []) → mvLeaf cfg O path rows scope = .ok c
  /-- A single product is returned as it is. -/
  one : ∀ id ∈ O.clus path rows scope, ∀ g, G id = [g] → (∀ id' ∈ O.clus path rows scope, id' ≠ id → G id' = []) → c = g
  /-- Several products: a mixture in which cluster `id` weighs as much as its share of the rows of the contributing clusters,
  divided evenly over its products. -/
  mixture : 2 ≤ ((uniq (O.clus path rows scope)).map fun id => (G id).length).sum → C c = 1 ∧
    ∀ x, expL (featAt (den c) 0 x 0 0) = ((uniq (O.clus path rows scope)).map fun id =>
      ((sel rows (O.clus path rows scope) id).length : ℝ) /
        ((uniq (O.clus path rows scope)).map fun id' => if G id' = [] then (0 : ℝ) else
          ((sel rows (O.clus path rows scope) id').length : ℝ)).sum *
        (((G id).map fun g => mean g x).sum / (G id).length)).sum

theorem flatten_sum (l : List ℕ) (G : ℕ → List Circ) (w : ℕ → ℝ) (f : ℝ → Circ → ℝ) :
    ((l.map fun id => (G id).map fun c => (w id, c)).flatten.map fun a => f a.1 a.2).sum =
      (l.map fun id => ((G id).map fun c => f (w id) c).sum).sum := by
  induction l with
  | nil => rfl
  | cons a l ih =>
    simp only [List.map_cons, List.flatten_cons, List.map_append, List.sum_append, ih, List.sum_cons, List.map_map]
    rfl

theorem learn_ok (hc : CfgOk cfg L) (ho : OracleOk μ cfg O) (ha : argsOk cfg = true) (fuel : ℕ) : ∀ (path : List ℕ)
    (rows : List Row) (scope : List Var), ScopeOk cfg scope → Complete rows scope → scope.length < fuel →
    ∃ c, learn cfg O fuel path rows scope = .ok c ∧ Ok μ (· ∈ scope) c ∧
      (cfg.minF ≤ scope.length → cfg.minI ≤ rows.length → ∃ G, Step cfg O (fuel - 1) path rows scope G c) := by
  induction fuel with
  | zero => intro path rows scope _ _ h; omega
  | succ fuel ih =>
    intro path rows scope hs hfull hfuel
    by_cases hlim : scope.length < cfg.minF ∨ rows.length < cfg.minI
    · obtain ⟨c, h1, h2, _⟩ := mvLeaf_ok hc ho hs path rows
      refine ⟨c, by simp only [learn, if_pos hlim, h1], h2, fun h3 h4 => by omega⟩
    obtain ⟨labels, hlab⟩ : ∃ labels, labels = O.clus path rows scope := ⟨_, rfl⟩
    have hll : labels.length = rows.length := by rw [hlab]; exact ho.clus path rows scope
    have hmi : 1 ≤ cfg.minI := by
      simp only [argsOk, Bool.and_eq_true, decide_eq_true_eq] at ha
      exact ha.1.1.1.1.1.1.2
    have hselrows : ∀ id, ∀ r ∈ sel rows labels id, r ∈ rows := by
      intro id r hr
      exact (LearnSpn.sel_sublist rows labels id).subset hr
    have hcl : ∀ id, ∃ cs, cluster cfg O (path ++ [id])
        (fun i q => learn cfg O fuel (path ++ [id, i]) (sel rows labels id) q) scope rows.length (sel rows labels id) =
          .ok (cs.map fun c => (((sel rows labels id).length : ℝ) / rows.length / cs.length, c)) ∧
        (∀ c ∈ cs, Ok μ (· ∈ scope) c) ∧ ((sel rows labels id).length < 2 → cs = []) ∧
        (2 ≤ (sel rows labels id).length → ∃ ps calls M,
          partitions cfg O (path ++ [id]) (sel rows labels id) scope = .ok ps ∧
          ClusterOf (fun i q => learn cfg O fuel (path ++ [id, i]) (sel rows labels id) q) scope ps calls M cs) := by
      intro id
      refine cluster_ok ho ha (path ++ [id]) hs (fun i q hq hlt hsubq => ?_) (hfull.mono (hselrows id) fun v hv => hv) rows.length
      obtain ⟨c, h1, h2, _⟩ := ih (path ++ [id, i]) (sel rows labels id) q hq (hfull.mono (hselrows id) hsubq) (by omega)
      exact ⟨c, h1, h2⟩
    choose G g1 g2 g3 g4 using hcl
    obtain ⟨w, hw⟩ : ∃ w : ℕ → ℝ, w = fun id => ((sel rows labels id).length : ℝ) / rows.length / (G id).length := ⟨_, rfl⟩
    obtain ⟨ls, hls, hf⟩ := mapM_ok (P := fun id l => l = (G id).map fun c => (w id, c))
      (f := fun id => cluster cfg O (path ++ [id])
        (fun i q => learn cfg O fuel (path ++ [id, i]) (sel rows labels id) q) scope rows.length (sel rows labels id))
      (uniq labels) fun id _ => ⟨_, g1 id, by rw [hw]⟩
    have hls' : ls = (uniq labels).map fun id => (G id).map fun c => (w id, c) := by
      rw [← List.forall₂_eq_eq_eq, List.forall₂_map_right_iff]
      exact hf.flip
    have hlearn : learn cfg O (fuel + 1) path rows scope = combine (mvLeaf cfg O path rows scope) ls.flatten := by
      simp only [learn, if_neg hlim, ← hlab, hls]
    have hGne : ∀ id, G id ≠ [] → 2 ≤ (sel rows labels id).length := by
      intro id hne
      by_contra hlt
      exact hne (g3 id (by omega))
    have hrpos : (0 : ℝ) < rows.length := by
      have : 1 ≤ rows.length := by omega
      exact_mod_cast this
    have hmem : ∀ a ∈ ls.flatten, ∃ id ∈ uniq labels, a.1 = w id ∧ a.2 ∈ G id := by
      intro a ha'
      rw [hls', List.mem_flatten] at ha'
      obtain ⟨l, hl, hal⟩ := ha'
      obtain ⟨id, hid, rfl⟩ := List.mem_map.1 hl
      obtain ⟨c, hc', rfl⟩ := List.mem_map.1 hal
      exact ⟨id, hid, rfl, hc'⟩
    have hokl : ∀ a ∈ ls.flatten, Ok μ (· ∈ scope) a.2 := by
      intro a ha'
      obtain ⟨id, _, _, h⟩ := hmem a ha'
      exact g2 id _ h
    have hposl : ∀ a ∈ ls.flatten, 0 < a.1 := by
      intro a ha'
      obtain ⟨id, _, h1, h⟩ := hmem a ha'
      have hne : G id ≠ [] := List.ne_nil_of_mem h
      have h2 := hGne id hne
      have h3 := List.length_pos_of_ne_nil hne
      rw [h1, hw]
      have h4 : (0 : ℝ) < ((sel rows labels id).length : ℝ) := by exact_mod_cast (by omega : 0 < (sel rows labels id).length)
      have h5 : (0 : ℝ) < ((G id).length : ℝ) := by exact_mod_cast h3
      positivity
    obtain ⟨k0, k1, k2⟩ := combine_ok (fallback := mvLeaf cfg O path rows scope) hokl hposl
    have hlen : ls.flatten.length = ((uniq labels).map fun id => (G id).length).sum := by
      rw [hls', List.length_flatten, List.map_map]
      congr 1
      refine List.map_congr_left fun id _ => ?_
      simp
    obtain ⟨cl, hcl1, hcl2, _⟩ := mvLeaf_ok hc ho hs path rows
    -- the circuit
    obtain ⟨c, hcomb, hcok, hcnil, hcone, hcmix⟩ : ∃ c, combine (mvLeaf cfg O path rows scope) ls.flatten = .ok c ∧
        Ok μ (· ∈ scope) c ∧ (ls.flatten = [] → mvLeaf cfg O path rows scope = .ok c) ∧ (∀ a, ls.flatten = [a] → c = a.2) ∧
        (2 ≤ ls.flatten.length → C c = 1 ∧ ∀ x, expL (featAt (den c) 0 x 0 0) =
          (ls.flatten.map fun a => a.1 / (ls.flatten.map Prod.fst).sum * mean a.2 x).sum) := by
      rcases hcase : ls.flatten with _ | ⟨a, _ | ⟨b, l⟩⟩
      · rw [hcase] at k0
        exact ⟨cl, by rw [k0 rfl, hcl1], hcl2, fun _ => hcl1, (fun a h => by simp at h), (fun h => by simp at h)⟩
      · rw [hcase] at k1
        refine ⟨a.2, k1 a rfl, hokl a (by simp [hcase]), fun h => by simp at h, fun a' h => ?_, fun h => by simp at h⟩
        simp only [List.cons.injEq, and_true] at h
        rw [h]
      · obtain ⟨c, q1, q2, q3, q4⟩ := k2 (by rw [hcase]; simp)
        rw [hcase] at q1 q4
        exact ⟨c, q1, q2, fun h => by simp at h, fun a' h => by simp at h, fun _ => ⟨q3, q4⟩⟩
    refine ⟨c, by rw [hlearn, hcomb], hcok, fun _ _ => ⟨G, ?_⟩⟩
    refine ⟨?_, ?_, ?_, ?_⟩
    · intro id _
      rw [← hlab]
      exact ⟨g3 id, g4 id⟩
    · intro hall
      rw [← hlab] at hall
      refine hcnil ?_
      rw [← List.length_eq_zero_iff, hlen]
      refine List.sum_eq_zero fun n hn => ?_
      obtain ⟨id, hid, rfl⟩ := List.mem_map.1 hn
      rw [hall id (mem_uniq.1 hid)]; rfl
    · intro id hid g hg hother
      rw [← hlab] at hid hother
      have hone : ls.flatten.length = 1 := by
        rw [hlen]
        have hu := uniq_nodup labels
        have hidu := mem_uniq.2 hid
        rw [List.sum_map_eq_nsmul_single id _ fun id' hne hm => by rw [hother id' (mem_uniq.1 hm) hne]; rfl]
        rw [List.count_eq_one_of_mem hu hidu, hg]
        rfl
      obtain ⟨a, ha'⟩ := List.length_eq_one_iff.1 hone
      obtain ⟨id', hid', h1, h2⟩ := hmem a (by simp [ha'])
      have : id' = id := by
        by_contra hne
        rw [hother id' (mem_uniq.1 hid') hne] at h2
        simp at h2
      rw [this, hg, List.mem_singleton] at h2
      rw [← h2]
      exact hcone a ha'
    · intro h2
      rw [← hlab] at h2 ⊢
      obtain ⟨m1, m2⟩ := hcmix (by rw [hlen]; exact h2)
      refine ⟨m1, fun x => ?_⟩
      rw [m2 x]
      obtain ⟨T, hT⟩ : ∃ T, T = (ls.flatten.map Prod.fst).sum := ⟨_, rfl⟩
      obtain ⟨N, hN⟩ : ∃ N, N = ((uniq labels).map fun id' => if G id' = [] then (0 : ℝ) else
          ((sel rows labels id').length : ℝ)).sum := ⟨_, rfl⟩
      have hTN : T = N / rows.length := by
        rw [hT, hN, hls']
        have := flatten_sum (uniq labels) G w fun a _ => a
        rw [show (Prod.fst : ℝ × Circ → ℝ) = fun a => a.1 from rfl, this, div_eq_mul_inv, ← List.sum_map_mul_right]
        congr 1
        refine List.map_congr_left fun id _ => ?_
        rw [List.map_const', List.sum_replicate, nsmul_eq_mul]
        by_cases hG : G id = []
        · simp [hG]
        · rw [if_neg hG, hw]
          have h5 : ((G id).length : ℝ) ≠ 0 := by
            have := List.length_pos_of_ne_nil hG
            exact_mod_cast this.ne'
          field_simp
      rw [← hT, ← hN, hls', flatten_sum (uniq labels) G w fun a c => a / T * mean c x]
      congr 1
      refine List.map_congr_left fun id _ => ?_
      by_cases hG : G id = []
      · simp [hG]
      · rw [List.sum_map_mul_left, hTN, hw]
        have h5 : ((G id).length : ℝ) ≠ 0 := by
          have := List.length_pos_of_ne_nil hG
          exact_mod_cast this.ne'
        have h6 : (rows.length : ℝ) ≠ 0 := hrpos.ne'
        by_cases hN0 : N = 0
        · simp [hN0]
        · field_simp

end Verif.Prometheus

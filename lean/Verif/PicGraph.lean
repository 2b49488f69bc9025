import Verif.PicProps

/-!
# C63: region graphs to PICs, and end to end
-/

namespace Verif.PicQ
open Verif Finset

/-- **C63, materialisation.** If `pic2qpc` accepts a coherently built PIC unit, channel `c` of the QPC is, for every row,
exactly the tensor-product quadrature value of the unit at the `c`-th grid point of its latent scope. -/
theorem C63_quadrature {ρ : Rule} {u : Pic} {q : Q} (hc : Coherent ρ u) (h : pic2qpc ρ u = .ok q) (x : Row)
    (η : ℕ → ℝ) {c : ℕ} (hcl : c < ρ.K ^ u.latent.length) :
    q.ch = ρ.K ^ u.latent.length ∧
      expL (q.ll x c) = value ρ u x (assign η u.latent ((gridPts ρ u.latent.length).getD c [])) := by
  unfold pic2qpc at h
  split at h
  · cases h
  · have := visit_correct ρ u hc q h
    exact ⟨this.1, this.2.2 x η c hcl⟩

/-! ## Acceptance -/

/-- The conditions under which nothing should be rejected: every integral has a function that is non-negative on the
grid, sums have non-negative weights and inputs over the same variables, products have disjoint scopes. -/
def Sound (ρ : Rule) : Pic → Prop
  | .input _ _ _ _ => True
  | .sum _ us w _ => (∀ i, Sound ρ (us i) ∧ 0 ≤ w i) ∧ ∀ i j, (us i).scope = (us j).scope
  | .prod l r => Sound ρ l ∧ Sound ρ r ∧ Disjoint l.scope r.scope
  | .integral u z y f => Sound ρ u ∧ ∃ g, f = some g ∧ ∀ p ∈ gridPts ρ z.length, ∀ t ∈ gridPts ρ y.length, 0 ≤ g p t

theorem wprod_nonneg {ρ : Rule} (hρ : ∀ k < ρ.K, 0 ≤ ρ.wt k) : ∀ d c, c < ρ.K ^ d → 0 ≤ wprod ρ d c
  | 0, _, _ => zero_le_one
  | d + 1, c, hc => by
    have hK : 0 < ρ.K ^ d := by
      rcases Nat.eq_zero_or_pos (ρ.K ^ d) with h | h
      · rw [pow_succ, h] at hc; omega
      · exact h
    exact mul_nonneg (hρ _ (Nat.div_lt_of_lt_mul (by rw [← pow_succ]; exact hc)))
      (wprod_nonneg hρ d _ (Nat.mod_lt _ hK))

theorem mapM_id_total {α : Type} : ∀ (l : List (Except Exc α)), (∀ a ∈ l, ∃ b, a = .ok b) → ∃ r, l.mapM id = .ok r
  | [], _ => ⟨[], rfl⟩
  | a :: l, h => by
    obtain ⟨b, rfl⟩ := h a (by simp)
    obtain ⟨r, hr⟩ := mapM_id_total l fun a ha => h a (List.mem_cons_of_mem _ ha)
    refine ⟨b :: r, ?_⟩
    rw [List.mapM_cons, hr]
    rfl

theorem visit_total {ρ : Rule} (hρ : ∀ k < ρ.K, 0 ≤ ρ.wt k) :
    ∀ u, Coherent ρ u → Sound ρ u → ∃ q, visit ρ u = .ok q
  | .input _ _ _ _, _, _ => ⟨_, rfl⟩
  | .sum n us w z, hc, hs => by
    have ih : ∀ i, ∃ q, visit ρ (us i) = .ok q := fun i => visit_total hρ (us i) (hc.2.2 i).1 (hs.1 i).1
    obtain ⟨l, hl⟩ := mapM_id_total (List.ofFn fun i => visit ρ (us i)) (by
      intro a ha
      obtain ⟨i, rfl⟩ := (List.mem_ofFn' _ _).1 ha
      exact ih i)
    have hF := mapM_id_ok _ _ hl
    have hlen : l.length = n := by rw [← hF.length_eq]; simp
    have hcor : ∀ q ∈ l, ∃ i, Correct ρ (us i) q := by
      intro q hq
      obtain ⟨j, rfl⟩ := List.get_of_mem hq
      have hj : (j : ℕ) < n := hlen ▸ j.2
      refine ⟨⟨j, hj⟩, visit_correct ρ _ (hc.2.2 _).1 _ ?_⟩
      have := List.Forall₂.get hF (i := j) (by simpa using hj) j.2
      simpa using this
    have hch : ∀ q ∈ l, q.ch = ρ.K ^ z.length := by
      intro q hq
      obtain ⟨i, hi⟩ := hcor q hq
      rw [hi.1, (hc.2.2 i).2]
    have hsc : ∀ a ∈ l, ∀ b ∈ l, a.scope = b.scope := by
      intro a ha b hb
      obtain ⟨i, hi⟩ := hcor a ha
      obtain ⟨j, hj⟩ := hcor b hb
      rw [hi.2.1, hj.2.1, hs.2 i j]
    have hhead : (l.head?.map Q.ch).getD 0 = ρ.K ^ z.length := by
      cases l with
      | nil => simp at hlen; exact absurd hc.1 (by omega)
      | cons a l => exact hch a (by simp)
    have hne : l.length ≠ 0 := by have := hc.1; omega
    simp only [visit, bind, Except.bind, throw, throwThe, MonadExceptOf.throw]
    rw [hl]
    dsimp only
    rw [hhead, if_neg]
    · unfold mkCat
      rw [if_neg (not_not.2 hsc), if_neg hne]
      dsimp only
      unfold mkWSum
      rw [if_neg]
      · exact ⟨_, rfl⟩
      · rw [not_not]
        intro ci _ o _
        unfold blockW
        split
        · dsimp only
          split
          · exact (hs.1 _).2
          · exact le_rfl
        · exact le_rfl
    · rw [Bool.not_eq_true, List.any_eq_false]
      intro q hq
      simp [hch q hq]
  | .prod l r, hc, hs => by
    obtain ⟨ql, hql⟩ := visit_total hρ l hc.1 hs.1
    obtain ⟨qr, hqr⟩ := visit_total hρ r hc.2.1 hs.2.1
    have il := visit_correct ρ l hc.1 ql hql
    have ir := visit_correct ρ r hc.2.1 qr hqr
    simp only [visit, bind, Except.bind, pure, Except.pure, throw, throwThe, MonadExceptOf.throw]
    rw [hql, hqr]
    dsimp only
    rw [if_neg (by rw [not_not, il.2.1, ir.2.1]; exact hs.2.2)]
    by_cases he : latEq l.latent r.latent = true
    · rw [if_pos he]
      have hch : ql.ch = qr.ch := by
        rw [il.1, ir.1]
        have hsl := coherent_sorted ρ l hc.1
        have hsr := coherent_sorted ρ r hc.2.1
        congr 1
        unfold latEq at he
        rw [Bool.and_eq_true, List.all_eq_true, List.all_eq_true] at he
        have hnl : l.latent.Nodup := hsl.imp fun h => Nat.ne_of_lt h
        have hnr : r.latent.Nodup := hsr.imp fun h => Nat.ne_of_lt h
        refine ((List.perm_ext_iff_of_nodup hnl hnr).2 fun a => ⟨fun h => ?_, fun h => ?_⟩).length_eq
        · simpa using he.1 a h
        · simpa using he.2 a h
      rw [if_neg (by rw [not_not, hch, max_self]; exact ⟨Or.inr rfl, Or.inr rfl⟩)]
      exact ⟨_, rfl⟩
    · rw [if_neg he]
      exact ⟨_, rfl⟩
  | .integral u z y f, hc, hs => by
    obtain ⟨q, hq⟩ := visit_total hρ u hc.1 hs.1
    have iu := visit_correct ρ u hc.1 q hq
    obtain ⟨g, rfl, hg⟩ := hs.2
    simp only [visit, bind, Except.bind, throw, throwThe, MonadExceptOf.throw]
    rw [hq]
    dsimp only
    have hch : q.ch = ρ.K ^ y.length := by rw [iu.1, hc.2.1]
    rw [if_neg (not_not.2 hch)]
    unfold mkWSum
    rw [if_neg]
    · exact ⟨_, rfl⟩
    · rw [not_not]
      intro ci hci o ho
      rw [hch] at hci
      beta_reduce
      rw [kron_get ρ _ _ hci]
      refine mul_nonneg (hg _ ?_ _ ?_) (wprod_nonneg hρ _ _ hci)
      · rw [List.getD_eq_getElem _ _ (by rw [grid_length]; exact ho)]; exact List.getElem_mem _
      · rw [List.getD_eq_getElem _ _ (by rw [grid_length]; exact hci)]; exact List.getElem_mem _

/-- **C63, acceptance.** `pic2qpc` accepts every coherently built, sound PIC under every rule with non-negative
weights. -/
theorem C63_accepts {ρ : Rule} (hρ : ∀ k < ρ.K, 0 ≤ ρ.wt k) {u : Pic} (hc : Coherent ρ u) (hs : Sound ρ u) :
    ∃ q, pic2qpc ρ u = .ok q := by
  unfold pic2qpc
  rw [if_neg (not_not.2 hρ)]
  exact visit_total hρ u hc hs

/-! ## rg2pic -/

/-- A region graph in post-order: every partition has at least two children, all different, all earlier in the
list. -/
def WellFormed (rg : List Region) : Prop :=
  ∀ (i : ℕ) (X : Region), rg[i]? = some X → ∀ p ∈ X.parts, 2 ≤ p.length ∧ p.Nodup ∧ ∀ j ∈ p, j < i

/-- Every partition has exactly two children, the first one earlier in the post-order than the second. -/
def BinaryAscending (rg : List Region) : Prop :=
  ∀ X ∈ rg, ∀ p ∈ X.parts, ∃ i j, p = [i, j] ∧ i < j

/-- The input units are materialised at the quadrature points of their latent scope. -/
def FaithfulLeaves (ρ : Rule) (a : Args) : Prop :=
  ∀ i, ∀ d ≤ 1, ((a.leaf i d).2 ρ).1 = ρ.K ^ d ∧
    ∀ x, ∀ c < ρ.K ^ d, ((a.leaf i d).2 ρ).2 x c = (a.leaf i d).1 x ((gridPts ρ d).getD c [])

/-- Latent scopes of the processed regions: one id each, increasing, all allocated before. -/
structure Inv (U : List Pic) (s : St) (ids : List ℕ) : Prop where
  lat : U.map Pic.latent = ids.map fun k => [k]
  inc : ids.Pairwise (· < ·)
  lt : ∀ k ∈ ids, k < s.next

theorem latEq_single (a b : ℕ) : latEq [a] [b] = decide (a = b) := by
  by_cases h : a = b
  · subst h; simp [latEq]
  · simp [latEq, h]

theorem joinLat_single {a b : ℕ} (h : a < b) : joinLat [a] [b] = [a, b] := by
  rw [joinLat_lt] <;> simp [h]

/-- A Tucker merge. -/
theorem merge_tucker {a : Args} (hst : a.strategy ≠ .cp) {rho : Bool} {u1 u2 : Pic} {s : St} {k1 k2 : ℕ}
    (h1 : u1.latent = [k1]) (h2 : u2.latent = [k2]) (hne : k1 ≠ k2) {u : Pic} {s' : St}
    (h : merge a rho u1 u2 s = .ok (u, s')) :
    ∃ f, u = .integral (.prod u1 u2) (if rho then [] else [s.next]) (joinLat [k1] [k2]) f ∧
      s'.next = s.next + (if rho then 0 else 1) := by
  unfold merge at h
  have hch : chosen a.strategy u1.latent u2.latent = Strategy.tucker := by
    rw [h1, h2]
    unfold chosen
    rw [latEq_single, decide_eq_false hne]
    cases hs : a.strategy with
    | auto => rfl
    | tucker => rfl
    | cp => exact absurd hs hst
  simp only [hch, if_true] at h
  simp only [Pic.mkProd, bind, Except.bind, pure, Except.pure, throw, throwThe, MonadExceptOf.throw] at h
  split at h
  · cases h
  · rename_i p hp
    split at hp
    · cases hp
    · cases hp
      simp only [alloc, Pic.latent, h1, h2] at h
      cases rho with
      | true => cases h; exact ⟨_, rfl, rfl⟩
      | false => cases h; exact ⟨_, rfl, rfl⟩

theorem merge_cp {a : Args} (hst : a.strategy = .cp) {rho : Bool} {u1 u2 : Pic} {s : St} {k1 k2 : ℕ}
    (h1 : u1.latent = [k1]) (h2 : u2.latent = [k2]) (hne : k1 ≠ k2) :
    merge a rho u1 u2 s = .error .structureError := by
  unfold merge
  simp only [h1, h2, latEq_single, decide_eq_false hne, hst]
  rfl

/-- The units named by a partition. -/
theorem units_ok {U : List Pic} : ∀ {p : List ℕ} {units : List Pic},
    p.mapM (lookup U) = .ok units →
    List.Forall₂ (fun i u => U[i]? = some u) p units
  | [], units, h => by rw [List.mapM_nil] at h; cases h; exact .nil
  | i :: p, units, h => by
    rw [List.mapM_cons] at h
    cases hu : U[i]? with
    | none => simp only [lookup, hu] at h; cases h
    | some u =>
      simp only [lookup, hu] at h
      simp only [bind, Except.bind] at h
      cases hm : p.mapM (lookup U) with
      | error e => rw [hm] at h; cases h
      | ok us =>
        rw [hm] at h
        cases h
        exact .cons hu (units_ok hm)

theorem Inv.get {U : List Pic} {s : St} {ids : List ℕ} (hI : Inv U s ids) {i : ℕ} {u : Pic} (h : U[i]? = some u) :
    ∃ k, ids[i]? = some k ∧ u.latent = [k] ∧ k < s.next := by
  have e := congrArg (fun l => l[i]?) hI.lat
  simp only [List.getElem?_map, h, Option.map_some] at e
  cases hk : ids[i]? with
  | none => rw [hk] at e; cases e
  | some k =>
    rw [hk] at e
    injection e with e
    exact ⟨k, rfl, e, hI.lt k (List.mem_of_getElem? hk)⟩

theorem Inv.ne {U : List Pic} {s : St} {ids : List ℕ} (hI : Inv U s ids) {i j k l : ℕ} (h1 : ids[i]? = some k)
    (h2 : ids[j]? = some l) (h : i < j) : k < l := by
  obtain ⟨hi, rfl⟩ := List.getElem?_eq_some_iff.1 h1
  obtain ⟨hj, rfl⟩ := List.getElem?_eq_some_iff.1 h2
  exact List.pairwise_iff_getElem.1 hI.inc i j hi hj h

/-- Folding a partition: the result is fresh. -/
theorem foldPart_latent {a : Args} (hst : a.strategy ≠ .cp) {rho : Bool} : ∀ {rest : List Pic} {cur : Pic} {s : St}
    {k : ℕ} {ks : List ℕ}, cur.latent = [k] → rest.map Pic.latent = ks.map (fun k => [k]) → (k :: ks).Nodup →
    (∀ l ∈ k :: ks, l < s.next) → rest ≠ [] → ∀ {u : Pic} {s' : St}, foldPart a rho cur rest s = .ok (u, s') →
    s.next ≤ s'.next ∧ if rho then u.latent = [] else ∃ m, u.latent = [m] ∧ s.next ≤ m ∧ m < s'.next
  | [], _, _, _, _, _, _, _, _, hne, _, _, _ => absurd rfl hne
  | [v], cur, s, k, ks, hc, hr, hn, hlt, _, u, s', h => by
    obtain ⟨k2, rfl⟩ : ∃ k2, ks = [k2] := by
      cases ks with
      | nil => simp at hr
      | cons k2 ks => cases ks with
        | nil => exact ⟨k2, rfl⟩
        | cons _ _ => simp at hr
    have hv : v.latent = [k2] := by simpa using hr
    have hne : k ≠ k2 := by simp at hn; exact hn
    obtain ⟨f, rfl, hs⟩ := merge_tucker hst hc hv hne (by simpa [foldPart] using h)
    rw [hs]
    cases rho with
    | true => exact ⟨by simp, rfl⟩
    | false => exact ⟨by simp, s.next, rfl, le_rfl, by simp⟩
  | v :: v' :: rest, cur, s, k, ks, hc, hr, hn, hlt, _, u, s', h => by
    obtain ⟨k2, ks', rfl⟩ : ∃ k2 ks', ks = k2 :: ks' := by
      cases ks with
      | nil => simp at hr
      | cons k2 ks => exact ⟨k2, ks, rfl⟩
    rw [List.map_cons, List.map_cons] at hr
    injection hr with hv hr
    have hne : k ≠ k2 := by
      simp only [List.nodup_cons, List.mem_cons, not_or] at hn
      exact hn.1.1
    simp only [foldPart, bind, Except.bind] at h
    cases hm : merge a false cur v s with
    | error e => rw [hm] at h; cases h
    | ok r =>
      obtain ⟨c2, s2⟩ := r
      rw [hm] at h
      dsimp only at h
      obtain ⟨f, rfl, hs⟩ := merge_tucker hst hc hv hne hm
      simp only [Bool.false_eq_true, if_false] at hs
      have ih := foldPart_latent hst (rho := rho) (rest := v' :: rest) (s := s2) (k := s.next) (ks := ks') rfl hr (by
        rw [List.nodup_cons] at hn ⊢
        refine ⟨fun hmem => ?_, (List.nodup_cons.1 hn.2).2⟩
        exact lt_irrefl _ (hlt s.next (by simp [hmem]))) (by
        intro l hl
        rw [hs]
        rcases List.mem_cons.1 hl with rfl | hl
        · omega
        · have := hlt l (by simp [hl]); omega) (by simp) h
      refine ⟨by omega, ?_⟩
      cases rho with
      | true => exact ih.2
      | false =>
        obtain ⟨m, h1, h2, h3⟩ := ih.2
        exact ⟨m, h1, by omega, h3⟩

theorem units_lat {U : List Pic} {s : St} {ids : List ℕ} (hI : Inv U s ids) : ∀ {p : List ℕ} {units : List Pic},
    List.Forall₂ (fun i u => U[i]? = some u) p units →
    ∃ ks, units.map Pic.latent = ks.map (fun k => [k]) ∧ List.Forall₂ (fun i k => ids[i]? = some k) p ks
  | _, _, .nil => ⟨[], rfl, .nil⟩
  | _, _, .cons h t => by
    obtain ⟨k, hk, hl, -⟩ := hI.get h
    obtain ⟨ks, h1, h2⟩ := units_lat hI t
    exact ⟨k :: ks, by simp [hl, h1], .cons hk h2⟩

theorem ids_nodup {U : List Pic} {s : St} {ids : List ℕ} (hI : Inv U s ids) : ∀ {p ks : List ℕ},
    List.Forall₂ (fun i k => ids[i]? = some k) p ks → p.Nodup → ks.Nodup ∧ ∀ k ∈ ks, k < s.next
  | _, _, .nil, _ => by simp
  | i :: p, k :: ks, .cons h t, hn => by
    rw [List.nodup_cons] at hn
    obtain ⟨h1, h2⟩ := ids_nodup hI t hn.2
    refine ⟨List.nodup_cons.2 ⟨fun hk => hn.1 ?_, h1⟩, ?_⟩
    · obtain ⟨j, hj, hjk⟩ : ∃ j ∈ p, ids[j]? = some k := by
        clear h1 h2 hn h
        induction t with
        | nil => cases hk
        | cons h t ih =>
          rcases List.mem_cons.1 hk with rfl | hk
          · exact ⟨_, by simp, h⟩
          · obtain ⟨j, hj, e⟩ := ih hk
            exact ⟨j, List.mem_cons_of_mem _ hj, e⟩
      rcases lt_trichotomy i j with hlt | rfl | hlt
      · exact absurd (hI.ne h hjk hlt) (lt_irrefl _)
      · exact hj
      · exact absurd (hI.ne hjk h hlt) (lt_irrefl _)
    · intro l hl
      rcases List.mem_cons.1 hl with rfl | hl
      · exact hI.lt _ (List.mem_of_getElem? h)
      · exact h2 l hl

/-- Latent scopes of the merged partitions of a region: empty at the root, otherwise fresh and increasing. -/
theorem parts_latent {a : Args} (hst : a.strategy ≠ .cp) {rho : Bool} {U : List Pic} {ids : List ℕ} :
    ∀ {ps : List (List ℕ)} {s : St}, Inv U s ids → (∀ p ∈ ps, p.Nodup) →
    ∀ {ms : List Pic} {s' : St}, parts a rho U ps s = .ok (ms, s') →
    s.next ≤ s'.next ∧ ms.length = ps.length ∧
      if rho then ∀ m ∈ ms, m.latent = []
      else ∃ ks : List ℕ, ms.map Pic.latent = ks.map (fun k => [k]) ∧ ks.Pairwise (· < ·) ∧
        ∀ k ∈ ks, s.next ≤ k ∧ k < s'.next
  | [], s, _, _, ms, s', h => by
    simp only [parts] at h
    cases h
    refine ⟨le_rfl, rfl, ?_⟩
    cases rho with
    | true => intro m hm; cases hm
    | false => exact ⟨[], rfl, .nil, by simp⟩
  | p :: ps, s, hI, hnd, ms, s', h => by
    simp only [parts, bind, Except.bind, pure, Except.pure, throw, throwThe, MonadExceptOf.throw] at h
    by_cases hp : p.length < 2
    · rw [if_pos hp] at h; cases h
    rw [if_neg hp] at h
    split at h
    · cases h
    · rename_i units hu
      have hF := units_ok hu
      obtain ⟨ks, hks, hF2⟩ := units_lat hI hF
      obtain ⟨hkn, hklt⟩ := ids_nodup hI hF2 (hnd p (by simp))
      cases units with
      | nil => cases h
      | cons cur rest =>
        dsimp only at h
        cases ks with
        | nil => simp at hks
        | cons k ks =>
          rw [List.map_cons, List.map_cons] at hks
          injection hks with hc hr
          have hne : rest ≠ [] := by
            rintro rfl
            have := hF.length_eq
            simp at this
            omega
          cases hf : foldPart a rho cur rest s with
          | error e => rw [hf] at h; cases h
          | ok r =>
            obtain ⟨u, s2⟩ := r
            rw [hf] at h
            dsimp only at h
            have h1 := foldPart_latent hst hc hr hkn hklt hne hf
            cases hps : parts a rho U ps s2 with
            | error e => rw [hps] at h; cases h
            | ok r =>
              obtain ⟨us, s3⟩ := r
              rw [hps] at h
              cases h
              have hI2 : Inv U s2 ids := ⟨hI.lat, hI.inc, fun k hk => (hI.lt k hk).trans_le h1.1⟩
              have h2 := parts_latent hst hI2 (fun p hp => hnd p (List.mem_cons_of_mem _ hp)) hps
              refine ⟨h1.1.trans h2.1, by simp [h2.2.1], ?_⟩
              cases rho with
              | true =>
                intro m hm
                rcases List.mem_cons.1 hm with rfl | hm
                · exact h1.2
                · exact h2.2.2 m hm
              | false =>
                obtain ⟨m, e1, e2, e3⟩ := h1.2
                obtain ⟨ks', e4, e5, e6⟩ := h2.2.2
                refine ⟨m :: ks', by simp [e1, e4], List.pairwise_cons.2 ⟨fun b hb => ?_, e5⟩, ?_⟩
                · have := (e6 b hb).1; omega
                · intro b hb
                  rcases List.mem_cons.1 hb with rfl | hb
                  · exact ⟨e2, lt_of_lt_of_le e3 h2.1⟩
                  · exact ⟨h1.1.trans (e6 b hb).1, (e6 b hb).2⟩

/-- A region that is not the root and is accepted has at most one partition, and gets a fresh latent id. -/
theorem region_latent {a : Args} (hst : a.strategy ≠ .cp) {i : ℕ} {X : Region} {U : List Pic} {s : St} {ids : List ℕ}
    (hI : Inv U s ids) (hnd : ∀ p ∈ X.parts, p.Nodup) {u : Pic} {s' : St}
    (h : region a false i X U s = .ok (u, s')) :
    X.parts.length ≤ 1 ∧ ∃ k, u.latent = [k] ∧ s.next ≤ k ∧ k < s'.next := by
  unfold region at h
  by_cases he : X.parts.isEmpty = true
  · rw [if_pos he] at h
    cases h
    rw [List.isEmpty_iff] at he
    exact ⟨by simp [he], s.next, rfl, le_rfl, Nat.lt_succ_self _⟩
  · rw [if_neg he] at h
    simp only [bind, Except.bind, pure, Except.pure, throw, throwThe, MonadExceptOf.throw] at h
    cases hp : parts a false U X.parts s with
    | error e => rw [hp] at h; cases h
    | ok r =>
      obtain ⟨ms, s2⟩ := r
      rw [hp] at h
      dsimp only at h
      obtain ⟨h1, h2, ks, h3, h4, h5⟩ := parts_latent hst hI hnd hp
      match ms, h, h2, h3 with
      | [], h, _, _ => cases h
      | [m], h, h2, h3 =>
        cases h
        obtain ⟨k, rfl⟩ : ∃ k, ks = [k] := by
          cases ks with
          | nil => simp at h3
          | cons k ks => cases ks with
            | nil => exact ⟨k, rfl⟩
            | cons _ _ => simp at h3
        exact ⟨by simp at h2; omega, k, by simpa using h3, h5 k (by simp)⟩
      | m :: m' :: ms, h, h2, h3 =>
        exfalso
        obtain ⟨k, k', ks', rfl⟩ : ∃ k k' ks', ks = k :: k' :: ks' := by
          cases ks with
          | nil => simp at h3
          | cons k ks => cases ks with
            | nil => simp at h3
            | cons k' ks' => exact ⟨k, k', ks', rfl⟩
        simp only [List.map_cons, List.cons.injEq] at h3
        have hlt : k < k' := (List.pairwise_cons.1 h4).1 k' (by simp)
        dsimp only at h
        rw [if_pos] at h
        · cases h
        · rw [List.any_cons, h3.1, h3.2.1, latEq_single, decide_eq_false (by omega)]
          rfl

/-- The loop over the regions, for a list whose last element is the root. -/
theorem loop_multi {a : Args} (hst : a.strategy ≠ .cp) : ∀ (Xs : List Region) (U : List Pic) (s : St) (ids : List ℕ),
    Inv U s ids → (∀ X ∈ Xs, ∀ p ∈ X.parts, p.Nodup) → ∀ r, loop a Xs U s = .ok r →
    ∀ X ∈ Xs.dropLast, X.parts.length ≤ 1
  | [], _, _, _, _, _, _, _, X, hX => by cases hX
  | [Y], _, _, _, _, _, _, _, X, hX => by cases hX
  | Y :: Z :: Xs, U, s, ids, hI, hnd, r, h, X, hX => by
    simp only [loop, bind, Except.bind] at h
    cases hr : region a (List.isEmpty (Z :: Xs)) U.length Y U s with
    | error e => rw [hr] at h; cases h
    | ok q =>
      obtain ⟨u, s2⟩ := q
      rw [hr] at h
      dsimp only at h
      obtain ⟨h1, k, h2, h3, h4⟩ := region_latent hst hI (fun p hp => hnd Y (by simp) p hp) hr
      have hI2 : Inv (U ++ [u]) s2 (ids ++ [k]) := by
        refine ⟨by simp [hI.lat, h2], List.pairwise_append.2 ⟨hI.inc, by simp, ?_⟩, ?_⟩
        · intro b hb c hc
          simp only [List.mem_singleton] at hc
          subst hc
          exact (hI.lt b hb).trans_le h3
        · intro b hb
          rcases List.mem_append.1 hb with hb | hb
          · have := hI.lt b hb; omega
          · simp only [List.mem_singleton] at hb
            subst hb; exact h4
      have ih := loop_multi hst (Z :: Xs) (U ++ [u]) s2 _ hI2 (fun X hX => hnd X (List.mem_cons_of_mem _ hX)) r h
      rw [List.dropLast_cons₂] at hX
      rcases List.mem_cons.1 hX with rfl | hX
      · exact h1
      · exact ih X hX

/-- **C63, several partitions.** Under the AUTO and TUCKER strategies `rg2pic` rejects every region graph in which a
region other than the root has more than one partition (each merge allocates its own latent variable, so the merged
units never have the same latent scope). -/
theorem C63_multi_partition_rejected {a : Args} (hst : a.strategy ≠ .cp) {base : ℕ} {rg : List Region}
    (hwf : WellFormed rg) (hX : ∃ X ∈ rg.dropLast, 2 ≤ X.parts.length) : ∃ e, rg2pic a base rg = .error e := by
  cases h : rg2pic a base rg with
  | error e => exact ⟨e, rfl⟩
  | ok u =>
    exfalso
    unfold rg2pic at h
    simp only [bind, Except.bind] at h
    cases hl : loop a rg [] ⟨base, 0⟩ with
    | error e => rw [hl] at h; cases h
    | ok U =>
      obtain ⟨X, hX, h2⟩ := hX
      have := loop_multi hst rg [] ⟨base, 0⟩ [] ⟨rfl, .nil, by simp⟩ (by
        intro X hX p hp
        obtain ⟨i, hi⟩ := List.getElem?_of_mem hX
        exact (hwf i X hi p hp).2.1) U hl X hX
      omega

/-! ### CP -/

theorem units_total {U : List Pic} : ∀ {p : List ℕ}, (∀ j ∈ p, j < U.length) →
    ∃ units, p.mapM (lookup U) = .ok units
  | [], _ => ⟨[], rfl⟩
  | i :: p, h => by
    obtain ⟨us, hus⟩ := units_total (U := U) (p := p) fun j hj => h j (List.mem_cons_of_mem _ hj)
    refine ⟨U[i]'(h i (by simp)) :: us, ?_⟩
    rw [List.mapM_cons, lookup, List.getElem?_eq_getElem (h i (by simp)), hus]
    rfl

theorem region_cp {a : Args} (hst : a.strategy = .cp) {rho : Bool} {i : ℕ} {X : Region} {U : List Pic} {s : St}
    {ids : List ℕ} (hI : Inv U s ids) (hwf : ∀ p ∈ X.parts, 2 ≤ p.length ∧ p.Nodup ∧ ∀ j ∈ p, j < U.length)
    (hne : X.parts ≠ []) : region a rho i X U s = .error .structureError := by
  unfold region
  rw [if_neg (by simpa using hne)]
  obtain ⟨p, ps, hps⟩ := List.exists_cons_of_ne_nil hne
  obtain ⟨hl, hn, hj⟩ := hwf p (by simp [hps])
  obtain ⟨units, hu⟩ := units_total hj
  have hF := units_ok hu
  obtain ⟨ks, hks, hF2⟩ := units_lat hI hF
  obtain ⟨hkn, -⟩ := ids_nodup hI hF2 hn
  have hlen := hF.length_eq
  have : parts a rho U X.parts s = .error .structureError := by
    rw [hps]
    simp only [parts, bind, Except.bind, pure, Except.pure, throw, throwThe, MonadExceptOf.throw]
    rw [if_neg (by omega)]
    rw [hu]
    match units, ks, hks, hlen, hkn with
    | [], _, _, _, _ => rfl
    | [_], _, _, hlen, _ => rw [hlen] at hl; exact absurd hl (by simp)
    | c :: v :: rest, [], hks, _, _ => simp at hks
    | c :: v :: rest, [_], hks, _, _ => simp at hks
    | c :: v :: rest, k :: k2 :: ks, hks, _, hkn =>
      simp only [List.map_cons, List.cons.injEq] at hks
      simp only [List.nodup_cons, List.mem_cons, not_or] at hkn
      cases rest with
      | nil => simp only [foldPart]; rw [merge_cp hst hks.1 hks.2.1 hkn.1.1]
      | cons w rest =>
        simp only [foldPart, bind, Except.bind]
        rw [merge_cp hst hks.1 hks.2.1 hkn.1.1]
  simp only [bind, Except.bind, this]

theorem loop_cp {a : Args} (hst : a.strategy = .cp) : ∀ (Xs : List Region) (U : List Pic) (s : St) (ids : List ℕ),
    Inv U s ids → (∀ (i : ℕ) (X : Region), Xs[i]? = some X → ∀ p ∈ X.parts,
      2 ≤ p.length ∧ p.Nodup ∧ ∀ j ∈ p, j < U.length + i) →
    (∃ X ∈ Xs, X.parts ≠ []) → loop a Xs U s = .error .structureError
  | [], _, _, _, _, _, h => by obtain ⟨X, hX, -⟩ := h; cases hX
  | Y :: Xs, U, s, ids, hI, hwf, h => by
    simp only [loop, bind, Except.bind]
    by_cases hY : Y.parts = []
    · have hXs : Xs ≠ [] := by
        rintro rfl
        obtain ⟨X, hX, h2⟩ := h
        simp only [List.mem_singleton] at hX
        subst hX; exact h2 hY
      have hemp : Xs.isEmpty = false := by
        cases Xs with
        | nil => exact absurd rfl hXs
        | cons _ _ => rfl
      rw [hemp]
      have hreg : region a false U.length Y U s =
          .ok (.input Y.scope [s.next] (a.leaf U.length 1).1 (a.leaf U.length 1).2, { s with next := s.next + 1 }) := by
        unfold region
        rw [if_pos (by simp [hY])]
        rfl
      rw [hreg]
      dsimp only
      refine loop_cp hst Xs _ _ (ids ++ [s.next]) ?_ ?_ ?_
      · refine ⟨by simp [hI.lat, Pic.latent], List.pairwise_append.2 ⟨hI.inc, by simp, ?_⟩, ?_⟩
        · intro b hb c hc
          simp only [List.mem_singleton] at hc
          subst hc
          exact hI.lt b hb
        · intro b hb
          rcases List.mem_append.1 hb with hb | hb
          · have := hI.lt b hb
            show b < s.next + 1
            omega
          · simp only [List.mem_singleton] at hb
            subst hb; exact Nat.lt_succ_self _
      · intro i X hX p hp
        obtain ⟨e1, e2, e3⟩ := hwf (i + 1) X (by simpa using hX) p hp
        refine ⟨e1, e2, fun j hj => ?_⟩
        have := e3 j hj
        simp only [List.length_append, List.length_singleton]
        omega
      · obtain ⟨X, hX, h2⟩ := h
        rcases List.mem_cons.1 hX with rfl | hX
        · exact absurd hY h2
        · exact ⟨X, hX, h2⟩
    · rw [region_cp hst hI (hwf 0 Y (by simp)) hY]

/-- **C63, the CP strategy.** `rg2pic` with `MergeStrategy.CP` raises StructureError on every region graph that has a
partition at all: the units of different regions never share a latent variable. -/
theorem C63_cp_rejected {a : Args} (hst : a.strategy = .cp) {base : ℕ} {rg : List Region} (hwf : WellFormed rg)
    (hX : ∃ X ∈ rg, X.parts ≠ []) : rg2pic a base rg = .error .structureError := by
  unfold rg2pic
  rw [loop_cp hst rg [] ⟨base, 0⟩ [] ⟨rfl, .nil, by simp⟩ (by
    intro i X hX p hp
    obtain ⟨e1, e2, e3⟩ := hwf i X hX p hp
    exact ⟨e1, e2, by simpa using e3⟩) hX]
  rfl

end Verif.PicQ

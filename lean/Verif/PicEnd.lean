import Verif.PicGraph
import Mathlib.MeasureTheory.Integral.Lebesgue.Add

/-!
# C63: region graph to QPC, end to end; marginals of a QPC; witnesses
-/

namespace Verif.PicQ
open Verif Finset MeasureTheory

/-! ## rg2pic builds coherent PICs -/

theorem merge_coherent {ρ : Rule} {u1 u2 : Pic} {k1 k2 : ℕ} {z : List ℕ} {f : Option (List ℝ → List ℝ → ℝ)}
    (c1 : Coherent ρ u1) (c2 : Coherent ρ u2) (h1 : u1.latent = [k1]) (h2 : u2.latent = [k2]) (h : k1 < k2)
    (hz : z.length ≤ 1) : Coherent ρ (.integral (.prod u1 u2) z (joinLat [k1] [k2]) f) := by
  refine ⟨⟨c1, c2, Or.inr ?_⟩, ?_, ?_⟩
  · rw [h1, h2]
    intro a ha b hb
    simp only [List.mem_singleton] at ha hb
    rw [ha, hb]; exact h
  · rw [Pic.latent, h1, h2]
  · match z, hz with
    | [], _ => exact .nil
    | [a], _ => simp

theorem parts_coherent {ρ : Rule} {a : Args} (hst : a.strategy ≠ .cp) {rho : Bool} {U : List Pic} {ids : List ℕ}
    (hU : ∀ u ∈ U, Coherent ρ u) : ∀ {ps : List (List ℕ)} {s : St}, Inv U s ids →
    (∀ p ∈ ps, ∃ i j, p = [i, j] ∧ i < j) → ∀ {ms : List Pic} {s' : St}, parts a rho U ps s = .ok (ms, s') →
    ∀ m ∈ ms, Coherent ρ m
  | [], s, _, _, ms, s', h, m, hm => by
    simp only [parts] at h
    cases h
    cases hm
  | p :: ps, s, hI, hb, ms, s', h, m, hm => by
    obtain ⟨i, j, rfl, hij⟩ := hb p (by simp)
    simp only [parts, bind, Except.bind, pure, Except.pure, throw, throwThe, MonadExceptOf.throw] at h
    rw [if_neg (by simp)] at h
    split at h
    · cases h
    · rename_i units hu
      have hF := units_ok hu
      cases hF with
      | cons hi t =>
        cases t with
        | cons hj t =>
          cases t with
          | nil =>
            rename_i u1 u2
            dsimp only [foldPart] at h
            obtain ⟨k1, e1, l1, b1⟩ := hI.get hi
            obtain ⟨k2, e2, l2, b2⟩ := hI.get hj
            have hk := hI.ne e1 e2 hij
            cases hf : merge a rho u1 u2 s with
            | error e => rw [hf] at h; cases h
            | ok r =>
              obtain ⟨u, s2⟩ := r
              rw [hf] at h
              dsimp only at h
              obtain ⟨f, hu', hs⟩ := merge_tucker hst l1 l2 (Nat.ne_of_lt hk) hf
              cases hps : parts a rho U ps s2 with
              | error e => rw [hps] at h; cases h
              | ok r =>
                obtain ⟨us, s3⟩ := r
                rw [hps] at h
                cases h
                have hI2 : Inv U s2 ids := ⟨hI.lat, hI.inc, fun k hk => (hI.lt k hk).trans_le (by rw [hs]; omega)⟩
                rcases List.mem_cons.1 hm with rfl | hm
                · rw [hu']
                  refine merge_coherent (hU _ (List.mem_of_getElem? hi)) (hU _ (List.mem_of_getElem? hj)) l1 l2 hk ?_
                  cases rho <;> simp
                · exact parts_coherent hst hU hI2 (fun p hp => hb p (List.mem_cons_of_mem _ hp)) hps m hm

theorem mkSum_ok {us : List Pic} {w : ℕ → ℝ} {z : List ℕ} {u : Pic} (h : Pic.mkSum us w z = .ok u) :
    u = .sum us.length us.get (fun i => w i) z := by
  unfold Pic.mkSum at h
  simp only [bind, Except.bind, pure, Except.pure, throw, throwThe, MonadExceptOf.throw] at h
  split at h
  · cases h
  · split at h
    · cases h
    · split at h
      · cases h
      · split at h
        · cases h
        · cases h; rfl

theorem region_coherent {ρ : Rule} {a : Args} (hst : a.strategy ≠ .cp) (hleaf : FaithfulLeaves ρ a) {rho : Bool}
    {i : ℕ} {X : Region} {U : List Pic} {s : St} {ids : List ℕ} (hU : ∀ u ∈ U, Coherent ρ u)
    (hI : Inv U s ids) (hb : ∀ p ∈ X.parts, ∃ i j, p = [i, j] ∧ i < j) {u : Pic} {s' : St}
    (h : region a rho i X U s = .ok (u, s')) : Coherent ρ u ∧ (rho = true → u.latent = []) := by
  have hnd : ∀ p ∈ X.parts, p.Nodup := by
    intro p hp
    obtain ⟨i, j, rfl, hij⟩ := hb p hp
    simp [Nat.ne_of_lt hij]
  have hlat : rho = false → ∃ k, u.latent = [k] := by
    rintro rfl
    obtain ⟨-, k, hk, -⟩ := region_latent hst hI hnd h
    exact ⟨k, hk⟩
  have hmulti : rho = false → X.parts.length ≤ 1 := by
    rintro rfl
    exact (region_latent hst hI hnd h).1
  unfold region at h
  by_cases he : X.parts.isEmpty = true
  · rw [if_pos he] at h
    cases rho with
    | true =>
      cases h
      exact ⟨⟨.nil, hleaf i 0 (by omega)⟩, fun _ => rfl⟩
    | false =>
      cases h
      exact ⟨⟨by simp, hleaf i 1 le_rfl⟩, fun h => by cases h⟩
  · rw [if_neg he] at h
    simp only [bind, Except.bind, pure, Except.pure, throw, throwThe, MonadExceptOf.throw] at h
    cases hp : parts a rho U X.parts s with
    | error e => rw [hp] at h; cases h
    | ok r =>
      obtain ⟨ms, s2⟩ := r
      rw [hp] at h
      dsimp only at h
      have hco := parts_coherent hst hU hI hb hp
      obtain ⟨h1, h2, h3⟩ := parts_latent hst hI hnd hp
      match ms, h, h2, h3, hco with
      | [], h, _, _, _ => cases h
      | [m], h, _, h3, hco =>
        cases h
        refine ⟨hco u (by simp), ?_⟩
        rintro rfl
        exact h3 u (by simp)
      | m :: m' :: ms, h, h2, h3, hco =>
        cases rho with
        | false => exact absurd (hmulti rfl) (by simp at h2; omega)
        | true =>
          dsimp only at h
          split at h
          · cases h
          · have h3' : ∀ v ∈ m :: m' :: ms, v.latent = [] := h3
            have hm0 := h3' m (by simp)
            cases hv : Pic.mkSum (m :: m' :: ms) (sumWeights a ((m' :: ms).length + 1)) m.latent with
            | error e => rw [hv] at h; cases h
            | ok v =>
              rw [hv] at h
              cases h
              obtain rfl := mkSum_ok hv
              refine ⟨⟨by simp, by rw [hm0]; exact .nil, fun i => ⟨hco _ (List.get_mem _ _), ?_⟩⟩, fun _ => hm0⟩
              rw [h3' _ (List.get_mem _ _), hm0]

theorem loop_coherent {ρ : Rule} {a : Args} (hst : a.strategy ≠ .cp) (hleaf : FaithfulLeaves ρ a) :
    ∀ (Xs : List Region) (U : List Pic) (s : St) (ids : List ℕ), Inv U s ids → (∀ u ∈ U, Coherent ρ u) →
    (∀ X ∈ Xs, ∀ p ∈ X.parts, ∃ i j, p = [i, j] ∧ i < j) → Xs ≠ [] → ∀ r, loop a Xs U s = .ok r →
    ∃ u, r.getLast? = some u ∧ Coherent ρ u ∧ u.latent = []
  | [], _, _, _, _, _, _, hne, _, _ => absurd rfl hne
  | [Y], U, s, ids, hI, hU, hb, _, r, h => by
    simp only [loop, bind, Except.bind] at h
    cases hr : region a (List.isEmpty ([] : List Region)) U.length Y U s with
    | error e => rw [hr] at h; cases h
    | ok q =>
      obtain ⟨u, s2⟩ := q
      rw [hr] at h
      cases h
      have := region_coherent hst hleaf hU hI (hb Y (by simp)) hr
      exact ⟨u, by simp, this.1, this.2 rfl⟩
  | Y :: Z :: Xs, U, s, ids, hI, hU, hb, _, r, h => by
    simp only [loop, bind, Except.bind] at h
    cases hr : region a (List.isEmpty (Z :: Xs)) U.length Y U s with
    | error e => rw [hr] at h; cases h
    | ok q =>
      obtain ⟨u, s2⟩ := q
      rw [hr] at h
      dsimp only at h
      have hnd : ∀ p ∈ Y.parts, p.Nodup := by
        intro p hp
        obtain ⟨i, j, rfl, hij⟩ := hb Y (by simp) p hp
        simp [Nat.ne_of_lt hij]
      obtain ⟨-, k, h2, h3, h4⟩ := region_latent hst hI hnd hr
      have hI2 : Inv (U ++ [u]) s2 (ids ++ [k]) := by
        refine ⟨by simp [hI.lat, h2], List.pairwise_append.2 ⟨hI.inc, by simp, ?_⟩, ?_⟩
        · intro b hb c hc
          simp only [List.mem_singleton] at hc
          subst hc
          exact (hI.lt b hb).trans_le h3
        · intro b hb
          rcases List.mem_append.1 hb with hb | hb
          · have := hI.lt b hb; omega
          · simp only [List.mem_singleton] at hb
            subst hb; exact h4
      refine loop_coherent hst hleaf (Z :: Xs) (U ++ [u]) s2 _ hI2 ?_ (fun X hX => hb X (List.mem_cons_of_mem _ hX))
        (by simp) r h
      intro v hv
      rcases List.mem_append.1 hv with hv | hv
      · exact hU v hv
      · simp only [List.mem_singleton] at hv
        subst hv
        exact (region_coherent hst hleaf hU hI (hb Y (by simp)) hr).1

/-- **C63, end to end.** Take a region graph whose partitions are binary with the first child earlier in the
post-order (every binary tree), AUTO or TUCKER merging, and input units materialised at the quadrature points. If
`rg2pic` and `pic2qpc` accept, the resulting circuit has one channel and its likelihood is, for every row, exactly the
nested tensor-product quadrature of the PIC. -/
theorem C63_end_to_end {ρ : Rule} {a : Args} {base : ℕ} {rg : List Region} (hst : a.strategy ≠ .cp)
    (hleaf : FaithfulLeaves ρ a) (hb : BinaryAscending rg) {u : Pic} (hu : rg2pic a base rg = .ok u) {q : Q}
    (hq : pic2qpc ρ u = .ok q) (x : Row) (η : ℕ → ℝ) :
    q.ch = 1 ∧ expL (q.ll x 0) = value ρ u x η := by
  unfold rg2pic at hu
  simp only [bind, Except.bind, pure, Except.pure, throw, throwThe, MonadExceptOf.throw] at hu
  cases hl : loop a rg [] ⟨base, 0⟩ with
  | error e => rw [hl] at hu; cases hu
  | ok U =>
    rw [hl] at hu
    dsimp only at hu
    have hne : rg ≠ [] := by
      rintro rfl
      simp only [loop] at hl
      cases hl
      cases hu
    obtain ⟨v, h1, h2, h3⟩ := loop_coherent hst hleaf rg [] ⟨base, 0⟩ [] ⟨rfl, .nil, by simp⟩ (by simp) hb hne U hl
    rw [h1] at hu
    cases hu
    obtain ⟨e1, e2⟩ := C63_quadrature h2 hq x η (c := 0) (by rw [h3]; simp)
    rw [h3] at e1 e2
    exact ⟨by simpa using e1, by rw [e2]; rfl⟩

/-! ## Marginals -/

/-- An input unit whose materialised channels are densities of the variables of its (at most one-variable) scope: a
missing value is the integral over the value, and other variables are not looked at. -/
structure LeafMarg (μ : Measure ℝ) (xs : Finset Var) (n : ℕ) (ll : Row → ℕ → LogV) : Prop where
  loc : ∀ x v t, v ∉ xs → ∀ c, ll (Function.update x v t) c = ll x c
  meas : ∀ x, ∀ v ∈ xs, ∀ c < n, Measurable fun t : ℝ => expL (ll (Function.update x v (some t)) c)
  int : ∀ x, ∀ v ∈ xs, ∀ c < n, ∫⁻ t, ENNReal.ofReal (expL (ll (Function.update x v (some t)) c)) ∂μ =
    ENNReal.ofReal (expL (ll (Function.update x v none) c))

/-- Every input unit of the PIC is such a density. -/
def MargInputs (μ : Measure ℝ) (ρ : Rule) : Pic → Prop
  | .input xs _ _ mat => LeafMarg μ xs (mat ρ).1 (mat ρ).2
  | .sum _ us _ _ => ∀ i, MargInputs μ ρ (us i)
  | .prod l r => MargInputs μ ρ l ∧ MargInputs μ ρ r
  | .integral u _ _ _ => MargInputs μ ρ u

/-- What is kept of the materialised circuit. -/
structure QMarg (μ : Measure ℝ) (q : Q) : Prop where
  loc : ∀ x v t, v ∉ q.scope → ∀ c, q.ll (Function.update x v t) c = q.ll x c
  meas : ∀ x, ∀ v ∈ q.scope, ∀ c < q.ch, Measurable fun t : ℝ => expL (q.ll (Function.update x v (some t)) c)
  int : ∀ x, ∀ v ∈ q.scope, ∀ c < q.ch, ∫⁻ t, ENNReal.ofReal (expL (q.ll (Function.update x v (some t)) c)) ∂μ =
    ENNReal.ofReal (expL (q.ll (Function.update x v none) c))

theorem qmarg_wsum {μ : Measure ℝ} {q : Q} (h : QMarg μ q) {co : ℕ} {w : ℕ → ℕ → ℝ}
    (hw : ∀ ci < q.ch, ∀ o < co, 0 ≤ w ci o) : QMarg μ (.wsum q co w) := by
  refine ⟨?_, ?_, ?_⟩
  · intro x v t hv c
    rw [Q.ll, Q.ll]
    congr 1
    funext ci
    rw [h.loc x v t hv ci]
  · intro x v hv c hc
    have : (fun t : ℝ => expL ((Q.wsum q co w).ll (Function.update x v (some t)) c)) =
        fun t => ∑ ci ∈ range q.ch, w ci c * expL (q.ll (Function.update x v (some t)) ci) :=
      funext fun t => expL_wsum hw _ hc
    rw [this]
    exact Finset.measurable_sum _ fun ci hci => (h.meas x v hv ci (mem_range.1 hci)).const_mul _
  · intro x v hv c hc
    have e : ∀ y, ENNReal.ofReal (expL ((Q.wsum q co w).ll y c)) =
        ∑ ci ∈ range q.ch, ENNReal.ofReal (w ci c) * ENNReal.ofReal (expL (q.ll y ci)) := by
      intro y
      rw [expL_wsum hw y hc, ENNReal.ofReal_sum_of_nonneg]
      · exact sum_congr rfl fun ci hci => ENNReal.ofReal_mul (hw ci (mem_range.1 hci) c hc)
      · exact fun ci hci => mul_nonneg (hw ci (mem_range.1 hci) c hc) (expL_nonneg _)
    simp only [e]
    rw [lintegral_finsetSum']
    · refine sum_congr rfl fun ci hci => ?_
      rw [lintegral_const_mul _ (h.meas x v hv ci (mem_range.1 hci)).ennreal_ofReal, h.int x v hv ci (mem_range.1 hci)]
    · intro ci hci
      exact ((h.meas x v hv ci (mem_range.1 hci)).ennreal_ofReal.const_mul _).aemeasurable

theorem qmarg_mul {μ : Measure ℝ} {l r : Q} (hl : QMarg μ l) (hr : QMarg μ r) (hd : Disjoint l.scope r.scope)
    {q : Q} (hs : q.scope = l.scope ∪ r.scope) (i j : ℕ → ℕ)
    (hll : ∀ x c, q.ll x c = l.ll x (i c) + r.ll x (j c))
    (hi : ∀ c < q.ch, i c < l.ch) (hj : ∀ c < q.ch, j c < r.ch) : QMarg μ q := by
  refine ⟨?_, ?_, ?_⟩
  · intro x v t hv c
    rw [hs, mem_union, not_or] at hv
    rw [hll, hll, hl.loc x v t hv.1, hr.loc x v t hv.2]
  · intro x v hv c hc
    simp only [hll, expL_add]
    rw [hs, mem_union] at hv
    rcases hv with hv | hv
    · have hv' := Finset.disjoint_left.1 hd hv
      simp only [fun t => hr.loc x v t hv']
      exact (hl.meas x v hv _ (hi c hc)).mul_const _
    · have hv' := Finset.disjoint_right.1 hd hv
      simp only [fun t => hl.loc x v t hv']
      exact (hr.meas x v hv _ (hj c hc)).const_mul _
  · intro x v hv c hc
    simp only [hll, expL_add]
    rw [hs, mem_union] at hv
    rcases hv with hv | hv
    · have hv' := Finset.disjoint_left.1 hd hv
      simp only [fun t => hr.loc x v t hv', ENNReal.ofReal_mul (expL_nonneg _)]
      rw [lintegral_mul_const _ (hl.meas x v hv _ (hi c hc)).ennreal_ofReal, hl.int x v hv _ (hi c hc)]
    · have hv' := Finset.disjoint_right.1 hd hv
      simp only [fun t => hl.loc x v t hv', ENNReal.ofReal_mul (expL_nonneg _)]
      rw [lintegral_const_mul _ (hr.meas x v hv _ (hj c hc)).ennreal_ofReal, hr.int x v hv _ (hj c hc)]

theorem catCh_spec : ∀ (l : List (ℕ × (ℕ → LogV))) (c : ℕ), c < (l.map Prod.fst).sum →
    ∃ i, ∃ h : i < l.length, ∃ d < (l[i]).1, ∀ l' : List (ℕ × (ℕ → LogV)), l'.map Prod.fst = l.map Prod.fst →
      ∀ h' : i < l'.length, Circ.catCh l' c = (l'[i]).2 d
  | [], c, h => by simp at h
  | (n, g) :: l, c, h => by
    by_cases hc : c < n
    · refine ⟨0, by simp, c, hc, ?_⟩
      intro l' hl' h'
      match l', hl' with
      | (n', g') :: l', hl' =>
        simp only [List.map_cons, List.cons.injEq] at hl'
        rw [Circ.catCh, if_pos (by omega)]; rfl
    · obtain ⟨i, hi, d, hd, hspec⟩ := catCh_spec l (c - n) (by simp at h; omega)
      refine ⟨i + 1, by simpa using hi, d, by simpa using hd, ?_⟩
      intro l' hl' h'
      match l', hl', h' with
      | (n', g') :: l', hl', h' =>
        simp only [List.map_cons, List.cons.injEq] at hl'
        rw [Circ.catCh, if_neg (by omega)]
        rw [show c - n' = c - n by omega, hspec l' hl'.2 (by simpa using h')]
        rfl

theorem catCh_loc : ∀ (l l' : List (ℕ × (ℕ → LogV))), l = l' → ∀ c, Circ.catCh l c = Circ.catCh l' c := by
  rintro l _ rfl c; rfl

theorem qmarg_cat {μ : Measure ℝ} {n : ℕ} {qs : Fin n → Q} (hn : 0 < n) (h : ∀ i, QMarg μ (qs i))
    (hs : ∀ i j, (qs i).scope = (qs j).scope) : QMarg μ (.cat n qs) := by
  have hsc : ∀ i, (Q.cat n qs).scope = (qs i).scope := by
    intro i
    rw [Q.scope, dif_pos hn]
    exact hs _ _
  have key : ∀ c < (Q.cat n qs).ch, ∃ i, ∃ d < (qs i).ch, ∀ x, (Q.cat n qs).ll x c = (qs i).ll x d := by
    intro c hc
    have hc' : c < ((List.ofFn fun i : Fin n => ((qs i).ch, (qs i).ll (fun _ => none))).map Prod.fst).sum := by
      rw [List.map_ofFn]; exact hc
    obtain ⟨i, hi, d, hd, hspec⟩ := catCh_spec _ c hc'
    have hi' : i < n := by simpa using hi
    refine ⟨⟨i, hi'⟩, d, by simpa using hd, fun x => ?_⟩
    rw [Q.ll, hspec _ (by rw [List.map_ofFn, List.map_ofFn]; rfl) (by simpa using hi')]
    simp
  refine ⟨?_, ?_, ?_⟩
  · intro x v t hv c
    rw [Q.ll, Q.ll]
    refine catCh_loc _ _ ?_ c
    congr 1
    funext i
    rw [hsc i] at hv
    congr 1
    funext d
    exact (h i).loc x v t hv d
  · intro x v hv c hc
    obtain ⟨i, d, hd, e⟩ := key c hc
    simp only [e]
    exact (h i).meas x v (hsc i ▸ hv) d hd
  · intro x v hv c hc
    obtain ⟨i, d, hd, e⟩ := key c hc
    simp only [e]
    exact (h i).int x v (hsc i ▸ hv) d hd

theorem visit_marg {μ : Measure ℝ} {ρ : Rule} : ∀ u, MargInputs μ ρ u → ∀ q, visit ρ u = .ok q → QMarg μ q
  | .input xs z g mat, hm, q, h => by
    simp only [visit] at h
    cases h
    exact ⟨hm.loc, hm.meas, hm.int⟩
  | .sum n us w z, hm, q, h => by
    simp only [visit, bind, Except.bind, throw, throwThe, MonadExceptOf.throw] at h
    cases hl : (List.ofFn fun i => visit ρ (us i)).mapM id with
    | error e => rw [hl] at h; cases h
    | ok l =>
      rw [hl] at h
      dsimp only at h
      have hF := mapM_id_ok _ _ hl
      have hlen : l.length = n := by rw [← hF.length_eq]; simp
      split at h
      · cases h
      · cases hc : mkCat l with
        | error e => rw [hc] at h; cases h
        | ok c =>
          rw [hc] at h
          obtain ⟨rfl, hw⟩ := mkWSum_ok h
          unfold mkCat at hc
          split at hc
          · cases hc
          · rename_i hsc
            split at hc
            · cases hc
            · rename_i h0
              cases hc
              refine qmarg_wsum (qmarg_cat (by omega) ?_ ?_) hw
              · intro j
                have hj : (j : ℕ) < n := hlen ▸ j.2
                refine visit_marg (us ⟨j, hj⟩) (hm _) _ ?_
                have := List.Forall₂.get hF (i := j) (by simpa using hj) j.2
                simpa using this
              · intro i j
                exact not_not.1 hsc _ (List.get_mem _ _) _ (List.get_mem _ _)
  | .prod l r, hm, q, h => by
    simp only [visit, bind, Except.bind, pure, Except.pure, throw, throwThe, MonadExceptOf.throw] at h
    cases hql : visit ρ l with
    | error e => rw [hql] at h; cases h
    | ok ql =>
      cases hqr : visit ρ r with
      | error e => rw [hql, hqr] at h; cases h
      | ok qr =>
        rw [hql, hqr] at h
        dsimp only at h
        have il := visit_marg l hm.1 ql hql
        have ir := visit_marg r hm.2 qr hqr
        split at h
        · cases h
        · rename_i hd
          have hd' : Disjoint ql.scope qr.scope := not_not.1 hd
          split at h
          · split at h
            · cases h
            · rename_i hch
              cases h
              have hch' := not_not.1 hch
              refine qmarg_mul il ir hd' (q := .elem ql qr) rfl (fun c => if ql.ch = 1 then 0 else c)
                (fun c => if qr.ch = 1 then 0 else c) (fun x c => rfl) ?_ ?_
              · intro c hc
                have hc' : c < max ql.ch qr.ch := hc
                split
                · omega
                · rcases hch'.1 with h1 | h1
                  · omega
                  · rw [h1]; exact hc'
              · intro c hc
                have hc' : c < max ql.ch qr.ch := hc
                split
                · omega
                · rcases hch'.2 with h1 | h1
                  · omega
                  · rw [h1]; exact hc'
          · cases h
            refine qmarg_mul il ir hd' (q := .outer ql qr) rfl (fun c => c / qr.ch) (fun c => c % qr.ch)
              (fun x c => rfl) ?_ ?_
            · intro c hc
              exact Nat.div_lt_of_lt_mul (by rw [mul_comm]; exact hc)
            · intro c hc
              refine Nat.mod_lt _ ?_
              have hc' : c < ql.ch * qr.ch := hc
              exact Nat.pos_of_ne_zero fun h0 => by rw [h0] at hc'; omega
  | .integral u z y f, hm, q, h => by
    simp only [visit, bind, Except.bind, throw, throwThe, MonadExceptOf.throw] at h
    cases hqu : visit ρ u with
    | error e => rw [hqu] at h; cases h
    | ok qu =>
      rw [hqu] at h
      dsimp only at h
      have iu := visit_marg u hm qu hqu
      split at h
      · cases h
      · cases f with
        | none => cases h
        | some f =>
          obtain ⟨rfl, hw⟩ := mkWSum_ok h
          exact qmarg_wsum iu hw

/-- **C63, marginals.** For every PIC whose input units are densities (a missing value is an integral), every QPC that
`pic2qpc` returns computes exact marginals: evaluating a row with variable `v` missing is integrating the
likelihood over `v`. No coherence, normalisation or ordering assumption is needed. -/
theorem C63_missing_is_integral {μ : Measure ℝ} {ρ : Rule} {u : Pic} (hm : MargInputs μ ρ u) {q : Q}
    (hq : pic2qpc ρ u = .ok q) (x : Row) {v : Var} (hv : v ∈ q.scope) {c : ℕ} (hc : c < q.ch) :
    ∫⁻ t, ENNReal.ofReal (expL (q.ll (Function.update x v (some t)) c)) ∂μ =
      ENNReal.ofReal (expL (q.ll (Function.update x v none) c)) := by
  unfold pic2qpc at hq
  split at hq
  · cases hq
  · exact (visit_marg u hm q hq).int x v hv c hc

end Verif.PicQ

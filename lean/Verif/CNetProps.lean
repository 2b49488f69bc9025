import Verif.CNet
import Verif.LearnSpnProps

/-!
# Property C33: cutset networks
-/

namespace Verif.CNet

open Verif Verif.Circ Verif.Build Verif.LearnSpn MeasureTheory

variable {μ : Var → Measure ℝ} {cfg : Cfg} {fit : List Obs → List Var → Circ} {order : List Var}

/-! ## Specification -/

/-- The recursion splits this slice on `v`. -/
structure Splits (cfg : Cfg) (order : List Var) (rows : List Obs) (scope : List Var) (v : Var) : Prop where
  feats : cfg.minF < scope.length
  insts : cfg.minI ≤ rows.length
  var : condVar order scope = some v
  rest : scope.filter (· ≠ v) ≠ []

/-- The slices reached by conditioning on values that occur. -/
inductive Visit (cfg : Cfg) (order : List Var) : List Obs → List Var → List Obs → List Var → Prop
  | here {rows scope} : Visit cfg order rows scope rows scope
  | step {rows scope v val r s} : Splits cfg order rows scope v → val < cfg.card v → slice rows v val ≠ [] →
      Visit cfg order (slice rows v val) (scope.filter (· ≠ v)) r s → Visit cfg order rows scope r s

/-- Split on a variable of which at least two values occur but not all. -/
def Gap (cfg : Cfg) (order : List Var) (rows : List Obs) (scope : List Var) : Prop :=
  ∃ v, Splits cfg order rows scope v ∧ (∃ a < cfg.card v, slice rows v a = []) ∧
    ∃ a < cfg.card v, ∃ b < cfg.card v, a ≠ b ∧ slice rows v a ≠ [] ∧ slice rows v b ≠ []

/-- No visited slice has a gap. -/
def NoGap (cfg : Cfg) (order : List Var) (rows : List Obs) (scope : List Var) : Prop :=
  ∀ r s, Visit cfg order rows scope r s → ¬ Gap cfg order r s

/-- Every terminal slice over several variables has at least two rows. -/
def Fitted (cfg : Cfg) (order : List Var) (rows : List Obs) (scope : List Var) : Prop :=
  ∀ r s, Visit cfg order rows scope r s → (∀ v, ¬ Splits cfg order r s v) → 2 ≤ s.length → 2 ≤ r.length

/-- Where a row ends: the rows and variables of the leaf that evaluates it (no rows if its value never occurred). -/
inductive Follow (cfg : Cfg) (order : List Var) (x : Obs) : List Obs → List Var → List Obs → List Var → Prop
  | stop {rows scope} : (∀ v, ¬ Splits cfg order rows scope v) → Follow cfg order x rows scope rows scope
  | dead {rows scope v} : Splits cfg order rows scope v → slice rows v (x v) = [] →
      Follow cfg order x rows scope [] (scope.filter (· ≠ v))
  | step {rows scope v r s} : Splits cfg order rows scope v → slice rows v (x v) ≠ [] →
      Follow cfg order x (slice rows v (x v)) (scope.filter (· ≠ v)) r s → Follow cfg order x rows scope r s

/-- Admissible arguments. -/
structure CfgOk (cfg : Cfg) (S : List Var) : Prop where
  outCh : 1 ≤ cfg.outCh
  alpha : 0 < cfg.alpha
  card : ∀ v ∈ S, 2 ≤ cfg.card v
  nonneg : ∀ v ∈ S, 0 ≤ v

/-- Fitted leaves are circuits over the asked variables, normalised for `μ`, with `out_channels` channels. -/
def FitOk (μ : Var → Measure ℝ) (cfg : Cfg) (fit : List Obs → List Var → Circ) (S : List Var) : Prop :=
  ∀ rows q, q ⊆ S → q ≠ [] → q.Nodup → Ok μ (· ∈ q) (fit rows q) ∧ C (fit rows q) = cfg.outCh

/-- Every declared value of every variable has reference mass one (e.g. counting measure). -/
def Points (μ : Var → Measure ℝ) (cfg : Cfg) (S : List Var) : Prop :=
  ∀ v ∈ S, ∀ a < cfg.card v, μ v {(a : ℝ)} = 1

/-- All values are within the cardinalities. -/
def DataOk (cfg : Cfg) (rows : List Obs) (S : List Var) : Prop := ∀ x ∈ rows, ∀ v ∈ S, x v < cfg.card v

/-! ## Proofs -/

theorem expL_ind (val : ℕ) (t : ℝ) : expL (indLL val t) = Set.indicator {(val : ℝ)} (fun _ => 1) t := by
  unfold indLL Set.indicator
  by_cases h : t = (val : ℝ)
  · simp [h]
  · simp [h]

theorem ind_dens {v : Var} {val : ℕ} (h : μ v {(val : ℝ)} = 1) : DensOk μ [v] fun _ _ _ => indLL val := by
  intro i hi ch r
  have hi0 : i = 0 := by simpa using hi
  subst hi0
  have hm : MeasurableSet {(val : ℝ)} := measurableSet_singleton _
  refine ⟨?_, ?_⟩
  · simp only [expL_ind]
    exact measurable_const.indicator hm
  · simp only [expL_ind, List.getElem_cons_zero]
    have : (fun t => ENNReal.ofReal (Set.indicator {(val : ℝ)} (fun _ => (1 : ℝ)) t)) =
        Set.indicator {(val : ℝ)} fun _ => (1 : ENNReal) := by
      funext t
      by_cases ht : t ∈ ({(val : ℝ)} : Set ℝ)
      · rw [Set.indicator_of_mem ht, Set.indicator_of_mem ht]; simp
      · rw [Set.indicator_of_notMem ht, Set.indicator_of_notMem ht]; simp
    rw [this, lintegral_indicator_const hm, h, one_mul]

theorem leaf_ok {S : List Var} (hc : CfgOk cfg S) (hf : FitOk μ cfg fit S) {q : List Var} (hq : q ⊆ S) (hne : q ≠ [])
    (hnd : q.Nodup) (rows : List Obs) :
    ∃ n, createLeaf cfg fit rows q = .ok n ∧ n.circ = fit rows q ∧ Ok μ (· ∈ q) n.circ ∧ C n.circ = cfg.outCh ∧
      (n.ready = true ↔ (2 ≤ q.length → 2 ≤ rows.length)) := by
  obtain ⟨h1, h2⟩ := hf rows q hq hne hnd
  unfold createLeaf
  by_cases hl : 2 ≤ q.length
  · rw [if_pos hl, if_neg, if_neg (by have := hc.alpha; linarith)]
    · exact ⟨_, rfl, rfl, h1, h2, by simp [hl]⟩
    · obtain ⟨a, q', rfl⟩ := List.exists_cons_of_ne_nil hne
      have := hc.card a (hq (by simp))
      simp only [List.map_cons, List.foldr_cons]
      omega
  · rw [if_neg hl]
    obtain ⟨a, q', rfl⟩ := List.exists_cons_of_ne_nil hne
    exact ⟨_, rfl, rfl, h1, h2, ⟨fun _ h => absurd h hl, fun _ => rfl⟩⟩

theorem condVar_mem {scope : List Var} {v : Var} (h : condVar order scope = some v) : v ∈ scope := by
  have := List.find?_some h
  simpa using this

theorem splits_unique {rows : List Obs} {scope : List Var} {v w : Var} (h : Splits cfg order rows scope v)
    (h' : Splits cfg order rows scope w) : v = w := by
  have := h.var.symm.trans h'.var
  simpa using this

/-- What `build` does at a terminal slice ... -/
theorem build_stop {fuel : ℕ} {rows : List Obs} {scope : List Var} (h : ∀ v, ¬ Splits cfg order rows scope v) :
    build cfg fit order (fuel + 1) rows scope = createLeaf cfg fit rows scope := by
  unfold build
  split
  · rfl
  · rename_i hcond
    push Not at hcond
    split
    · rfl
    · rename_i v hv
      split
      · rfl
      · rename_i hr
        exact absurd ⟨hcond.1, hcond.2, hv, hr⟩ (h v)

/-- ... and at a split. -/
theorem build_split {fuel : ℕ} {rows : List Obs} {scope : List Var} {v : Var} (h : Splits cfg order rows scope v) :
    build cfg fit order (fuel + 1) rows scope =
      finish cfg (weights rows v (cfg.card v)) ((List.range (cfg.card v)).mapM
        (branch cfg fit (build cfg fit order fuel) rows (scope.filter (· ≠ v)) v)) := by
  have h1 := h.feats
  have h2 := h.insts
  conv_lhs => unfold build
  rw [if_neg (by omega), h.var]
  simp only
  rw [if_neg h.rest]

theorem slice_sub (rows : List Obs) (v : Var) (a : ℕ) : slice rows v a ⊆ rows := List.filter_subset_self _

theorem sum_slices (rows : List Obs) (v : Var) (K : ℕ) (h : ∀ x ∈ rows, x v < K) :
    ((List.range K).map fun a => (slice rows v a).length).sum = rows.length := by
  induction rows with
  | nil => simp [slice]
  | cons x rows ih =>
    have hx := h x (by simp)
    have ih := ih fun y hy => h y (by simp [hy])
    have e : ∀ a, (slice (x :: rows) v a).length = (slice rows v a).length + if x v = a then 1 else 0 := by
      intro a
      unfold slice
      rw [List.filter_cons]
      by_cases hxa : x v = a <;> simp [hxa]
    simp only [e]
    have : ((List.range K).map fun a => (slice rows v a).length + if x v = a then 1 else 0).sum =
        ((List.range K).map fun a => (slice rows v a).length).sum + ((List.range K).map fun a => if x v = a then 1 else 0).sum := by
      rw [List.sum_map_add]
    rw [this, ih, List.length_cons]
    congr 1
    have h2 : ((List.range K).map fun a => if x v = a then 1 else 0).sum = ∑ a ∈ Finset.range K, if x v = a then 1 else 0 := rfl
    rw [h2, Finset.sum_ite_eq]
    simp [hx]

/-- The weights are the fractions of rows. -/
theorem weights_eq {rows : List Obs} {v : Var} {K : ℕ} (hne : rows ≠ []) (h : ∀ x ∈ rows, x v < K) :
    weights rows v K = (List.range K).map fun a => ((slice rows v a).length : ℝ) / rows.length := by
  have hs : ((List.range K).map fun a => ((slice rows v a).length : ℝ)).sum = rows.length := by
    have := congrArg (Nat.cast : ℕ → ℝ) (sum_slices rows v K h)
    rw [← this]
    induction List.range K with
    | nil => simp
    | cons a l ih => simp [ih]
  have hpos : (rows.length : ℝ) ≠ 0 := by
    have := List.length_pos_of_ne_nil hne
    positivity
  unfold weights
  simp only
  rw [hs, if_neg hpos, List.map_map]
  rfl

theorem mapM_dichotomy {α β ε : Type} {f : α → Except ε β} {e : ε} (l : List α)
    (h : ∀ a ∈ l, (∃ b, f a = .ok b) ∨ f a = .error e) (hbad : ∃ a ∈ l, f a = .error e) : l.mapM f = .error e := by
  induction l with
  | nil => simp at hbad
  | cons a l ih =>
    rw [List.mapM_cons]
    rcases h a (by simp) with ⟨b, hb⟩ | he
    · obtain ⟨c, hc, hce⟩ := hbad
      rcases List.mem_cons.1 hc with rfl | hc
      · rw [hb] at hce; cases hce
      · rw [hb, show l.mapM f = .error e from ih (fun x hx => h x (by simp [hx])) ⟨c, hc, hce⟩]
        rfl
    · rw [he]; rfl

/-- One branch. -/
theorem branch_ok {S : List Var} (hc : CfgOk cfg S) (hμ : Points μ cfg S) {rest : List Var} {v : Var}
    (hv : v ∈ S) (hvr : v ∉ rest)
    {sub : List Obs → List Var → Except Exc Net} {rows : List Obs} {val : ℕ} (hval : val < cfg.card v) {s : Net}
    (hs : (if slice rows v val = [] then createLeaf cfg fit [] rest else sub (slice rows v val) rest) = .ok s)
    (hok : Ok μ (· ∈ rest) s.circ) (hC : C s.circ = cfg.outCh) :
    ∃ n, branch cfg fit sub rows rest v val = .ok n ∧ n.ready = s.ready ∧ Ok μ (fun w => w = v ∨ w ∈ rest) n.circ ∧
      C n.circ = cfg.outCh ∧ ∀ (x : Obs) k, expL (featAt (den n.circ) 0 (fun w => some (x w : ℝ)) 0 k) =
        if x v = val then expL (featAt (den s.circ) 0 (fun w => some (x w : ℝ)) 0 k) else 0 := by
  obtain ⟨hl1, hl2⟩ := leaf_pre (μ := μ) (q := [v]) (C := cfg.outCh) (d := fun _ _ _ => indLL val)
    (by simpa using hc.nonneg v hv) (by simp) hc.outCh (ind_dens (hμ v hv val hval))
  obtain ⟨p, hp, hpok, hpC⟩ := prod_ok (μ := μ) (l := [leaf [v] cfg.outCh 1 fun _ _ _ => indLL val, s.circ]) (by simp)
    (K := cfg.outCh) (Vs := fun m w => w ∈ (Circ.scope m).query)
    (by
      intro m hm
      simp only [List.mem_cons, List.not_mem_nil, or_false] at hm
      rcases hm with rfl | rfl
      · exact hl2.congr fun w => (hl2.sc w).symm
      · exact hok.toPre.congr fun w => (hok.sc w).symm)
    (by
      intro m hm
      simp only [List.mem_cons, List.not_mem_nil, or_false] at hm
      rcases hm with rfl | rfl
      · rfl
      · exact hC)
    (by
      simp only [List.pairwise_cons, List.mem_singleton, forall_eq, List.not_mem_nil, false_imp_iff, implies_true,
        List.Pairwise.nil, and_true]
      intro w hw hw'
      have h1 := (hl2.sc w).1 hw
      have h2 := (hok.sc w).1 hw'
      simp only [List.mem_singleton] at h1
      exact hvr (h1 ▸ h2))
  refine ⟨⟨p, s.ready⟩, ?_, rfl, hpok.congr fun w => ?_, hpC, fun x k => ?_⟩
  · unfold branch
    rw [hl1]
    simp only
    rw [hs]
    simp only
    rw [hp]
  · constructor
    · rintro ⟨m, hm, hw⟩
      simp only [List.mem_cons, List.not_mem_nil, or_false] at hm
      rcases hm with rfl | rfl
      · exact .inl (by simpa using (hl2.sc w).1 hw)
      · exact .inr ((hok.sc w).1 hw)
    · rintro (rfl | hw)
      · exact ⟨_, by simp, (hl2.sc _).2 (by simp)⟩
      · exact ⟨_, by simp, (hok.sc w).2 hw⟩
  · rw [mkProd_value hp]
    simp only [List.map_cons, List.map_nil, List.prod_cons, List.prod_nil, mul_one]
    rw [joint_one hok.one, joint_one (by rfl), featAt_leaf (v := v) (by rfl)]
    simp only [expL_ind]
    by_cases hx : x v = val
    · simp [hx]
    · rw [Set.indicator_of_notMem (by simpa using hx), if_neg hx, zero_mul]

instance : Inhabited Net := ⟨⟨leaf [] 0 0 fun _ _ _ _ => ⊥, false⟩⟩

theorem eq_map_getD {α : Type} [Inhabited α] (l : List α) : l = (List.range l.length).map fun a => l.getD a default := by
  apply List.ext_getElem
  · simp
  · intro i h1 h2
    rw [List.getElem_map, List.getElem_range, List.getD_eq_getElem _ _ h1]

theorem filter_range_singleton {K a : ℕ} {p : ℕ → Bool} (ha : a < K) (h : ∀ b < K, p b = true ↔ b = a) :
    (List.range K).filter p = [a] := by
  have h1 : ((List.range K).filter p).Perm [a] := by
    rw [List.perm_ext_iff_of_nodup (List.nodup_range.filter _) (by simp)]
    intro b
    simp only [List.mem_filter, List.mem_range, List.mem_singleton]
    constructor
    · rintro ⟨h1, h2⟩; exact (h b h1).1 h2
    · rintro rfl; exact ⟨ha, (h b ha).2 rfl⟩
  exact List.perm_singleton.1 h1

/-- The end of a split, when the branches were built. -/
theorem combine_spec {V : Var → Prop} (hout : 1 ≤ cfg.outCh) {rows : List Obs} (hne : rows ≠ []) {v : Var} {K : ℕ}
    (hd : ∀ x ∈ rows, x v < K) {g : ℕ → Net} (hok : ∀ a < K, Ok μ V (g a).circ) (hC : ∀ a < K, C (g a).circ = cfg.outCh) :
    (((∃ a < K, slice rows v a = []) ∧ ∃ a < K, ∃ b < K, a ≠ b ∧ slice rows v a ≠ [] ∧ slice rows v b ≠ []) →
      combine cfg (weights rows v K) ((List.range K).map g) = .error .invalidWeights) ∧
    (¬ ((∃ a < K, slice rows v a = []) ∧ ∃ a < K, ∃ b < K, a ≠ b ∧ slice rows v a ≠ [] ∧ slice rows v b ≠ []) →
      ∃ n, combine cfg (weights rows v K) ((List.range K).map g) = .ok n ∧ Ok μ V n.circ ∧ C n.circ = cfg.outCh ∧
        (n.ready = true ↔ ∀ a < K, slice rows v a ≠ [] → (g a).ready = true) ∧
        (cfg.outCh = 1 → ∀ x,
          expL (featAt (den n.circ) 0 x 0 0) = ∑ a ∈ Finset.range K,
            ((slice rows v a).length : ℝ) / rows.length * expL (featAt (den (g a).circ) 0 x 0 0))) := by
  have hrl : (0 : ℝ) < rows.length := by
    have := List.length_pos_of_ne_nil hne
    positivity
  have hpos : ∀ a, 0 < ((slice rows v a).length : ℝ) / rows.length ↔ slice rows v a ≠ [] := by
    intro a
    rw [div_pos_iff_of_pos_right hrl, Nat.cast_pos, List.length_pos_iff]
  have hzip : ∀ {β : Type} (f : ℕ → β), (weights rows v K).zip ((List.range K).map f) =
      (List.range K).map fun a => (((slice rows v a).length : ℝ) / rows.length, f a) := by
    intro β f
    rw [weights_eq hne hd]
    apply List.ext_getElem
    · simp
    · intro i h1 h2; simp
  have hex : ∃ a < K, slice rows v a ≠ [] := by
    obtain ⟨x, hx⟩ := List.exists_mem_of_ne_nil _ hne
    exact ⟨x v, hd x hx, List.ne_nil_of_mem (a := x) (by simp [slice, hx])⟩
  have hmapc : ((List.range K).map g).map Net.circ = (List.range K).map fun a => (g a).circ := by simp
  have hsumw : ((List.range K).map fun a => ((slice rows v a).length : ℝ) / rows.length).sum = 1 := by
    have h1 := congrArg (Nat.cast : ℕ → ℝ) (sum_slices rows v K hd)
    have h2 : ((List.range K).map fun a => ((slice rows v a).length : ℝ) / rows.length).sum =
        (((List.range K).map fun a => (slice rows v a).length).sum : ℕ) / (rows.length : ℝ) := by
      induction List.range K with
      | nil => simp
      | cons a l ih => simp [ih, add_div]
    rw [h2, h1, div_self hrl.ne']
  by_cases huniq : ∃ a < K, ∀ b < K, slice rows v b ≠ [] ↔ b = a
  · -- a single branch has data
    obtain ⟨a, ha, hab⟩ := huniq
    have hcomb : combine cfg (weights rows v K) ((List.range K).map g) = .ok (g a) := by
      unfold combine
      rw [hzip, List.filter_map]
      have : (List.range K).filter ((fun b : ℝ × Net => @decide (0 < b.1) (Classical.propDecidable _)) ∘
          fun b => (((slice rows v b).length : ℝ) / rows.length, g b)) = [a] := by
        apply filter_range_singleton ha
        intro b hb
        simp only [Function.comp_apply, decide_eq_true_eq]
        rw [hpos b, hab b hb]
      rw [this]
      rfl
    constructor
    · rintro ⟨_, b, hb, c, hc, hbc, h1, h2⟩
      exact absurd (((hab b hb).1 h1).trans ((hab c hc).1 h2).symm) hbc
    · intro _
      refine ⟨g a, hcomb, hok a ha, hC a ha, ?_, ?_⟩
      · constructor
        · intro h b hb hbn
          rw [(hab b hb).1 hbn]; exact h
        · intro h; exact h a ha ((hab a ha).2 rfl)
      · intro _ x
        rw [Finset.sum_eq_single a]
        · have hfrac : ((slice rows v a).length : ℝ) / rows.length = 1 := by
            rw [← hsumw]
            have e : ((List.range K).map fun a => ((slice rows v a).length : ℝ) / rows.length).sum =
              ∑ b ∈ Finset.range K, ((slice rows v b).length : ℝ) / rows.length := rfl
            rw [e, Finset.sum_eq_single a]
            · intro b hb hba
              have : slice rows v b = [] := by
                by_contra hcon
                exact hba ((hab b (Finset.mem_range.1 hb)).1 hcon)
              rw [this]; simp
            · intro h; exact absurd (Finset.mem_range.2 ha) h
          rw [hfrac, one_mul]
        · intro b hb hba
          have : slice rows v b = [] := by
            by_contra hcon
            exact hba ((hab b (Finset.mem_range.1 hb)).1 hcon)
          rw [this]; simp
        · intro h; exact absurd (Finset.mem_range.2 ha) h
  · -- several
    obtain ⟨a0, ha0, hn0⟩ := hex
    have htwo : ∃ b < K, b ≠ a0 ∧ slice rows v b ≠ [] := by
      by_contra hcon
      push Not at hcon
      exact huniq ⟨a0, ha0, fun b hb => ⟨fun h => by
        by_contra hne'; exact h (hcon b hb hne'), fun h => h ▸ hn0⟩⟩
    obtain ⟨b0, hb0, hne0, hnb0⟩ := htwo
    have hcomb : combine cfg (weights rows v K) ((List.range K).map g) =
        match mkSum (((weights rows v K).zip (((List.range K).map g).map Net.circ)).map Prod.snd)
          (spreadW cfg.outCh ((weights rows v K).zip (((List.range K).map g).map Net.circ))) with
        | .error e => .error e
        | .ok c => .ok ⟨c, ((List.range K).map g).all Net.ready⟩ := by
      unfold combine
      rw [hzip]
      split
      · rename_i a hflt
        exfalso
        have hmem : ∀ c < K, slice rows v c ≠ [] → (((slice rows v c).length : ℝ) / rows.length, g c) = a := by
          intro c hc hcn
          have : (((slice rows v c).length : ℝ) / rows.length, g c) ∈ [a] := by
            rw [← hflt, List.mem_filter]
            exact ⟨List.mem_map.2 ⟨c, by simpa using hc, rfl⟩, by simpa using (hpos c).2 hcn⟩
          simpa using this
        have hl : ((List.range K).filter fun c => slice rows v c ≠ []).length = 1 := by
          have := congrArg List.length hflt
          rw [List.filter_map, List.length_map] at this
          rw [← List.length_singleton (a := a), ← this]
          congr 1
          apply List.filter_congr
          intro c _
          simp only [Function.comp_apply, decide_eq_decide]
          exact (hpos c).symm
        obtain ⟨c, hc⟩ := List.length_eq_one_iff.1 hl
        have h1 : a0 ∈ [c] := by rw [← hc]; simp [ha0, hn0]
        have h2 : b0 ∈ [c] := by rw [← hc]; simp [hb0, hnb0]
        simp only [List.mem_singleton] at h1 h2
        exact hne0 (h2.trans h1.symm)
      · rfl
    have hz : (weights rows v K).zip (((List.range K).map g).map Net.circ) =
        (List.range K).map fun a => (((slice rows v a).length : ℝ) / rows.length, (g a).circ) := by
      rw [hmapc, hzip]
    rw [hz] at hcomb
    have hmem : ∀ a ∈ (List.range K).map (fun a => (((slice rows v a).length : ℝ) / rows.length, (g a).circ)),
        Ok μ V a.2 := by
      intro a ha
      obtain ⟨b, hb, rfl⟩ := List.mem_map.1 ha
      exact hok b (by simpa using hb)
    have hK2 : 2 ≤ K := by omega
    constructor
    · rintro ⟨⟨a, ha, han⟩, _⟩
      rw [hcomb, sum_bad (μ := μ) hout (by simpa using hK2) hmem]
      exact ⟨_, List.mem_map.2 ⟨a, by simpa using ha, rfl⟩, by simp [han]⟩
    · intro hng
      have hall : ∀ a < K, slice rows v a ≠ [] := by
        intro a ha han
        exact hng ⟨⟨a, ha, han⟩, a0, ha0, b0, hb0, Ne.symm hne0, hn0, hnb0⟩
      obtain ⟨c, h1, h2, h3, h4⟩ := sum_okN (μ := μ) hout
        (l := (List.range K).map fun a => (((slice rows v a).length : ℝ) / rows.length, (g a).circ))
        (by simp; omega) hmem
        (by
          intro a ha
          obtain ⟨b, hb, rfl⟩ := List.mem_map.1 ha
          exact (hpos b).2 (hall b (by simpa using hb)))
        (by rw [List.map_map]; exact hsumw)
      refine ⟨⟨c, ((List.range K).map g).all Net.ready⟩, ?_, h2, h3, ?_, ?_⟩
      · rw [hcomb, h1]
      · simp only [List.all_eq_true, List.mem_map, List.mem_range, forall_exists_index, and_imp, forall_apply_eq_imp_iff₂]
        exact ⟨fun h a ha _ => h a ha, fun h a ha => h a ha (hall a ha)⟩
      · intro ho x
        rw [h4 x 0 (by omega), List.map_map]
        have e : ∀ f : ℕ → ℝ, ((List.range K).map f).sum = ∑ a ∈ Finset.range K, f a := fun _ => rfl
        rw [e]
        refine Finset.sum_congr rfl fun a ha => ?_
        simp only [Function.comp_apply]
        rw [hC a (Finset.mem_range.1 ha), ho]
        simp

theorem noGap_slice {rows : List Obs} {scope : List Var} {v : Var} {a : ℕ} (h : NoGap cfg order rows scope)
    (hs : Splits cfg order rows scope v) (ha : a < cfg.card v) (hne : slice rows v a ≠ []) :
    NoGap cfg order (slice rows v a) (scope.filter (· ≠ v)) := fun r s hv => h r s (.step hs ha hne hv)

theorem noGap_iff {rows : List Obs} {scope : List Var} {v : Var} (hs : Splits cfg order rows scope v) :
    NoGap cfg order rows scope ↔ ¬ Gap cfg order rows scope ∧
      ∀ a < cfg.card v, slice rows v a ≠ [] → NoGap cfg order (slice rows v a) (scope.filter (· ≠ v)) := by
  constructor
  · intro h
    exact ⟨h _ _ .here, fun a ha hne => noGap_slice h hs ha hne⟩
  · rintro ⟨h1, h2⟩ r s hv
    cases hv with
    | here => exact h1
    | @step _ _ w val _ _ hsw hval hne hv =>
      have := splits_unique hs hsw
      subst this
      exact h2 _ hval hne r s hv

theorem fitted_iff {rows : List Obs} {scope : List Var} {v : Var} (hs : Splits cfg order rows scope v) :
    Fitted cfg order rows scope ↔
      ∀ a < cfg.card v, slice rows v a ≠ [] → Fitted cfg order (slice rows v a) (scope.filter (· ≠ v)) := by
  constructor
  · intro h a ha hne r s hv
    exact h r s (.step hs ha hne hv)
  · intro h r s hv hstop
    cases hv with
    | here => exact absurd hs (hstop v)
    | @step _ _ w val _ _ hsw hval hne hv =>
      have := splits_unique hs hsw
      subst this
      exact h _ hval hne r s hv hstop

theorem gap_iff {rows : List Obs} {scope : List Var} {v : Var} (hs : Splits cfg order rows scope v) :
    Gap cfg order rows scope ↔ ((∃ a < cfg.card v, slice rows v a = []) ∧
      ∃ a < cfg.card v, ∃ b < cfg.card v, a ≠ b ∧ slice rows v a ≠ [] ∧ slice rows v b ≠ []) := by
  constructor
  · rintro ⟨w, hw, h⟩
    have := splits_unique hs hw
    subst this
    exact h
  · intro h; exact ⟨v, hs, h⟩

theorem build_spec {S : List Var} (hc : CfgOk cfg S) (hf : FitOk μ cfg fit S) (hμ : Points μ cfg S) (fuel : ℕ) :
    ∀ (rows : List Obs) (scope : List Var), scope ⊆ S → scope ≠ [] → scope.Nodup → rows ≠ [] → DataOk cfg rows S →
      scope.length < fuel →
      (NoGap cfg order rows scope → ∃ n, build cfg fit order fuel rows scope = .ok n ∧ Ok μ (· ∈ scope) n.circ ∧
        C n.circ = cfg.outCh ∧ (n.ready = true ↔ Fitted cfg order rows scope) ∧
        (cfg.outCh = 1 → ∀ x : Obs, (∀ v ∈ S, x v < cfg.card v) → ∃ r s, Follow cfg order x rows scope r s ∧
          expL (featAt (den n.circ) 0 (fun v => some (x v : ℝ)) 0 0) =
            (r.length : ℝ) / rows.length * expL (featAt (den (fit r s)) 0 (fun v => some (x v : ℝ)) 0 0))) ∧
      (¬ NoGap cfg order rows scope → build cfg fit order fuel rows scope = .error .invalidWeights) := by
  induction fuel with
  | zero => intro rows scope _ _ _ _ _ h; omega
  | succ fuel ih =>
    intro rows scope hsub hne hnd hrne hdata hfuel
    have hrl : (0 : ℝ) < rows.length := by
      have := List.length_pos_of_ne_nil hrne
      positivity
    by_cases hsp : ∃ v, Splits cfg order rows scope v
    swap
    · push Not at hsp
      have hvis : ∀ r s, Visit cfg order rows scope r s → r = rows ∧ s = scope := by
        intro r s h
        cases h with
        | here => exact ⟨rfl, rfl⟩
        | step hs _ _ _ => exact absurd hs (hsp _)
      rw [build_stop hsp]
      obtain ⟨n, h1, h0, h2, h3, h4⟩ := leaf_ok hc hf hsub hne hnd rows
      refine ⟨fun _ => ⟨n, h1, h2, h3, ?_, ?_⟩, fun hng => ?_⟩
      · rw [h4]
        constructor
        · intro h r s hv _ hl
          obtain ⟨rfl, rfl⟩ := hvis r s hv
          exact h hl
        · intro h; exact h _ _ .here hsp
      · intro _ x _
        refine ⟨rows, scope, .stop hsp, ?_⟩
        rw [h0, div_self hrl.ne', one_mul]
      · exfalso
        apply hng
        intro r s hv
        obtain ⟨rfl, rfl⟩ := hvis r s hv
        rintro ⟨v, hv, _⟩
        exact hsp v hv
    obtain ⟨v, hs⟩ := hsp
    have hvs := condVar_mem hs.var
    have hvS := hsub hvs
    set rest := scope.filter (· ≠ v) with hrest
    have hrsub : rest ⊆ S := fun w hw => hsub (List.mem_of_mem_filter hw)
    have hrnd : rest.Nodup := hnd.filter _
    have hvr : v ∉ rest := by simp [hrest]
    have hrlt : rest.length < scope.length := by
      rw [hrest]
      exact List.length_filter_lt_length_iff_exists.2 ⟨v, hvs, by simp⟩
    have hd : ∀ x ∈ rows, x v < cfg.card v := fun x hx => hdata x hx v hvS
    have hV : ∀ w, (w = v ∨ w ∈ rest) ↔ w ∈ scope := by
      intro w
      rw [hrest, List.mem_filter]
      by_cases hw : w = v
      · subst hw; simp [hvs]
      · simp [hw]
    -- the sub-network for one value
    have hsubnet : ∀ a < cfg.card v, (slice rows v a ≠ [] → NoGap cfg order (slice rows v a) rest) →
        ∃ s, (if slice rows v a = [] then createLeaf cfg fit [] rest else build cfg fit order fuel (slice rows v a) rest) = .ok s ∧
          Ok μ (· ∈ rest) s.circ ∧ C s.circ = cfg.outCh ∧
          (slice rows v a ≠ [] → (s.ready = true ↔ Fitted cfg order (slice rows v a) rest) ∧
            (cfg.outCh = 1 → ∀ x : Obs, (∀ v ∈ S, x v < cfg.card v) → ∃ r s', Follow cfg order x (slice rows v a) rest r s' ∧
          expL (featAt (den s.circ) 0 (fun v => some (x v : ℝ)) 0 0) =
            (r.length : ℝ) / (slice rows v a).length * expL (featAt (den (fit r s')) 0 (fun v => some (x v : ℝ)) 0 0))) := by
      intro a _ hng
      by_cases hsl : slice rows v a = []
      · obtain ⟨n, h1, _, h2, h3, _⟩ := leaf_ok hc hf hrsub hs.rest hrnd []
        exact ⟨n, by rw [if_pos hsl]; exact h1, h2, h3, fun h => absurd hsl h⟩
      · obtain ⟨n, h1, h2, h3, h4, h5⟩ := (ih (slice rows v a) rest hrsub hs.rest hrnd hsl
          (fun x hx => hdata x (slice_sub _ _ _ hx)) (by omega)).1 (hng hsl)
        exact ⟨n, by rw [if_neg hsl]; exact h1, h2, h3, fun _ => ⟨h4, h5⟩⟩
    -- the branch for one value
    have hbranch : ∀ a < cfg.card v, (slice rows v a ≠ [] → NoGap cfg order (slice rows v a) rest) →
        ∃ n, branch cfg fit (build cfg fit order fuel) rows rest v a = .ok n ∧ Ok μ (· ∈ scope) n.circ ∧
          C n.circ = cfg.outCh ∧
          (slice rows v a ≠ [] → (n.ready = true ↔ Fitted cfg order (slice rows v a) rest)) ∧
          (∀ x : Obs, x v ≠ a → expL (featAt (den n.circ) 0 (fun v => some (x v : ℝ)) 0 0) = 0) ∧
          (slice rows v a ≠ [] → cfg.outCh = 1 → ∀ x : Obs, (∀ v ∈ S, x v < cfg.card v) → x v = a →
            ∃ r s', Follow cfg order x (slice rows v a) rest r s' ∧
          expL (featAt (den n.circ) 0 (fun v => some (x v : ℝ)) 0 0) =
            (r.length : ℝ) / (slice rows v a).length * expL (featAt (den (fit r s')) 0 (fun v => some (x v : ℝ)) 0 0)) := by
      intro a ha hng
      obtain ⟨s, h1, h2, h3, h4⟩ := hsubnet a ha hng
      obtain ⟨n, g1, g2, g3, g4, g5⟩ := branch_ok hc hμ hvS hvr ha h1 h2 h3
      refine ⟨n, g1, g3.congr hV, g4, fun h => by rw [g2]; exact (h4 h).1, fun x hx => by rw [g5, if_neg hx], ?_⟩
      intro hsl ho x hx hxa
      obtain ⟨r, s', hfo, he⟩ := (h4 hsl).2 ho x hx
      exact ⟨r, s', hfo, by rw [g5, if_pos hxa]; exact he⟩
    rw [build_split hs]
    by_cases hall : ∀ a < cfg.card v, slice rows v a ≠ [] → NoGap cfg order (slice rows v a) rest
    swap
    · have hngap : ¬ NoGap cfg order rows scope := by
        rw [noGap_iff hs]
        exact fun h => hall h.2
      refine ⟨fun h => absurd h hngap, fun _ => ?_⟩
      push Not at hall
      obtain ⟨a, ha, hsl, hbad⟩ := hall
      have herr : ∀ a, slice rows v a ≠ [] → ¬ NoGap cfg order (slice rows v a) rest → a < cfg.card v →
          branch cfg fit (build cfg fit order fuel) rows rest v a = .error .invalidWeights := by
        intro a hsl hbad ha
        have h1 := (ih (slice rows v a) rest hrsub hs.rest hrnd hsl
          (fun x hx => hdata x (slice_sub _ _ _ hx)) (by omega)).2 hbad
        obtain ⟨hl1, _⟩ := leaf_pre (μ := μ) (q := [v]) (C := cfg.outCh) (d := fun _ _ _ => indLL a)
          (by simpa using hc.nonneg v hvS) (by simp) hc.outCh (ind_dens (hμ v hvS a ha))
        unfold branch
        rw [hl1]
        simp only
        rw [if_neg hsl, h1]
      rw [mapM_dichotomy (e := .invalidWeights) (List.range (cfg.card v)) ?_
        ⟨a, by simpa using ha, herr a hsl hbad ha⟩]
      · rfl
      · intro b hb
        rw [List.mem_range] at hb
        by_cases hgood : slice rows v b ≠ [] → NoGap cfg order (slice rows v b) rest
        · obtain ⟨n, hn, _⟩ := hbranch b hb hgood
          exact .inl ⟨n, hn⟩
        · have h1 : slice rows v b ≠ [] := fun h => hgood fun h' => absurd h h'
          have h2 : ¬ NoGap cfg order (slice rows v b) rest := fun h => hgood fun _ => h
          exact .inr (herr b h1 h2 hb)
    have hex : ∀ a, ∃ n : Net, a < cfg.card v → (branch cfg fit (build cfg fit order fuel) rows rest v a = .ok n ∧
        Ok μ (· ∈ scope) n.circ ∧ C n.circ = cfg.outCh ∧
          (slice rows v a ≠ [] → (n.ready = true ↔ Fitted cfg order (slice rows v a) rest)) ∧
          (∀ x : Obs, x v ≠ a → expL (featAt (den n.circ) 0 (fun v => some (x v : ℝ)) 0 0) = 0) ∧
          (slice rows v a ≠ [] → cfg.outCh = 1 → ∀ x : Obs, (∀ v ∈ S, x v < cfg.card v) → x v = a →
            ∃ r s', Follow cfg order x (slice rows v a) rest r s' ∧
          expL (featAt (den n.circ) 0 (fun v => some (x v : ℝ)) 0 0) =
            (r.length : ℝ) / (slice rows v a).length * expL (featAt (den (fit r s')) 0 (fun v => some (x v : ℝ)) 0 0))) := by
      intro a
      by_cases ha : a < cfg.card v
      · obtain ⟨n, hn⟩ := hbranch a ha (hall a ha)
        exact ⟨n, fun _ => hn⟩
      · exact ⟨default, fun h => absurd h ha⟩
    choose g hg using hex
    have hmap : (List.range (cfg.card v)).mapM (branch cfg fit (build cfg fit order fuel) rows rest v) =
        .ok ((List.range (cfg.card v)).map g) := by
      have : ∀ l : List ℕ, (∀ a ∈ l, a < cfg.card v) →
          l.mapM (branch cfg fit (build cfg fit order fuel) rows rest v) = .ok (l.map g) := by
        intro l
        induction l with
        | nil => intro _; rfl
        | cons a l ih =>
          intro h
          rw [List.mapM_cons, (hg a (h a (by simp))).1]
          simp only [bind, Except.bind]
          rw [ih fun b hb => h b (by simp [hb])]
          rfl
      exact this _ (by simp)
    rw [hmap]
    have hcs := combine_spec (cfg := cfg) (μ := μ) (V := (· ∈ scope)) hc.outCh hrne (v := v) (K := cfg.card v) hd (g := g)
      (fun a ha => (hg a ha).2.1) (fun a ha => (hg a ha).2.2.1)
    rw [← gap_iff hs] at hcs
    rw [noGap_iff hs]
    constructor
    · rintro ⟨hngap, _⟩
      obtain ⟨n, h1, h2, h3, h4, h5⟩ := hcs.2 hngap
      refine ⟨n, h1, h2, h3, ?_, ?_⟩
      · rw [h4, fitted_iff hs]
        exact forall_congr' fun a => forall_congr' fun ha => forall_congr' fun hsl => (hg a ha).2.2.2.1 hsl
      · intro ho x hx
        have hxv := hx v hvS
        have hval : expL (featAt (den n.circ) 0 (fun v => some (x v : ℝ)) 0 0) =
            ((slice rows v (x v)).length : ℝ) / rows.length *
              expL (featAt (den (g (x v)).circ) 0 (fun v => some (x v : ℝ)) 0 0) := by
          rw [h5 ho]
          rw [Finset.sum_eq_single (x v)]
          · intro b hb hbv
            rw [(hg b (Finset.mem_range.1 hb)).2.2.2.2.1 x (Ne.symm hbv), mul_zero]
          · intro h; exact absurd (Finset.mem_range.2 hxv) h
        by_cases hsl : slice rows v (x v) = []
        · refine ⟨[], rest, .dead hs hsl, ?_⟩
          rw [hval, hsl]
          simp
        · obtain ⟨r, s', hfo, he⟩ := (hg (x v) hxv).2.2.2.2.2 hsl ho x hx rfl
          refine ⟨r, s', .step hs hsl hfo, ?_⟩
          rw [hval, he]
          have : ((slice rows v (x v)).length : ℝ) ≠ 0 := by
            have := List.length_pos_of_ne_nil hsl
            positivity
          field_simp
    · intro h
      have : Gap cfg order rows scope := by
        by_contra hcon
        exact h ⟨hcon, hall⟩
      exact hcs.1 this

/-! ## The claims -/

theorem learn_eq {S : List Var} {rows : List Obs} {fuel : ℕ} (hrne : rows ≠ []) (hdata : DataOk cfg rows S) :
    learnCnet cfg fit order fuel rows S = build cfg fit order fuel rows S := by
  unfold learnCnet
  rw [if_neg (fun h => hrne h.2), if_neg]
  rintro ⟨v, hv, x, hx, h⟩
  have := hdata x hx v hv
  omega

/-- C33: on valid data `learn_cnet` stops after at most as many nested calls as there are variables, and either no slice it
visits has a gap (a value that does not occur although two others do) and it returns a smooth, decomposable circuit over
exactly the scope with normalised channels, or it raises InvalidWeightsError.  FALSE part of the property: the latter. -/
theorem C33_learn_partial [∀ v, SigmaFinite (μ v)] {S : List Var} (hc : CfgOk cfg S) (hf : FitOk μ cfg fit S)
    (hμ : Points μ cfg S) (hne : S ≠ []) (hnd : S.Nodup) {rows : List Obs} (hrne : rows ≠ []) (hdata : DataOk cfg rows S)
    {fuel : ℕ} (hfuel : S.length < fuel) :
    (NoGap cfg order rows S → ∃ n, learnCnet cfg fit order fuel rows S = .ok n ∧ LearnSpn.Valid μ S.toFinset n.circ ∧
      C n.circ = cfg.outCh) ∧
    (¬ NoGap cfg order rows S → learnCnet cfg fit order fuel rows S = .error .invalidWeights) := by
  obtain ⟨h1, h2⟩ := build_spec (order := order) hc hf hμ fuel rows S (List.Subset.refl _) hne hnd hrne hdata hfuel
  rw [learn_eq hrne hdata]
  refine ⟨fun h => ?_, h2⟩
  obtain ⟨n, h3, h4, h5, _⟩ := h1 h
  exact ⟨n, h3, valid_of_ok h4 (by simp), h5⟩

/-- C33: the learned network can be evaluated iff every terminal slice over two or more variables has at least two rows; if
not, `log_likelihood` raises RuntimeError on every row. -/
theorem C33_evaluable_iff {S : List Var} (hc : CfgOk cfg S) (hf : FitOk μ cfg fit S) (hμ : Points μ cfg S) (hne : S ≠ [])
    (hnd : S.Nodup) {rows : List Obs} (hrne : rows ≠ []) (hdata : DataOk cfg rows S) {fuel : ℕ} (hfuel : S.length < fuel)
    {n : Net} (h : learnCnet cfg fit order fuel rows S = .ok n) :
    (Fitted cfg order rows S → ∀ x k, logLikelihood n x k = .ok (featAt (den n.circ) 0 x 0 k)) ∧
    (¬ Fitted cfg order rows S → ∀ x k, logLikelihood n x k = .error .runtimeError) := by
  obtain ⟨h1, h2⟩ := build_spec (order := order) hc hf hμ fuel rows S (List.Subset.refl _) hne hnd hrne hdata hfuel
  rw [learn_eq hrne hdata] at h
  have hng : NoGap cfg order rows S := by
    by_contra hcon
    rw [h2 hcon] at h; cases h
  obtain ⟨m, h3, _, _, h6, _⟩ := h1 hng
  rw [h] at h3
  injection h3 with h3
  subst h3
  constructor
  · intro hfit x k
    simp [logLikelihood, h6.2 hfit]
  · intro hfit x k
    have : n.ready = false := by
      rw [← Bool.not_eq_true]; exact fun hr => hfit (h6.1 hr)
    simp [logLikelihood, this]

/-- The rows at which a row ends are the training rows that agree with it on the variables conditioned on. -/
theorem follow_rows {x : Obs} {rows r : List Obs} {scope s : List Var} (h : Follow cfg order x rows scope r s) :
    s ⊆ scope ∧ r = rows.filter fun y => scope.all fun v => s.contains v || y v == x v := by
  induction h with
  | @stop rows scope _ =>
    refine ⟨List.Subset.refl _, (List.filter_eq_self.2 fun y _ => ?_).symm⟩
    simp only [List.all_eq_true, Bool.or_eq_true]
    intro v hv
    exact .inl (by simpa using hv)
  | @dead rows scope v hs hsl =>
    refine ⟨fun w hw => List.mem_of_mem_filter hw, (List.filter_eq_nil_iff.2 fun y hy => ?_).symm⟩
    intro hall
    rw [List.all_eq_true] at hall
    have := hall v (condVar_mem hs.var)
    simp only [Bool.or_eq_true, List.contains_eq_mem, decide_eq_true_eq, beq_iff_eq, List.mem_filter] at this
    rcases this with h | h
    · exact h.2 rfl
    · unfold slice at hsl
      rw [List.filter_eq_nil_iff] at hsl
      exact hsl y hy (by simpa using h)
  | @step rows scope v r s hs hsl _ ih =>
    obtain ⟨h1, h2⟩ := ih
    have hvs := condVar_mem hs.var
    refine ⟨fun w hw => List.mem_of_mem_filter (h1 hw), ?_⟩
    rw [h2]
    unfold slice
    rw [List.filter_filter]
    apply List.filter_congr
    intro y _
    rw [Bool.eq_iff_iff]
    simp only [Bool.and_eq_true, List.all_eq_true, Bool.or_eq_true, List.contains_eq_mem, decide_eq_true_eq, beq_iff_eq,
      List.mem_filter]
    constructor
    · rintro ⟨ha, hb⟩ w hw
      by_cases hwv : w = v
      · subst hwv; exact .inr hb
      · exact ha w ⟨hw, hwv⟩
    · intro ha
      refine ⟨fun w hw => ha w hw.1, ?_⟩
      rcases ha v hvs with h | h
      · have := (List.mem_filter.1 (h1 h)).2
        simp at this
      · exact h

/-- C33: with one channel, the probability of a row is the fraction of the training rows that agree with it on the variables
conditioned on along its path, times the probability the leaf (fitted to these rows) gives to the remaining variables. -/
theorem C33_density {S : List Var} (hc : CfgOk cfg S) (hf : FitOk μ cfg fit S) (hμ : Points μ cfg S) (hne : S ≠ [])
    (hnd : S.Nodup) {rows : List Obs} (hrne : rows ≠ []) (hdata : DataOk cfg rows S) {fuel : ℕ} (hfuel : S.length < fuel)
    {n : Net} (h : learnCnet cfg fit order fuel rows S = .ok n) (ho : cfg.outCh = 1) (x : Obs)
    (hx : ∀ v ∈ S, x v < cfg.card v) :
    ∃ rest ⊆ S, expL (featAt (den n.circ) 0 (fun v => some (x v : ℝ)) 0 0) =
      let agree := rows.filter fun y => S.all fun v => rest.contains v || y v == x v
      (agree.length : ℝ) / rows.length * expL (featAt (den (fit agree rest)) 0 (fun v => some (x v : ℝ)) 0 0) := by
  obtain ⟨h1, h2⟩ := build_spec (order := order) hc hf hμ fuel rows S (List.Subset.refl _) hne hnd hrne hdata hfuel
  rw [learn_eq hrne hdata] at h
  have hng : NoGap cfg order rows S := by
    by_contra hcon
    rw [h2 hcon] at h; cases h
  obtain ⟨m, h3, _, _, _, h6⟩ := h1 hng
  rw [h] at h3
  injection h3 with h3
  subst h3
  obtain ⟨r, s, hfo, he⟩ := h6 ho x hx
  obtain ⟨hs, hr⟩ := follow_rows hfo
  refine ⟨s, hs, ?_⟩
  simp only
  rw [← hr]
  exact he

/-- C33: values outside the declared cardinalities are rejected. -/
theorem C33_rejects_values {S : List Var} {rows : List Obs} {x : Obs} (hx : x ∈ rows) {v : Var} (hv : v ∈ S)
    (hbad : cfg.card v ≤ x v) (fuel : ℕ) : learnCnet cfg fit order fuel rows S = .error .invalidParameter := by
  unfold learnCnet
  rw [if_neg (fun h => by rw [h.2] at hx; simp at hx), if_pos ⟨v, hv, x, hx, hbad⟩]

/-- C33: a smoothing constant that is not positive is rejected as soon as a leaf over two or more variables is built. -/
theorem C33_rejects_alpha {S : List Var} {rows : List Obs} (hrne : rows ≠ []) (hdata : DataOk cfg rows S)
    (h2 : 2 ≤ S.length) (hstop : ∀ v, ¬ Splits cfg order rows S v) (hα : cfg.alpha ≤ 0) (fuel : ℕ) :
    learnCnet cfg fit order (fuel + 1) rows S = .error .invalidParameter := by
  rw [learn_eq hrne hdata, build_stop hstop]
  unfold createLeaf
  rw [if_pos h2, if_pos hα]
  split <;> rfl

/-! ### Concrete cases -/

section Witness

/-- Product of uniform Categoricals as a leaf fit. -/
noncomputable def wFit (K Co : ℕ) (_ : List Obs) (q : List Var) : Circ :=
  prod (leaf q Co 1 fun _ _ _ t => Leaves.categoricalLL K (fun _ => 0) t)

theorem wFit_ok {S : List Var} {K : ℕ} (hK : 1 ≤ K) (hout : 1 ≤ cfg.outCh) (hS : ∀ v ∈ S, 0 ≤ v) :
    FitOk (fun _ => Leaves.countBelow K) cfg (wFit K cfg.outCh) S := by
  intro rows q hq _ hnd
  have hd : DensOk (fun _ => Leaves.countBelow K) q (fun _ _ _ t => Leaves.categoricalLL K (fun _ => 0) t) := by
    intro i hi ch r
    refine ⟨?_, Leaves.categorical_normalised ⟨0, hK, by simp⟩⟩
    exact Leaves.categorical_measurable K _
  exact ⟨prod_pre (leaf_pre (fun v hv => hS v (hq hv)) hnd hout hd).2, rfl⟩

theorem points_countBelow {S : List Var} {K : ℕ} (h : ∀ v ∈ S, cfg.card v ≤ K) :
    Points (fun _ => Leaves.countBelow K) cfg S := by
  intro v hv a ha
  have hm : MeasurableSet {(a : ℝ)} := measurableSet_singleton _
  rw [← lintegral_indicator_one hm, Leaves.lintegral_countBelow, Finset.sum_eq_single a]
  · simp
  · intro b _ hb
    simp [hb]
  · intro hna
    exact absurd (Finset.mem_range.2 (lt_of_lt_of_le ha (h v hv))) hna

noncomputable def wCfg : Cfg := ⟨fun _ => 2, 1, 1, 3, 1 / 100⟩

theorem wCfg_ok : CfgOk wCfg [0, 1, 2] := ⟨le_rfl, by norm_num [wCfg], fun _ _ => le_rfl, by simp⟩

/-- A dataset on which learning works: both values of the first variable, twice each. -/
def wRows : List Obs := [fun _ => 0, fun _ => 0, fun _ => 1, fun _ => 1]

theorem wData {rows : List Obs} (h : rows ⊆ [fun _ => 0, fun _ => 1]) : DataOk wCfg rows [0, 1, 2] := by
  intro x hx v _
  have := h hx
  simp only [List.mem_cons, List.not_mem_nil, or_false] at this
  rcases this with rfl | rfl <;> simp [wCfg]

theorem wVisit {rows r : List Obs} {s : List Var} (hl : ∀ a, (slice rows 0 a).length < 3)
    (h : Visit wCfg [0, 1, 2] rows [0, 1, 2] r s) : (r = rows ∧ s = [0, 1, 2]) ∨
      ∃ a, r = slice rows 0 a ∧ slice rows 0 a ≠ [] ∧ s = [1, 2] := by
  cases h with
  | here => exact .inl ⟨rfl, rfl⟩
  | @step _ _ v a _ _ hs ha hne hv =>
    have hv0 : v = 0 := by
      have h1 := hs.var
      have h2 : condVar [0, 1, 2] [0, 1, 2] = some 0 := by decide
      rw [h2] at h1
      exact (Option.some.inj h1).symm
    subst hv0
    right
    cases hv with
    | here => exact ⟨a, rfl, hne, by decide⟩
    | step hs' _ _ _ =>
      have h1 : 3 ≤ (slice rows 0 a).length := hs'.insts
      have := hl a
      omega

/-- The assumptions of the C33 theorems are satisfiable, and learning succeeds with an evaluable network. -/
theorem C33_witness : CfgOk wCfg [0, 1, 2] ∧ FitOk (fun _ => Leaves.countBelow 2) wCfg (wFit 2 1) [0, 1, 2] ∧
    Points (fun _ => Leaves.countBelow 2) wCfg [0, 1, 2] ∧ DataOk wCfg wRows [0, 1, 2] ∧
    Splits wCfg [0, 1, 2] wRows [0, 1, 2] 0 ∧ NoGap wCfg [0, 1, 2] wRows [0, 1, 2] ∧ Fitted wCfg [0, 1, 2] wRows [0, 1, 2] := by
  have hsp : Splits wCfg [0, 1, 2] wRows [0, 1, 2] 0 := ⟨by decide, by decide, by decide, by decide⟩
  have hl : ∀ a, (slice wRows 0 a).length < 3 := by
    intro a
    rcases a with _ | _ | a
    · decide
    · decide
    · simp [slice, wRows]
  have h2 : ∀ a, slice wRows 0 a ≠ [] → 2 ≤ (slice wRows 0 a).length := by
    intro a
    rcases a with _ | _ | a
    · decide
    · decide
    · simp [slice, wRows]
  refine ⟨wCfg_ok, wFit_ok (by decide) le_rfl (by simp), points_countBelow fun _ _ => le_rfl, wData (by simp [wRows]), hsp, ?_, ?_⟩
  · intro r s hv hg
    rcases wVisit hl hv with ⟨rfl, rfl⟩ | ⟨a, rfl, _, rfl⟩
    · rw [gap_iff hsp] at hg
      obtain ⟨⟨a, ha, hn⟩, _⟩ := hg
      have ha : a < 2 := ha
      interval_cases a <;> revert hn <;> decide
    · obtain ⟨v, hs, _⟩ := hg
      have h1 : 3 ≤ (slice wRows 0 a).length := hs.insts
      have := hl a
      omega
  · intro r s hv _ _
    rcases wVisit hl hv with ⟨rfl, rfl⟩ | ⟨a, rfl, hne, rfl⟩
    · decide
    · exact h2 a hne

/-- C33 FALSE: one row with value 1 of the conditioning variable leaves a Chow-Liu tree that is never fitted: learning succeeds,
but the network raises on every row. -/
def lonelyRows : List Obs := [fun _ => 0, fun _ => 0, fun _ => 1]

theorem C33_lonely_row_breaks_network : ∃ n, learnCnet wCfg (wFit 2 1) [0, 1, 2] 4 lonelyRows [0, 1, 2] = .ok n ∧
    ∀ x k, logLikelihood n x k = .error .runtimeError := by
  have hsp : Splits wCfg [0, 1, 2] lonelyRows [0, 1, 2] 0 := ⟨by decide, by decide, by decide, by decide⟩
  have hl : ∀ a, (slice lonelyRows 0 a).length < 3 := by
    intro a
    rcases a with _ | _ | a
    · decide
    · decide
    · simp [slice, lonelyRows]
  have hf : FitOk (fun _ => Leaves.countBelow 2) wCfg (wFit 2 1) [0, 1, 2] := wFit_ok (by decide) le_rfl (by simp)
  have hμ : Points (fun _ => Leaves.countBelow 2) wCfg [0, 1, 2] := points_countBelow fun _ _ => le_rfl
  have hd : DataOk wCfg lonelyRows [0, 1, 2] := wData (by simp [lonelyRows])
  have hng : NoGap wCfg [0, 1, 2] lonelyRows [0, 1, 2] := by
    intro r s hv hg
    rcases wVisit hl hv with ⟨rfl, rfl⟩ | ⟨a, rfl, _, rfl⟩
    · rw [gap_iff hsp] at hg
      obtain ⟨⟨a, ha, hn⟩, _⟩ := hg
      have ha : a < 2 := ha
      interval_cases a <;> revert hn <;> decide
    · obtain ⟨v, hs, _⟩ := hg
      have h1 : 3 ≤ (slice lonelyRows 0 a).length := hs.insts
      have := hl a
      omega
  obtain ⟨n, hn, _⟩ := (C33_learn_partial (fuel := 4) wCfg_ok hf hμ (by decide) (by decide) (by decide) hd (by decide)).1 hng
  refine ⟨n, hn, (C33_evaluable_iff wCfg_ok hf hμ (by decide) (by decide) (by decide) hd (by decide) hn).2 ?_⟩
  intro hfit
  have hv : Visit wCfg [0, 1, 2] lonelyRows [0, 1, 2] (slice lonelyRows 0 1) [1, 2] :=
    .step (v := 0) (val := 1) hsp (by decide) (by decide) .here
  have := hfit _ _ hv (fun v hs => by
    have h1 : 3 ≤ (slice lonelyRows 0 1).length := hs.insts
    revert h1; decide) (by decide)
  revert this
  decide

/-- C33 FALSE: three-valued variable of which only two values occur. -/
noncomputable def gapCfg : Cfg := ⟨fun _ => 3, 1, 1, 2, 1 / 100⟩

theorem gap_splits : Splits gapCfg [0, 1] wRows [0, 1] 0 := ⟨by decide, by decide, by decide, by decide⟩

theorem C33_gap_raises (fit : List Obs → List Var → Circ) (hf : FitOk (fun _ => Leaves.countBelow 3) gapCfg fit [0, 1]) :
    learnCnet gapCfg fit [0, 1] 3 wRows [0, 1] = .error .invalidWeights := by
  have hc : CfgOk gapCfg [0, 1] := ⟨le_rfl, by norm_num [gapCfg], fun _ _ => by simp [gapCfg], by simp⟩
  refine (C33_learn_partial hc hf (points_countBelow fun _ _ => le_rfl) (by decide) (by decide) (by decide) ?_ (by decide)).2 ?_
  · intro x hx v _
    simp only [wRows, List.mem_cons, List.not_mem_nil, or_false] at hx
    rcases hx with rfl | rfl | rfl | rfl <;> simp [gapCfg]
  · intro h
    refine h _ _ .here ⟨0, gap_splits, ⟨2, by decide, by decide⟩, 0, by decide, 1, by decide, by decide, by decide, by decide⟩

/-- The hypotheses of `C33_rejects_alpha` are satisfiable. -/
example (fit : List Obs → List Var → Circ) :
    learnCnet ⟨fun _ => 2, 1, 1, 3, 0⟩ fit [0, 1] 5 [fun _ => 0, fun _ => 1] [0, 1] = .error .invalidParameter :=
  C33_rejects_alpha (by simp) (by simp [DataOk]) (by decide) (fun v h => by have := h.insts; simp at this) le_rfl _

end Witness

end Verif.CNet

import Verif.ElemSum
import Verif.CircuitProps
import Verif.SamplingProps
import Verif.MarginalizeProps
import Verif.EmProps

/-!
# C66: `ElementwiseSum` - construction, weights, likelihood, normalisation
-/

namespace Verif.ESum
open Verif Verif.Circ

/-! ## Specification: which inputs fit together -/

/-- The inputs the documentation asks for: same features, each channel number the largest one or 1, same scope, and - in
each of the `R` repetitions, which all inputs must have - the same scope feature by feature. -/
structure Fit (cs : List Circ) (R : ℕ) : Prop where
  features : ∀ a ∈ cs, ∀ b ∈ cs, F a = F b
  channels : ∀ a ∈ cs, C a = 1 ∨ ∀ b ∈ cs, C b ≤ C a
  scopes : ∀ a ∈ cs, ∀ b ∈ cs, ∀ v, v ∈ (scope a).query ↔ v ∈ (scope b).query
  reps : 1 ≤ R → ∀ a ∈ cs, ∃ k, ftsCols a = .ok k ∧ R ≤ k
  aligned : 1 ≤ R → ∀ a ∈ cs, ∀ b ∈ cs, ∀ f < F a, fscope a f = fscope b f

/-- The weight tensor fits: shape, positive, sums over the inputs within the tolerance of `allclose`. -/
structure WOk (cs : List Circ) (w : W5) : Prop where
  Fw : ∀ a ∈ cs, w.Fw = F a
  Ci : w.Ci = maxC cs
  n : w.n = cs.length
  pos : ∀ f < w.Fw, ∀ ci < w.Ci, ∀ co < w.Co, ∀ i < w.n, ∀ r < w.R, 0 < w.val f ci co i r
  sum : ∀ f < w.Fw, ∀ ci < w.Ci, ∀ co < w.Co, ∀ r < w.R, CloseToOne (∑ i ∈ Finset.range w.n, w.val f ci co i r)

/-! ## Helper lemmas -/

theorem le_maxC {cs : List Circ} {c : Circ} (h : c ∈ cs) : C c ≤ maxC cs := by
  unfold maxC
  induction cs with
  | nil => simp at h
  | cons a l ih =>
    rcases List.mem_cons.1 h with rfl | h
    · simp
    · simpa using Or.inr (ih h)

theorem maxC_le {cs : List Circ} {k : ℕ} (h : ∀ c ∈ cs, C c ≤ k) : maxC cs ≤ k := by
  unfold maxC
  induction cs with
  | nil => simp
  | cons a l ih =>
    simpa using ⟨h a (by simp), ih fun c hc => h c (by simp [hc])⟩

theorem exists_maxC {cs : List Circ} (h : cs ≠ []) : ∃ c ∈ cs, C c = maxC cs := by
  induction cs with
  | nil => simp at h
  | cons a l ih =>
    by_cases hl : l = []
    · subst hl; exact ⟨a, by simp, by simp [maxC]⟩
    · obtain ⟨c, hc, e⟩ := ih hl
      have : maxC (a :: l) = max (C a) (maxC l) := rfl
      rcases le_total (C a) (maxC l) with h1 | h1
      · exact ⟨c, by simp [hc], by rw [this, max_eq_right h1, e]⟩
      · exact ⟨a, by simp, by rw [this, max_eq_left h1]⟩

theorem channels_iff {cs : List Circ} {c : Circ} (hc : c ∈ cs) : C c = maxC cs ↔ ∀ b ∈ cs, C b ≤ C c := by
  constructor
  · intro h b hb; rw [h]; exact le_maxC hb
  · intro h; exact le_antisymm (le_maxC hc) (maxC_le h)

theorem feats_eq {cs : List Circ} (h : ∀ a ∈ cs, ∀ b ∈ cs, F a = F b) {c : Circ} (hc : c ∈ cs) : feats cs = F c := by
  cases cs with
  | nil => simp at hc
  | cons a l => exact h a (by simp) c hc

theorem map_scope_ext {a b : Circ} : (den a).map Feat.scope = (den b).map Feat.scope ↔
    F a = F b ∧ ∀ f < F a, fscope a f = fscope b f := by
  constructor
  · intro h
    refine ⟨?_, fun f _ => by rw [fscope_eq_map, fscope_eq_map, h]⟩
    have := congrArg List.length h
    simpa [den_length] using this
  · rintro ⟨hF, hs⟩
    apply List.ext_getElem (by simp [den_length, hF])
    intro f h1 h2
    have hf : f < F a := by simpa [den_length] using h1
    have := hs f hf
    rw [fscope_eq_map, fscope_eq_map] at this
    simpa [List.getElem?_eq_getElem h1, List.getElem?_eq_getElem h2] using this

theorem ftsCol_ok {c : Circ} {rep : ℕ} {a : List (Finset Var)} : ftsCol c rep = .ok a ↔
    (∃ k, ftsCols c = .ok k ∧ rep < k) ∧ a = (den c).map Feat.scope := by
  unfold ftsCol
  simp only [bind, Except.bind, pure, Except.pure, throw, throwThe, MonadExceptOf.throw]
  cases h : ftsCols c with
  | error e => simp
  | ok k =>
    by_cases hk : k ≤ rep
    · simp [hk]
    · simp only [hk, if_false, Except.ok.injEq, exists_eq_left']
      exact ⟨fun h => ⟨by omega, h.symm⟩, fun h => h.2.symm⟩

theorem sameCol_ok {a : List (Finset Var)} {rep : ℕ} {l : List Circ} : sameCol a rep l = .ok () ↔
    ∀ c ∈ l, ftsCol c rep = .ok a := by
  induction l with
  | nil => simp [sameCol]
  | cons c l ih =>
    unfold sameCol
    simp only [bind, Except.bind, throw, throwThe, MonadExceptOf.throw]
    cases h : ftsCol c rep with
    | error e => simp [h]
    | ok b =>
      by_cases hab : a = b
      · subst hab; simp [h, ih]
      · simp [hab, h, Ne.symm hab]

theorem sameCols_ok {cs : List Circ} (hne : cs ≠ []) {reps : List ℕ} : sameCols cs reps = .ok () ↔
    ∀ rep ∈ reps, ∃ a, ∀ c ∈ cs, ftsCol c rep = .ok a := by
  obtain ⟨c, l, rfl⟩ := List.exists_cons_of_ne_nil hne
  induction reps with
  | nil => simp [sameCols]
  | cons rep reps ih =>
    unfold sameCols
    simp only [bind, Except.bind]
    cases h : ftsCol c rep with
    | error e => simp [h]
    | ok a =>
      have hs := sameCol_ok (a := a) (rep := rep) (l := l)
      cases h2 : sameCol a rep l with
      | error e =>
        rw [h2] at hs
        simp only [reduceCtorEq, false_iff] at hs
        simp only [h2, reduceCtorEq, List.mem_cons, forall_eq_or_imp, h, Except.ok.injEq, false_iff, not_and]
        rintro ⟨a', rfl, ha'⟩
        exact absurd ha' hs
      | ok u =>
        rw [h2] at hs
        simp only [true_iff] at hs
        simp only [h2, ih, List.mem_cons, forall_eq_or_imp, h, Except.ok.injEq]
        exact ⟨fun hh => ⟨⟨a, rfl, hs⟩, hh⟩, fun hh => hh.2⟩

theorem checkInputs_iff {cs : List Circ} (hne : cs ≠ []) (ha : ∀ c ∈ cs, Accepted c) (R : ℕ) :
    checkInputs cs R = .ok () ↔ Fit cs R := by
  unfold checkInputs
  simp only [bind, Except.bind, pure, Except.pure, throw, throwThe, MonadExceptOf.throw]
  have h1 : (cs.all fun m => F m == feats cs) = true ↔ ∀ a ∈ cs, ∀ b ∈ cs, F a = F b := by
    simp only [List.all_eq_true, beq_iff_eq]
    constructor
    · intro h a ha b hb; rw [h a ha, h b hb]
    · intro h a ha; rw [feats_eq h ha]
  have h2 : (cs.all fun m => C m == 1 || C m == maxC cs) = true ↔ ∀ a ∈ cs, C a = 1 ∨ ∀ b ∈ cs, C b ≤ C a := by
    simp only [List.all_eq_true, Bool.or_eq_true, beq_iff_eq]
    exact ⟨fun h a ha => (h a ha).imp id (channels_iff ha).1, fun h a ha => (h a ha).imp id (channels_iff ha).2⟩
  have h3 : Scope.allEqual (cs.map scope) = true ↔
      ∀ a ∈ cs, ∀ b ∈ cs, ∀ v, v ∈ (scope a).query ↔ v ∈ (scope b).query := by
    rw [Scope.C03_allEqual]
    simp only [List.mem_map, forall_exists_index, and_imp, forall_apply_eq_imp_iff₂, Scope.pyEq_iff]
    constructor
    · intro h a ha b hb v
      exact (h a ha b hb).1 v
    · intro h a hac b hbc
      exact ⟨h a hac b hbc, by simp [(scope_facts (ha a hac)).2.1, (scope_facts (ha b hbc)).2.1]⟩
  by_cases c1 : ∀ a ∈ cs, ∀ b ∈ cs, F a = F b
  · by_cases c2 : ∀ a ∈ cs, C a = 1 ∨ ∀ b ∈ cs, C b ≤ C a
    · by_cases c3 : ∀ a ∈ cs, ∀ b ∈ cs, ∀ v, v ∈ (scope a).query ↔ v ∈ (scope b).query
      · simp only [h1.2 c1, h2.2 c2, h3.2 c3, Bool.not_true, Bool.false_eq_true, if_false]
        rw [sameCols_ok hne]
        constructor
        · intro h
          refine ⟨c1, c2, c3, fun hR a ha' => ?_, fun hR a ha' b hb' f hf => ?_⟩
          · obtain ⟨s, hs⟩ := h (R - 1) (by simp; omega)
            obtain ⟨⟨k, hk, hlt⟩, -⟩ := ftsCol_ok.1 (hs a ha')
            exact ⟨k, hk, by omega⟩
          · obtain ⟨s, hs⟩ := h 0 (by simp; omega)
            have e1 := (ftsCol_ok.1 (hs a ha')).2
            have e2 := (ftsCol_ok.1 (hs b hb')).2
            exact (map_scope_ext.1 (e1.symm.trans e2)).2 f hf
        · intro h rep hrep
          have hrep' : rep < R := by simpa using hrep
          obtain ⟨c, l, rfl⟩ := List.exists_cons_of_ne_nil hne
          refine ⟨(den c).map Feat.scope, fun b hb => ftsCol_ok.2 ⟨?_, ?_⟩⟩
          · obtain ⟨k, hk, hle⟩ := h.reps (by omega) b hb
            exact ⟨k, hk, by omega⟩
          · exact map_scope_ext.2 ⟨c1 c (by simp) b hb, h.aligned (by omega) c (by simp) b hb⟩
      · have : Scope.allEqual (cs.map scope) = false := by
          rw [← Bool.not_eq_true, h3]; exact c3
        simp only [h1.2 c1, h2.2 c2, this, Bool.not_true, Bool.false_eq_true, if_false]
        simp only [Bool.not_false, if_true, reduceCtorEq, false_iff]
        exact fun h => c3 h.scopes
    · have : (cs.all fun m => C m == 1 || C m == maxC cs) = false := by
        rw [← Bool.not_eq_true, h2]; exact c2
      simp only [h1.2 c1, this, Bool.not_true, Bool.false_eq_true, if_false]
      simp only [Bool.not_false, if_true, reduceCtorEq, false_iff]
      exact fun h => c2 h.channels
  · have : (cs.all fun m => F m == feats cs) = false := by
      rw [← Bool.not_eq_true, h1]; exact c1
    simp only [this]
    simp only [Bool.not_false, if_true, reduceCtorEq, false_iff]
    exact fun h => c1 h.features

theorem setW_ok {cs : List Circ} (hne : cs ≠ []) (hF : ∀ a ∈ cs, ∀ b ∈ cs, F a = F b) {Co R : ℕ} {w : W5} {θ} :
    setW cs Co R w = .ok θ ↔
      (w.Co = Co ∧ w.R = R ∧ WOk cs w) ∧ θ = fun f ci co i r => logL (w.val f ci co i r) := by
  have hf : w.Fw = feats cs ↔ ∀ a ∈ cs, w.Fw = F a := by
    obtain ⟨c, l, rfl⟩ := List.exists_cons_of_ne_nil hne
    constructor
    · intro h a ha; rw [h, feats_eq hF ha]
    · intro h; rw [h c (by simp), feats_eq hF (c := c) (by simp)]
  unfold setW
  by_cases h1 : w.Fw = feats cs ∧ w.Ci = maxC cs ∧ w.Co = Co ∧ w.n = cs.length ∧ w.R = R
  · rw [if_neg (not_not.2 h1)]
    by_cases h2 : ∀ f < w.Fw, ∀ ci < w.Ci, ∀ co < w.Co, ∀ i < w.n, ∀ r < w.R, 0 < w.val f ci co i r
    · rw [if_neg (not_not.2 h2)]
      by_cases h3 : ∀ f < w.Fw, ∀ ci < w.Ci, ∀ co < w.Co, ∀ r < w.R,
          CloseToOne (∑ i ∈ Finset.range w.n, w.val f ci co i r)
      · rw [if_neg (not_not.2 h3)]
        simp only [Except.ok.injEq]
        exact ⟨fun h => ⟨⟨h1.2.2.1, h1.2.2.2.2, ⟨hf.1 h1.1, h1.2.1, h1.2.2.2.1, h2, h3⟩⟩, h.symm⟩,
          fun h => h.2.symm⟩
      · rw [if_pos h3]
        simp only [reduceCtorEq, false_iff, not_and]
        exact fun h => absurd h.2.2.sum h3
    · rw [if_pos h2]
      simp only [reduceCtorEq, false_iff, not_and]
      exact fun h => absurd h.2.2.pos h2
  · rw [if_pos h1]
    simp only [reduceCtorEq, false_iff, not_and]
    exact fun h => absurd ⟨hf.2 h.2.2.Fw, h.2.2.Ci, h.1, h.2.2.n, h.2.1⟩ h1

theorem initW_ok {cs : List Circ} (hne : cs ≠ []) (hF : ∀ a ∈ cs, ∀ b ∈ cs, F a = F b) (Co R : ℕ)
    {rnd : ℕ → ℕ → ℕ → ℕ → ℕ → ℝ} (hr : ∀ f ci co i r, 0 ≤ rnd f ci co i r) : WOk cs (initW cs Co R rnd) := by
  have hp : ∀ f ci co i r, 0 < rnd f ci co i r + 1 / 10 ^ 8 := fun f ci co i r => by
    have := hr f ci co i r; positivity
  have hn : (Finset.range cs.length).Nonempty := by
    rw [Finset.nonempty_range_iff]; simpa using hne
  have hS : ∀ f ci co r, 0 < ∑ j ∈ Finset.range cs.length, (rnd f ci co j r + 1 / 10 ^ 8) := fun f ci co r =>
    Finset.sum_pos (fun i _ => hp f ci co i r) hn
  refine ⟨fun a ha => feats_eq hF ha, rfl, rfl, fun f _ ci _ co _ i _ r _ => div_pos (hp _ _ _ _ _) (hS _ _ _ _), ?_⟩
  intro f _ ci _ co _ r _
  show CloseToOne (∑ i ∈ Finset.range cs.length, (rnd f ci co i r + 1 / 10 ^ 8) /
    ∑ j ∈ Finset.range cs.length, (rnd f ci co j r + 1 / 10 ^ 8))
  rw [← Finset.sum_div, div_self (hS f ci co r).ne']
  unfold CloseToOne
  norm_num

/-! ## Construction -/

/-- What a constructor call with weights produces. -/
theorem build_weights {cs : List Circ} (ha : ∀ c ∈ cs, Accepted c) {w : W5} {rnd} {e : ES} :
    build cs none (some (.t5 w)) none rnd = .ok e ↔
      (cs ≠ [] ∧ 1 ≤ w.Co ∧ Fit cs w.R ∧ WOk cs w) ∧
        e = ⟨cs, w.Co, w.R, fun f ci co i r => logL (w.val f ci co i r)⟩ := by
  unfold build config
  simp only [bind, Except.bind, pure, Except.pure, throw, throwThe, MonadExceptOf.throw]
  cases cs with
  | nil => simp
  | cons c l =>
    have hne : c :: l ≠ [] := by simp
    simp only [List.isEmpty_cons, Bool.false_eq_true, if_false, Option.isSome_none]
    by_cases hCo : (w.Co : ℤ) < 1
    · rw [if_pos hCo]
      simp only [reduceCtorEq, ne_eq, not_false_eq_true, true_and, false_iff, not_and]
      intro h; omega
    · rw [if_neg hCo]
      have hCo' : 1 ≤ w.Co := by omega
      simp only [Int.toNat_natCast]
      have hci := checkInputs_iff hne ha w.R
      cases h1 : checkInputs (c :: l) w.R with
      | error x =>
        rw [h1] at hci
        simp only [reduceCtorEq, false_iff] at hci
        simp only [reduceCtorEq, ne_eq, not_false_eq_true, true_and, false_iff, not_and]
        exact fun h => absurd h.2.1 hci
      | ok u =>
        rw [h1] at hci
        simp only [true_iff] at hci
        have hs := fun θ => setW_ok (cs := c :: l) hne hci.features (Co := w.Co) (R := w.R) (w := w) (θ := θ)
        cases h2 : setW (c :: l) w.Co w.R w with
        | error x =>
          simp only [h2, reduceCtorEq, true_and, false_iff, not_and] at hs
          simp only [h2, reduceCtorEq, ne_eq, not_false_eq_true, true_and, false_iff, not_and]
          exact fun h => absurd rfl (hs _ h.2.2)
        | ok θ =>
          have := (hs θ).1 h2
          simp only [h2, Except.ok.injEq, ne_eq, reduceCtorEq, not_false_eq_true, true_and]
          constructor
          · intro h; exact ⟨⟨hCo', hci, this.1.2.2⟩, by rw [← h, this.2]⟩
          · rintro ⟨-, rfl⟩; rw [this.2]

theorem build_fresh {cs : List Circ} (ha : ∀ c ∈ cs, Accepted c) {k : ℤ} {reps : Option ℕ} {rnd}
    (hr : ∀ f ci co i r, 0 ≤ rnd f ci co i r) {e : ES} :
    build cs (some k) none reps rnd = .ok e ↔
      (cs ≠ [] ∧ 1 ≤ k ∧ Fit cs (reps.getD 1)) ∧
        e = ⟨cs, k.toNat, reps.getD 1, fun f ci co i r => logL ((initW cs k.toNat (reps.getD 1) rnd).val f ci co i r)⟩ := by
  unfold build config
  simp only [bind, Except.bind, pure, Except.pure, throw, throwThe, MonadExceptOf.throw]
  cases cs with
  | nil => simp
  | cons c l =>
    have hne : c :: l ≠ [] := by simp
    simp only [List.isEmpty_cons, Bool.false_eq_true, if_false]
    by_cases hk : k < 1
    · rw [if_pos hk]
      simp only [reduceCtorEq, ne_eq, not_false_eq_true, true_and, false_iff, not_and]
      intro h; omega
    · rw [if_neg hk]
      have hci := checkInputs_iff hne ha (reps.getD 1)
      simp only []
      cases h1 : checkInputs (c :: l) (reps.getD 1) with
      | error x =>
        rw [h1] at hci
        simp only [reduceCtorEq, false_iff] at hci
        simp only [reduceCtorEq, ne_eq, not_false_eq_true, true_and, false_iff, not_and]
        exact fun h => absurd h.2 hci
      | ok u =>
        rw [h1] at hci
        simp only [true_iff] at hci
        have h2 := (setW_ok (cs := c :: l) hne hci.features (Co := k.toNat) (R := reps.getD 1)
          (w := initW (c :: l) k.toNat (reps.getD 1) rnd) (θ := _)).2
            ⟨⟨rfl, rfl, initW_ok hne hci.features _ _ hr⟩, rfl⟩
        simp only [h2, Except.ok.injEq, ne_eq, reduceCtorEq, not_false_eq_true, true_and]
        constructor
        · intro h; exact ⟨⟨by omega, hci⟩, h.symm⟩
        · rintro ⟨-, rfl⟩; rfl

/-- **C66 (construction).** A call of the constructor over accepted inputs succeeds exactly when there is at least one
input, the inputs fit together, and either weights alone are given - five axes, at least one sum, the right shape,
positive, summing to one over the inputs (up to `allclose`) - or a number of sums of at least one without weights. -/
theorem C66_accepts_iff {cs : List Circ} (ha : ∀ c ∈ cs, Accepted c) (outCh : Option ℤ) (w : Option WArg)
    (reps : Option ℕ) {rnd : ℕ → ℕ → ℕ → ℕ → ℕ → ℝ} (hr : ∀ f ci co i r, 0 ≤ rnd f ci co i r) :
    (∃ e, build cs outCh w reps rnd = .ok e) ↔ cs ≠ [] ∧
      ((outCh = none ∧ reps = none ∧ ∃ w5, w = some (.t5 w5) ∧ 1 ≤ w5.Co ∧ Fit cs w5.R ∧ WOk cs w5) ∨
       (w = none ∧ ∃ k, outCh = some k ∧ 1 ≤ k ∧ Fit cs (reps.getD 1))) := by
  have hbad : ∀ x, config cs outCh w reps = .error x → ¬ ∃ e, build cs outCh w reps rnd = .ok e := by
    rintro x h ⟨e, he⟩
    unfold build at he
    simp [h, bind, Except.bind] at he
  rcases w with _ | (w5 | _)
  · rcases outCh with _ | k
    · have : ∃ x, config cs none none reps = .error x := by
        unfold config
        by_cases h : cs.isEmpty <;> simp [h, bind, Except.bind, throw, throwThe, MonadExceptOf.throw]
      obtain ⟨x, hx⟩ := this
      simp [hbad x hx]
    · constructor
      · rintro ⟨e, he⟩
        obtain ⟨⟨h1, h2, h3⟩, -⟩ := (build_fresh ha hr).1 he
        exact ⟨h1, .inr ⟨rfl, k, rfl, h2, h3⟩⟩
      · rintro ⟨h1, ⟨-, -, w5, h, -⟩ | ⟨-, k', h, h2, h3⟩⟩
        · cases h
        · cases h; exact ⟨_, (build_fresh ha hr).2 ⟨⟨h1, h2, h3⟩, rfl⟩⟩
  · rcases outCh with _ | k
    · rcases reps with _ | R
      · constructor
        · rintro ⟨e, he⟩
          obtain ⟨⟨h1, h2, h3, h4⟩, -⟩ := (build_weights ha).1 he
          exact ⟨h1, .inl ⟨rfl, rfl, w5, rfl, h2, h3, h4⟩⟩
        · rintro ⟨h1, ⟨-, -, w5', h, h2, h3, h4⟩ | ⟨h, -⟩⟩
          · cases h; exact ⟨_, (build_weights ha).2 ⟨⟨h1, h2, h3, h4⟩, rfl⟩⟩
          · cases h
      · have : ∃ x, config cs none (some (.t5 w5)) (some R) = .error x := by
          unfold config
          by_cases h : cs.isEmpty <;> simp [h, bind, Except.bind, throw, throwThe, MonadExceptOf.throw]
        obtain ⟨x, hx⟩ := this
        simp [hbad x hx]
    · have : ∃ x, config cs (some k) (some (.t5 w5)) reps = .error x := by
        unfold config
        by_cases h : cs.isEmpty <;> simp [h, bind, Except.bind, throw, throwThe, MonadExceptOf.throw]
      obtain ⟨x, hx⟩ := this
      simp [hbad x hx]
  · have : ∃ x, config cs outCh (some .other) reps = .error x := by
      unfold config
      by_cases h : cs.isEmpty <;> cases outCh <;> cases reps <;>
        simp [h, bind, Except.bind, throw, throwThe, MonadExceptOf.throw, pure, Except.pure]
    obtain ⟨x, hx⟩ := this
    simp [hbad x hx]

/-! ## The module as a user has it -/

/-- An ElementwiseSum over accepted inputs that the constructor accepted; EM may since have turned some, but not all,
logits of a unit into `-inf`. -/
structure Ready (e : ES) : Prop where
  ne : e.cs ≠ []
  acc : ∀ c ∈ e.cs, Accepted c
  fit : Fit e.cs e.R
  co : 1 ≤ e.Co
  live : ∀ f < e.F, ∀ ci < e.Cin, ∀ co < e.Co, ∀ r < e.R, ∃ i < e.cs.length, e.θ f ci co i r ≠ ⊥

/-- Every module the constructor returns is `Ready` and has finite logits. -/
theorem build_ready {cs : List Circ} (ha : ∀ c ∈ cs, Accepted c) {outCh : Option ℤ} {w : Option WArg}
    {reps : Option ℕ} {rnd : ℕ → ℕ → ℕ → ℕ → ℕ → ℝ} (hr : ∀ f ci co i r, 0 ≤ rnd f ci co i r) {e : ES}
    (h : build cs outCh w reps rnd = .ok e) :
    Ready e ∧ e.cs = cs ∧ ∀ f < e.F, ∀ ci < e.Cin, ∀ co < e.Co, ∀ i < cs.length, ∀ r < e.R, e.θ f ci co i r ≠ ⊥ := by
  have key : ∀ (w5 : W5), cs ≠ [] → 1 ≤ w5.Co → Fit cs w5.R → WOk cs w5 →
      e = ⟨cs, w5.Co, w5.R, fun f ci co i r => logL (w5.val f ci co i r)⟩ →
      Ready e ∧ e.cs = cs ∧
        ∀ f < e.F, ∀ ci < e.Cin, ∀ co < e.Co, ∀ i < cs.length, ∀ r < e.R, e.θ f ci co i r ≠ ⊥ := by
    rintro w5 hne hCo hfit hw rfl
    have hfin : ∀ f < feats cs, ∀ ci < maxC cs, ∀ co < w5.Co, ∀ i < cs.length, ∀ r < w5.R,
        logL (w5.val f ci co i r) ≠ ⊥ := by
      intro f hf ci hci co hco i hi r hr
      obtain ⟨c, l, rfl⟩ := List.exists_cons_of_ne_nil hne
      have hp := hw.pos f (by rw [hw.Fw c (by simp), ← feats_eq hfit.features (c := c) (by simp)]; exact hf) ci
        (by rw [hw.Ci]; exact hci) co hco i (by rw [hw.n]; exact hi) r hr
      rw [Ne, ← expL_eq_zero_iff, expL_logL hp.le]
      exact hp.ne'
    refine ⟨⟨hne, ha, hfit, hCo, fun f hf ci hci co hco r hr => ⟨0, ?_, ?_⟩⟩, rfl, hfin⟩
    · exact List.length_pos_of_ne_nil hne
    · exact hfin f hf ci hci co hco 0 (List.length_pos_of_ne_nil hne) r hr
  obtain ⟨hne, ⟨rfl, rfl, w5, rfl, h2, h3, h4⟩ | ⟨rfl, k, rfl, h2, h3⟩⟩ :=
    (C66_accepts_iff ha outCh w reps hr).1 ⟨e, h⟩
  · exact key w5 hne h2 h3 h4 ((build_weights ha).1 h).2
  · exact key (initW cs k.toNat (reps.getD 1) rnd) hne (show 1 ≤ k.toNat by omega) h3
      (initW_ok hne h3.features _ _ hr) ((build_fresh ha hr).1 h).2

/-- **C66 (weights).** The weights read from the module are non-negative and sum to one over the inputs. -/
theorem C66_weights_convex {e : ES} (h : Ready e) {f ci co r : ℕ} (hf : f < e.F) (hci : ci < e.Cin) (hco : co < e.Co)
    (hr : r < e.R) :
    (∀ i, 0 ≤ e.weight f ci co i r) ∧ ∑ i ∈ Finset.range e.cs.length, e.weight f ci co i r = 1 :=
  ⟨fun _ => softmax_nonneg _ _ _, sum_softmax (h.live f hf ci hci co hco r hr)⟩

/-- **C66 (set, then get).** After an assignment (or construction) with weights `w` the module returns `w`
divided by its sums over the inputs - `w` itself when it sums to one exactly. -/
theorem C66_set_get {cs : List Circ} (hne : cs ≠ []) (hF : ∀ a ∈ cs, ∀ b ∈ cs, F a = F b) {Co R : ℕ} {w : W5} {θ}
    (h : setW cs Co R w = .ok θ) {f ci co i r : ℕ} (hf : f < w.Fw) (hci : ci < w.Ci) (hco : co < w.Co) (hi : i < w.n)
    (hr : r < w.R) :
    (ES.mk cs Co R θ).weight f ci co i r =
      w.val f ci co i r / ∑ j ∈ Finset.range w.n, w.val f ci co j r := by
  obtain ⟨⟨-, -, hw⟩, rfl⟩ := (setW_ok hne hF).1 h
  have hp := fun j (hj : j < w.n) => hw.pos f hf ci hci co hco j hj r hr
  unfold ES.weight
  rw [softmax_eq, ← hw.n]
  show expL (logL (w.val f ci co i r)) / ∑ j ∈ Finset.range w.n, expL (logL (w.val f ci co j r)) = _
  rw [expL_logL (hp i hi).le]
  congr 1
  exact Finset.sum_congr rfl fun j hj => expL_logL (hp j (Finset.mem_range.1 hj)).le

/-! ## Likelihood -/

/-- The channel of an input that is mixed into output channels `(ci, ·)`: one-channel inputs are shared by all. -/
def inCh (c : Circ) (ci : ℕ) : ℕ := if C c = 1 then 0 else ci

theorem inCh_lt {e : ES} (h : Ready e) {c : Circ} (hc : c ∈ e.cs) {ci : ℕ} (hci : ci < e.Cin) : inCh c ci < C c := by
  unfold inCh
  split
  · omega
  · rename_i h1
    rcases h.fit.channels c hc with h2 | h2
    · exact absurd h2 h1
    · rw [(channels_iff hc).2 h2]; exact hci

theorem inAt_eq {e : ES} {i : ℕ} (hi : i < e.cs.length) {ci : ℕ} (hci : ci < e.Cin) (f : ℕ) (x : Row) (r : ℕ) :
    e.inAt f x r i ci = featAt (den e.cs[i]) f x r (inCh e.cs[i] ci) := by
  unfold ES.inAt inCh
  rw [List.getElem?_eq_getElem hi]
  simp only []
  by_cases h1 : C e.cs[i] = 1
  · by_cases h2 : 1 < maxC e.cs
    · rw [if_pos ⟨h1, h2⟩, if_pos h1]
    · rw [if_neg (fun h => h2 h.2), if_pos h1]
      unfold ES.Cin at hci
      rw [show ci = 0 by omega]
  · rw [if_neg (fun h => h1 h.1), if_neg h1]

theorem div_mod_flat {Co ci co : ℕ} (hco : co < Co) : (ci * Co + co) / Co = ci ∧ (ci * Co + co) % Co = co := by
  constructor
  · rw [Nat.mul_comm, Nat.mul_add_div (by omega), Nat.div_eq_of_lt hco, Nat.add_zero]
  · rw [Nat.mul_add_mod_self_right, Nat.mod_eq_of_lt hco]

theorem flat_lt {e : ES} {ci co : ℕ} (hci : ci < e.Cin) (hco : co < e.Co) : ci * e.Co + co < e.C := by
  unfold ES.C
  unfold ES.Cin at hci
  calc ci * e.Co + co < (ci + 1) * e.Co := by rw [Nat.add_mul, Nat.one_mul]; omega
    _ ≤ maxC e.cs * e.Co := Nat.mul_le_mul_right _ hci
    _ = _ := Nat.mul_comm _ _

theorem div_lt_Cin {e : ES} {ch : ℕ} (hch : ch < e.C) : ch / e.Co < e.Cin ∧ ch % e.Co < e.Co := by
  unfold ES.C at hch
  have : 0 < e.Co := by
    rcases Nat.eq_zero_or_pos e.Co with h | h
    · rw [h] at hch; simp at hch
    · exact h
  exact ⟨Nat.div_lt_of_lt_mul hch, Nat.mod_lt _ this⟩

theorem expL_val {e : ES} {f ch r : ℕ} (hch : ch < e.C) (x : Row) :
    expL (e.val f x r ch) = ∑ i : Fin e.cs.length,
      e.weight f (ch / e.Co) (ch % e.Co) i (bc e.R r) * expL (featAt (den e.cs[i]) f x r (inCh e.cs[i] (ch / e.Co))) := by
  unfold ES.val
  rw [expL_lse, Finset.sum_range]
  refine Finset.sum_congr rfl fun i _ => ?_
  rw [expL_add, inAt_eq i.2 (div_lt_Cin hch).1, ES.logWeight, expL_logSoftmax_eq_softmax, mul_comm]
  rfl

/-- **C66 (likelihood).** Output channel `ci * Co + co` of feature `f` is the mixture, with the weights of `(f, ci, co)`,
of channel `ci` of the inputs (channel 0 for one-channel inputs). -/
theorem C66_log_likelihood {e : ES} {f ci co r : ℕ} (hci : ci < e.Cin) (hco : co < e.Co) {R : ℕ}
    (hR : e.tensorR = some R) (x : Row) :
    ∃ T, e.logLik x = .ok T ∧ expL (T f (ci * e.Co + co) r) = ∑ i : Fin e.cs.length,
      e.weight f ci co i (bc e.R r) * expL (featAt (den e.cs[i]) f x r (inCh e.cs[i] ci)) := by
  refine ⟨_, by unfold ES.logLik; rw [hR], ?_⟩
  rw [expL_val (flat_lt hci hco)]
  rw [(div_mod_flat hco).1, (div_mod_flat hco).2]

end Verif.ESum

import Verif.QpcInt
/-
C82: a region graph with partitions of different arity, meeting the hypotheses of all C82 theorems.
-/
namespace Verif.Qpc.Wit
open Graph

/-- Regions 0, 1, 2 are the single variables, 3 is `{0, 1}`, 4 is the root `{0, 1, 2}` with the two partitions
`{0, 1} | {2}` and `{0} | {1} | {2}`. -/
def g : RG where
  scope := fun r => if r = 3 then ⟨[0, 1], []⟩ else if r = 4 then ⟨[0, 1, 2], []⟩ else ⟨[(r : ℤ)], []⟩
  parts := fun r => if r = 3 then [[0, 1]] else if r = 4 then [[3, 2], [0, 1, 2]] else []

def U : Finset ℕ := {0, 1, 2, 3, 4}

theorem dA : ∀ x ∈ (g.scope 0).query, x ∉ (g.scope 1).query := by decide
theorem dB : ∀ x ∈ (g.scope 3).query, x ∉ (g.scope 2).query := by decide
theorem dC : ∀ x ∈ (g.scope 0).query, x ∉ (g.scope 1).query := by decide
theorem dD : ∀ x ∈ (g.scope 0).query, x ∉ (g.scope 2).query := by decide
theorem dE : ∀ x ∈ (g.scope 1).query, x ∉ (g.scope 2).query := by decide

theorem proper : Proper g U 4 6 where
  closed := by unfold Closed; decide
  root := by decide
  fuel := by decide
  acyclic := by
    refine ⟨fun r => if r = 3 then 1 else if r = 4 then 2 else 0, fun a c hc => ?_⟩
    unfold RG.children g at hc
    dsimp only at hc
    by_cases h3 : a = 3
    · subst h3
      simp at hc
      rcases hc with rfl | rfl <;> simp
    · by_cases h4 : a = 4
      · subst h4
        simp at hc
        rcases hc with rfl | rfl | rfl | rfl | rfl <;> simp
      · simp [h3, h4] at hc
  valid := by
    intro r p hp
    unfold g at hp
    dsimp only at hp
    by_cases h3 : r = 3
    · subst h3
      simp only [if_true, List.mem_singleton] at hp
      subst hp
      refine ⟨by simp, ?_, ?_⟩
      · intro i j hi hj hij
        simp only [List.length_cons, List.length_nil] at hj
        obtain rfl : i = 0 := by omega
        obtain rfl : j = 1 := by omega
        exact dA
      · intro x; simp [g]
    · by_cases h4 : r = 4
      · subst h4
        simp only [List.mem_cons, List.not_mem_nil, or_false, if_true, show (4 : ℕ) ≠ 3 by omega, if_false] at hp
        rcases hp with rfl | rfl
        · refine ⟨by simp, ?_, ?_⟩
          · intro i j hi hj hij
            simp only [List.length_cons, List.length_nil] at hj
            obtain rfl : i = 0 := by omega
            obtain rfl : j = 1 := by omega
            exact dB
          · intro x; simp [g, or_assoc]
        · refine ⟨by simp, ?_, ?_⟩
          · intro i j hi hj hij
            simp only [List.length_cons, List.length_nil] at hj
            have h : (i = 0 ∧ j = 1) ∨ (i = 0 ∧ j = 2) ∨ (i = 1 ∧ j = 2) := by omega
            rcases h with ⟨rfl, rfl⟩ | ⟨rfl, rfl⟩ | ⟨rfl, rfl⟩
            exacts [dC, dD, dE]
          · intro x; simp [g]
      · simp [h3, h4] at hp

/-- Two quadrature points with weights one half. -/
noncomputable def rule : Rule := ⟨1, 1, 2, 2, fun k => k, fun _ => 1 / 2⟩

/-- A configuration with ternary categorical leaves. -/
def conf (cls : Cls) (numClasses : ℤ) : Config := ⟨.categorical, some 3, 4, none, true, 1, numClasses, cls⟩

theorem rule_pos : rule.Pos := fun _ _ => by norm_num [rule]

theorem constructs (cls : Cls) (n : ℤ) (hn : 0 < n) : ∃ m, construct rule (conf cls n) g 6 4 = .ok m := by
  obtain ⟨m, _, _, _, _, h⟩ := C82_constructor rule (conf cls n) proper (by norm_num [rule])
  refine ⟨m, ?_⟩
  rw [h, if_neg (by simp [rule]), if_neg (by simp [conf]; omega), if_neg, if_neg (by simp [conf]), if_neg (by simp [conf])]
  rintro ⟨r, ⟨_, hr⟩, hl⟩
  by_cases h3 : r = 3
  · subst h3; simp [g] at hr
  · by_cases h4 : r = 4
    · subst h4; simp [g] at hr
    · simp [g, h3, h4] at hl

/-- **C82, a concrete circuit.** With every layer class the circuit over three ternary variables exists, its
log-likelihood is defined for every parameter setting, and the likelihood is a density over the three variables. -/
theorem _root_.Verif.Qpc.C82_example (cls : Cls) (θ : Params) :
    ∃ m, construct rule (conf cls 1) g 6 4 = .ok m ∧ ∃ ll : (Var → ℝ) → ℝ, (∀ x, logLik m θ x = .ok (ll x)) ∧
      ∀ x, (MeasureTheory.lmarginal (fun _ => refM (conf cls 1)) {0, 1, 2}
        fun y => ENNReal.ofReal (Real.exp (ll y))) x = 1 := by
  obtain ⟨m, hm⟩ := constructs cls 1 one_pos
  obtain ⟨ll, h1, _, _, h2⟩ := C82_density proper (by norm_num [rule]) rule_pos hm θ rfl (.inl (by simp [g]))
  exact ⟨m, hm, ll, h1, h2⟩

/-- **C82, more than one class.** A configuration with two or three classes is accepted by the constructor, but its
log-likelihood fails for every parameter setting and every row. -/
theorem _root_.Verif.Qpc.C82_classes_never_work (cls : Cls) (θ : Params) (x : Var → ℝ) :
    (∃ m, construct rule (conf cls 2) g 6 4 = .ok m ∧ logLik m θ x = .error .notImplemented) ∧
      ∃ m, construct rule (conf cls 3) g 6 4 = .ok m ∧ logLik m θ x = .error .runtimeError := by
  constructor
  · obtain ⟨m, hm⟩ := constructs cls 2 (by omega)
    exact ⟨m, hm, (C82_fails proper (by norm_num [rule]) rule_pos hm θ (.inl (by simp [conf])) x).trans (by simp [conf, rule])⟩
  · obtain ⟨m, hm⟩ := constructs cls 3 (by omega)
    exact ⟨m, hm, (C82_fails proper (by norm_num [rule]) rule_pos hm θ (.inl (by simp [conf])) x).trans
      (by simp [conf, rule, g])⟩

end Verif.Qpc.Wit

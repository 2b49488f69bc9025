import Verif.PromMain

/-!
# Concrete cases for C32 (matrices) and C76
-/

namespace Verif.Prometheus.Wit

open Verif Verif.Circ Verif.Build Verif.Prometheus MeasureTheory

/-- A symmetric matrix whose off-diagonal entries are pairwise distinct and not zero. -/
noncomputable def A : Mat := ⟨3, 3, fun i j => 1 + i + j⟩

example : ∃ ps, fullPartitions A = .ok ps ∧ ps.length = 2 ∧
    (∀ k (hk : k < ps.length), Partition 3 ps[k] ∧ ps[k].length = k + 2) ∧ ps.Pairwise fun p q => Refines q p :=
  C32_matrix_documented (A := A) rfl (by decide) fun i _ j _ _ => by
    have : (0 : ℝ) < 1 + i + j := by positivity
    exact this.ne'

example : ∃ ps, fullPartitions A = .ok ps ∧ ∀ p ∈ ps, ∃ t,
    Components 3 (fun a b => a ≤ b ∧ b < 3 ∧ A.at2 a b ≠ 0 ∧ t ≤ A.at2 a b) p ∧
    ∃ a b, a < b ∧ b < 3 ∧ A.at2 a b ≠ 0 ∧ A.at2 a b < t :=
  C32_matrix_single_linkage (A := A) rfl (by decide) (fun i j => by simp only [A]; ring) (by
    intro i j k l hij hj hkl hl _ h
    have hj' : j < 3 := hj
    have hl' : l < 3 := hl
    have h' : (1 : ℝ) + i + j = 1 + k + l := h
    have : i + j = k + l := by
      have : ((i + j : ℕ) : ℝ) = ((k + l : ℕ) : ℝ) := by push_cast; linarith
      exact_mod_cast this
    omega)

/-- Two Bernoulli templates, two output channels, slices of at least two columns and two rows. -/
def cfg : Cfg := ⟨[([0], 1), ([1], 1)], 2, 2, 2, 2, true, .corr, .full⟩

noncomputable def O : Oracle where
  clus := fun _ rows _ => (List.range rows.length).map (· / 2)
  custom := fun _ _ _ => .error .valueError
  rdc := fun _ _ _ _ _ => 0
  choices := fun _ _ _ _ => []
  fit := fun _ _ _ _ => fun _ _ _ => Leaves.bernoulliLL (3 / 4)
  rnd := fun _ _ _ _ _ _ => ((0 : ℝ) : LogV)

/-- Four complete rows; in each cluster the two columns are correlated. -/
def rows : List Row := [fun _ => some 0, fun _ => some 1, fun v => some (if v = 0 then 0 else 1), fun v => some (if v = 0 then 1 else 0)]

theorem cfg_ok : CfgOk cfg 1 := ⟨by simp [cfg], by simp [cfg], le_rfl⟩

theorem oracle_ok : OracleOk (fun _ => Leaves.countBelow 2) cfg O := by
  refine ⟨by simp [O], by simp [cfg], by simp [O], ?_, by simp [O]⟩
  intro path t rows q i hi ch r
  exact ⟨Leaves.bernoulli_measurable _, Leaves.bernoulli_normalised (by norm_num) (by norm_num)⟩

theorem scope_ok : ScopeOk cfg [0, 1] := ⟨by simp, by simp, by simp, by simp [cfg]⟩

theorem rows_complete : Complete rows [0, 1] := by
  intro r hr v _
  simp only [rows, List.mem_cons, List.not_mem_nil, or_false] at hr
  rcases hr with rfl | rfl | rfl | rfl <;> rfl

/-- C76: the assumptions of the theorems are met together, above the slice limits. -/
theorem C76_witness : CfgOk cfg 1 ∧ OracleOk (fun _ => Leaves.countBelow 2) cfg O ∧ argsOk cfg = true ∧ ScopeOk cfg [0, 1] ∧
    Complete rows [0, 1] ∧ cfg.minF ≤ ([0, 1] : List Var).length ∧ cfg.minI ≤ rows.length :=
  ⟨cfg_ok, oracle_ok, rfl, scope_ok, rows_complete, by decide, by decide⟩

/-- The hypotheses of `C76_missing` are met: a missing value in the first cluster. -/
example : learnPrometheus cfg O 5 ((fun _ => none) :: rows) (some [0, 1]) = .error .unsupported :=
  (C76_missing (cfg := cfg) (O := O) (rows := (fun _ => none) :: rows) (q := [0, 1]) (id := 0) (r := fun _ => none) (v := 0) rfl (Or.inl rfl) (by decide) (by decide) (by decide) (by decide)
    (show (fun _ => none : Row) ∈ [(fun _ => none : Row), fun _ => some 0] by simp) (by simp) rfl 4).2 (by simp)

/-- The hypotheses of `C76_constant_columns` are met: the clusters separate the rows (0, 0), (0, 0), (1, 1), (1, 1), the data
are perfectly dependent, and yet the result is the product of two leaves. -/
example : learn cfg O 5 [0] [fun _ => some 0, fun _ => some 0, fun _ => some 1, fun _ => some 1] [0, 1] =
    mvLeaf cfg O [0] [fun _ => some 0, fun _ => some 0, fun _ => some 1, fun _ => some 1] [0, 1] :=
  C76_constant_columns rfl rfl (by intro r hr v _; simp only [List.mem_cons, List.not_mem_nil, or_false] at hr; rcases hr with rfl | rfl | rfl | rfl <;> rfl)
    [0] (by
      intro id hid
      have hid' : id ∈ [0, 0, 1, 1] := hid
      refine ⟨5, fun v _ _ => ?_⟩
      rcases (by simpa using hid' : id = 0 ∨ id = 1) with rfl | rfl
      · refine ⟨0, fun r hr => ?_⟩
        have hr' : r ∈ [(fun _ => some 0 : Row), fun _ => some 0] := hr
        simp only [List.mem_cons, List.not_mem_nil, or_false] at hr'
        rcases hr' with rfl | rfl <;> rfl
      · refine ⟨1, fun r hr => ?_⟩
        have hr' : r ∈ [(fun _ => some 1 : Row), fun _ => some 1] := hr
        simp only [List.mem_cons, List.not_mem_nil, or_false] at hr'
        rcases hr' with rfl | rfl <;> rfl) (by simp) 4

end Verif.Prometheus.Wit

import Verif.HcltLearn
import Verif.ListProdWit

/-!
C70: witnesses.
-/

namespace Verif.Hclt.Wit

open Finset MeasureTheory Verif.Circ
open Verif.Span (Edge Adj IsSpanningTree Conn)
open Verif.LP (Mod)
open Verif.LP.Wit (p ν A p_pos p_le)

/-- The chain 0 - 1. -/
def chain : List (Edge 2) := [(0, 1)]

def par (v : Fin 2) : Option (Fin 2) := if v = 0 then none else some 0

def dep (v : Fin 2) : ℕ := v

theorem chain_tree : TreeList chain := by
  refine ⟨by decide, by decide, by decide, ?_⟩
  have h1 : Conn (n := 2) chain.toFinset 0 1 := Conn.edge (e := ((0 : Fin 2), (1 : Fin 2))) (by decide)
  intro a b
  fin_cases a <;> fin_cases b
  · exact Conn.refl _ _
  · exact h1
  · exact h1.symm
  · exact Conn.refl _ _

theorem chain_rooted : Rooted chain.toFinset 0 par dep := by
  refine ⟨rfl, rfl, by decide, by decide, ?_, by decide⟩
  unfold Adj
  decide

/-- Emissions: state 0 says one with probability 1/4, state 1 with probability 3/4. -/
noncomputable def em (_ : Fin 2) (z : ℕ) : ℝ → LogV := Leaves.bernoulliLL (p z)

theorem em_ok (H : ℕ) : EmOk ν H em := fun _ z _ =>
  ⟨Leaves.bernoulli_measurable _, Leaves.bernoulli_normalised (p_pos z) (p_le z)⟩

/-- Stay in the same state with probability 3/4. -/
noncomputable def θ (_ : Fin 2) (ci co : ℕ) : LogV := logL (A ci co)

theorem θ_finite (Co : ℕ) : Finite 2 Co θ := by
  intro v ci _ co _
  refine logL_ne_bot ?_
  unfold A
  split_ifs <;> norm_num

theorem θ_usable (Co : ℕ) : Usable 2 Co θ := fun v co hco => ⟨0, by norm_num, θ_finite Co v 0 (by norm_num) co hco⟩

theorem states_eq : states 2 2 = {![0, 0], ![0, 1], ![1, 0], ![1, 1]} := by decide

/-- The row whose first two columns are 1 (the second only if asked for). -/
def row (b : Bool) : Row := fun v => if v = 0 ∨ (b = true ∧ v = 1) then some 1 else none

theorem emit0 (b : Bool) (z : ℕ) : emit em (row b) 0 z = p z := by
  have : row b (((0 : Fin 2) : ℕ) : ℤ) = some 1 := by simp [row]
  unfold emit
  rw [this]
  show expL (Leaves.bernoulliLL (p z) 1) = _
  unfold Leaves.bernoulliLL
  simp [expL_logL (p_pos z)]

theorem emit1 (b : Bool) (z : ℕ) : emit em (row b) 1 z = if b then p z else 1 := by
  cases b with
  | true =>
    have : row true (((1 : Fin 2) : ℕ) : ℤ) = some 1 := by simp [row]
    unfold emit
    rw [this]
    show expL (Leaves.bernoulliLL (p z) 1) = p z
    unfold Leaves.bernoulliLL
    simp [expL_logL (p_pos z)]
  | false =>
    have : row false (((1 : Fin 2) : ℕ) : ℤ) = none := by simp [row]
    unfold emit
    rw [this]
    show expL 0 = 1
    simp

theorem sm (co z : ℕ) (hz : z < 2) (hco : co < 2) : softmax 2 (fun i => θ 1 i co) z = A z co := by
  have hpos : ∀ i, expL (θ 1 i co) = A i co := fun i => expL_logL (by unfold A; split_ifs <;> norm_num)
  rw [softmax_eq, sum_range_succ, sum_range_one]
  rw [hpos, hpos, hpos]
  interval_cases z <;> interval_cases co <;> norm_num [A]

theorem smp (z : ℕ) : softmax 2 (fun _ => logL (1/2)) z = 1/2 := by
  rw [softmax_eq, sum_const, card_range, expL_logL (by norm_num)]
  norm_num

theorem value (b : Bool) : latentTree par 0 2 (softmax 2 fun _ => logL (1/2)) (transProb 2 2 θ) (emit em (row b)) =
    if b then 9/32 else 1/2 := by
  have he : (univ.erase (0 : Fin 2)) = {1} := by decide
  have hps : ∀ ζ : Fin 2 → ℕ, parState par ζ 1 = ζ 0 := fun _ => rfl
  unfold latentTree
  rw [states_eq, sum_insert (by decide), sum_insert (by decide), sum_insert (by decide), sum_singleton]
  simp only [he, prod_singleton, Fin.prod_univ_two, emit0, emit1, hps, smp, transProb, Matrix.cons_val_zero, Matrix.cons_val_one]
  norm_num
  rw [sm 0 0 (by norm_num) (by norm_num), sm 0 1 (by norm_num) (by norm_num), sm 1 0 (by norm_num) (by norm_num),
    sm 1 1 (by norm_num) (by norm_num)]
  cases b <;> norm_num [p, A]

/-- **C70 (non-vacuity).** A tree, parameters and evidence that meet all hypotheses of the theorems; with two channels per
transition the two columns are dependent (9/32 ≠ 1/2 · 1/2) … -/
theorem C70_example : TreeList chain ∧ Rooted chain.toFinset 0 par dep ∧ EmOk ν 2 em ∧ Finite 2 2 θ ∧ Usable 2 2 θ ∧ Width 2 2 ∧
    (∀ v, dep v < 2) ∧
    Mod.likelihood (hclt 2 chain 0 2 2 em θ fun _ => logL (1/2)) (row true) = 9/32 ∧
    Mod.likelihood (hclt 2 chain 0 2 2 em θ fun _ => logL (1/2)) (row false) = 1/2 := by
  have hd : ∀ v, dep v < 2 := fun v => v.2
  refine ⟨chain_tree, chain_rooted, em_ok 2, θ_finite 2, θ_usable 2, .inl rfl, hd, ?_, ?_⟩
  · rw [C70_density chain_tree chain_rooted (by norm_num) (.inl rfl) (em_ok 2) (θ_usable 2) hd, value]; rfl
  · rw [C70_density chain_tree chain_rooted (by norm_num) (.inl rfl) (em_ok 2) (θ_usable 2) hd, value]; rfl

/-- Draws as the constructors make them. -/
noncomputable def draws : Draws 2 := ⟨em, fun _ z => if z = 0 then 1/4 else 3/4, fun _ => 1/2⟩

theorem draws_ok : DrawsOk ν 2 draws := by
  refine ⟨em_ok 2, fun v => ⟨fun z _ => ?_, ?_⟩, fun z _ => ?_, ?_⟩
  · show (0 : ℝ) < if z = 0 then 1/4 else 3/4
    split_ifs <;> norm_num
  · show ∑ z ∈ range 2, (if z = 0 then 1/4 else 3/4 : ℝ) = 1
    rw [sum_range_succ, sum_range_one]; norm_num
  · show (0 : ℝ) < 1/2
    norm_num
  · show ∑ z ∈ range 2, (1/2 : ℝ) = 1
    rw [sum_range_succ, sum_range_one]; norm_num

/-- … and the learner succeeds on two columns with either initialisation; a recursion limit of one level is too small. -/
theorem C70_learn_example (uniform : Bool) :
    (∃ pick : List (Mst.Entry 2) → ℕ, Mst.PopsMin pick ∧ ∃ m, learn 2 (fun _ => 1) 1 2 uniform pick (fun _ => draws) (fun _ => 1) = .ok m) ∧
    buildTree 1 chain 2 uniform draws = .error .recursionError := by
  constructor
  · obtain ⟨pick, hp⟩ := Mst.C27_pick_exists (n := 2)
    obtain ⟨ts, h, -, -, -, -, h1, h2, -⟩ := C70_learn (μ := ν) (fuel := 2) (n := 2) (by norm_num) (fun _ => 1) (k := 1) (H := 2) le_rfl
      (by norm_num) uniform pick hp (D := fun _ => draws) (fun _ => draws_ok) le_rfl (mix := fun l _ => 1 / (l : ℝ))
      (fun l hl => ⟨fun _ _ => by positivity, sum_unif hl⟩)
    have hl : ts.length = 1 := by omega
    have : (fun _ : ℕ => 1 / ((ts.length : ℕ) : ℝ)) = fun _ => 1 := by rw [hl]; norm_num
    beta_reduce at h
    rw [this] at h
    exact ⟨pick, hp, _, h⟩
  · rw [C70_construction (μ := ν) chain_tree (by norm_num) chain_rooted (by norm_num) draws_ok, if_neg]
    intro h
    have := h 1
    unfold dep at this
    norm_num at this

end Verif.Hclt.Wit

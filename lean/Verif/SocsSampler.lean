import Verif.Socs
import Mathlib.MeasureTheory.Measure.Lebesgue.Basic
import Mathlib.Analysis.SpecialFunctions.Exp
import Mathlib.Algebra.Order.BigOperators.Group.Finset

/-!
# C54: the SOCS sampler (socs.py:218-307)

A finite state space `X` of complete rows.  `comp i x` is the value of component `i`; the proposal of component `i` has
log-likelihood `lq i x` and `proposal.sample()` draws `x` with probability `expL (lq i x)` (C11/C12).
-/

open MeasureTheory

namespace Verif
namespace Inner

/-! ## Model -/

/-- Probability, over the uniform number `u ∈ [0,1)`, that a proposal is accepted (socs.py:298-299). -/
noncomputable def accProb (tx tp qx qp : LogV) : ℝ := volume.real {u : ℝ | u ∈ Set.Ico 0 1 ∧ accepts tx tp qx qp u}

/-- One iteration of the loop, socs.py:292-302: law of the next state given the current one. -/
noncomputable def mhStep {X : Type*} [Fintype X] [DecidableEq X] (t lq : X → LogV) (x y : X) : ℝ :=
  ∑ p, expL (lq p) * (accProb (t x) (t p) (lq x) (lq p) * (if y = p then 1 else 0) +
    (1 - accProb (t x) (t p) (lq x) (lq p)) * (if y = x then 1 else 0))

/-- Law of the state after `n` iterations, started from the proposal (socs.py:288-302). -/
noncomputable def mhLaw {X : Type*} [Fintype X] [DecidableEq X] (t lq : X → LogV) : ℕ → X → ℝ
  | 0 => fun x => expL (lq x)
  | n + 1 => fun y => ∑ x, mhLaw t lq n x * mhStep t lq x y

/-- Law of one row of `SOCS._sample` with `m` components and `n = burn_in + steps` iterations, socs.py:243-305: the
component is drawn with probability proportional to `exp(logZ i)`, then the chain is run. -/
noncomputable def socsSample {X : Type*} [Fintype X] [DecidableEq X] (m : ℕ) (logZ : ℕ → ℝ) (comp : ℕ → X → ℝ)
    (lq : ℕ → X → LogV) (n : ℕ) (x : X) : ℝ :=
  ∑ i ∈ Finset.range m, (Real.exp (logZ i) / ∑ j ∈ Finset.range m, Real.exp (logZ j)) *
    mhLaw (fun x => twoLogAbs (comp i x)) (lq i) n x

/-! ## Acceptance probabilities -/

theorem volume_logLt (a : ℝ) (ha : a ≤ 0) :
    volume.real {u : ℝ | u ∈ Set.Ico 0 1 ∧ logL u < ((a : ℝ) : LogV)} = Real.exp a := by
  have : {u : ℝ | u ∈ Set.Ico 0 1 ∧ logL u < ((a : ℝ) : LogV)} = Set.Ico 0 (Real.exp a) := by
    ext u
    simp only [Set.mem_ofPred_eq, Set.mem_Ico]
    constructor
    · rintro ⟨⟨h0, h1⟩, h⟩
      refine ⟨h0, ?_⟩
      unfold logL at h
      split_ifs at h with hu
      · rw [WithBot.coe_lt_coe, Real.log_lt_iff_lt_exp hu] at h
        exact h
      · have : u = 0 := le_antisymm (not_lt.1 hu) h0
        rw [this]; exact Real.exp_pos a
    · rintro ⟨h0, h⟩
      refine ⟨⟨h0, h.trans_le (Real.exp_le_one_iff.2 ha)⟩, ?_⟩
      unfold logL
      split_ifs with hu
      · rw [WithBot.coe_lt_coe, Real.log_lt_iff_lt_exp hu]
        exact h
      · exact WithBot.bot_lt_coe a
  rw [this, Real.volume_real_Ico_of_le (Real.exp_pos a).le, sub_zero]

/-- Both targets positive: the usual Metropolis-Hastings ratio. -/
theorem accProb_fin (a b c d : ℝ) :
    accProb (a : LogV) (b : LogV) (c : LogV) (d : LogV) = min 1 (Real.exp b * Real.exp c / (Real.exp a * Real.exp d)) := by
  have : accProb (a : LogV) (b : LogV) (c : LogV) (d : LogV) = Real.exp (min ((b - a) + (c - d)) 0) :=
    volume_logLt _ (min_le_right _ _)
  rw [this, Real.exp_monotone.map_min, Real.exp_zero, min_comm]
  congr 1
  rw [← Real.exp_add, ← Real.exp_add, ← Real.exp_sub]
  congr 1
  ring

/-- The current state has target zero and the proposed one has not: accepted. -/
theorem accProb_bot_fin (b c d : ℝ) : accProb ⊥ (b : LogV) (c : LogV) (d : LogV) = 1 := by
  have : accProb ⊥ (b : LogV) (c : LogV) (d : LogV) = Real.exp 0 := volume_logLt 0 le_rfl
  rw [this, Real.exp_zero]

/-- The proposed state has target zero: rejected (with `-inf`, or NaN when both have target zero). -/
theorem accProb_bot (tx : LogV) (c d : ℝ) : accProb tx ⊥ (c : LogV) (d : LogV) = 0 := by
  have : {u : ℝ | u ∈ Set.Ico 0 1 ∧ accepts tx ⊥ (c : LogV) (d : LogV) u} = ∅ := by
    ext u
    simp only [Set.mem_ofPred_eq, Set.mem_empty_iff_false, iff_false, not_and]
    intro _
    induction tx using WithBot.recBotCoe with
    | bot => exact id
    | coe a => exact id
  unfold accProb
  rw [this]
  simp

theorem accProb_le_one (tx tp qx qp : LogV) : accProb tx tp qx qp ≤ 1 := by
  unfold accProb
  calc volume.real {u : ℝ | u ∈ Set.Ico 0 1 ∧ accepts tx tp qx qp u} ≤ volume.real (Set.Ico (0 : ℝ) 1) :=
        measureReal_mono (fun u hu => hu.1) (by simp)
    _ = 1 := by simp

theorem accProb_nonneg (tx tp qx qp : LogV) : 0 ≤ accProb tx tp qx qp := measureReal_nonneg

variable {X : Type*} [Fintype X] [DecidableEq X]

theorem mhStep_eq (t lq : X → LogV) (x y : X) :
    mhStep t lq x y = expL (lq y) * accProb (t x) (t y) (lq x) (lq y) +
      (if y = x then ∑ p, expL (lq p) * (1 - accProb (t x) (t p) (lq x) (lq p)) else 0) := by
  unfold mhStep
  simp only [mul_add, Finset.sum_add_distrib]
  congr 1
  · simp
  · split_ifs <;> simp

theorem mhStep_nonneg (t lq : X → LogV) (x y : X) : 0 ≤ mhStep t lq x y := by
  unfold mhStep
  refine Finset.sum_nonneg fun p _ => mul_nonneg (expL_nonneg _) (add_nonneg (mul_nonneg (accProb_nonneg _ _ _ _) ?_)
    (mul_nonneg (sub_nonneg.2 (accProb_le_one _ _ _ _)) ?_))
  · split_ifs <;> norm_num
  · split_ifs <;> norm_num

theorem mhStep_sum (t lq : X → LogV) (hq : ∑ x, expL (lq x) = 1) (x : X) : ∑ y, mhStep t lq x y = 1 := by
  unfold mhStep
  rw [Finset.sum_comm]
  refine Eq.trans (Finset.sum_congr rfl fun p _ => ?_) hq
  rw [← Finset.mul_sum, Finset.sum_add_distrib, ← Finset.mul_sum, ← Finset.mul_sum]
  simp

theorem mhLaw_nonneg (t lq : X → LogV) : ∀ n x, 0 ≤ mhLaw t lq n x
  | 0, _ => expL_nonneg _
  | n + 1, x => Finset.sum_nonneg fun y _ => mul_nonneg (mhLaw_nonneg t lq n y) (mhStep_nonneg t lq y x)

theorem mhLaw_sum (t lq : X → LogV) (hq : ∑ x, expL (lq x) = 1) : ∀ n, ∑ x, mhLaw t lq n x = 1
  | 0 => hq
  | n + 1 => by
    unfold mhLaw
    rw [Finset.sum_comm]
    simp only [← Finset.mul_sum, mhStep_sum t lq hq, mul_one]
    exact mhLaw_sum t lq hq n

/-- States outside the support of the proposal are never visited. -/
theorem mhLaw_support (t lq : X → LogV) {x : X} (hx : lq x = ⊥) : ∀ n, mhLaw t lq n x = 0
  | 0 => by unfold mhLaw; rw [hx]; rfl
  | n + 1 => by
    unfold mhLaw
    refine Finset.sum_eq_zero fun y _ => ?_
    by_cases h : x = y
    · subst h
      rw [mhLaw_support t lq hx n, zero_mul]
    · rw [mhStep_eq, if_neg h, hx]
      simp [expL]

/-- Detailed balance. -/
theorem mh_balance (t lq : X → LogV) (hc : ∀ x, t x ≠ ⊥ → lq x ≠ ⊥) (x y : X) :
    expL (t x) * mhStep t lq x y = expL (t y) * mhStep t lq y x := by
  by_cases h : x = y
  · rw [h]
  rw [mhStep_eq, mhStep_eq, if_neg (Ne.symm h), if_neg h, add_zero, add_zero]
  have hcx := hc x
  have hcy := hc y
  generalize t x = a at *
  generalize t y = b at *
  generalize lq x = c at *
  generalize lq y = d at *
  induction a using WithBot.recBotCoe with
  | bot =>
    induction b using WithBot.recBotCoe with
    | bot => simp [expL]
    | coe b =>
      induction d using WithBot.recBotCoe with
      | bot => exact absurd rfl (hcy (by simp))
      | coe d =>
        induction c using WithBot.recBotCoe with
        | bot => simp [expL]
        | coe c => rw [accProb_bot]; simp [expL]
  | coe a =>
    induction c using WithBot.recBotCoe with
    | bot => exact absurd rfl (hcx (by simp))
    | coe c =>
      induction d using WithBot.recBotCoe with
      | bot =>
        induction b using WithBot.recBotCoe with
        | bot => simp [expL]
        | coe b => exact absurd rfl (hcy (by simp))
      | coe d =>
        induction b using WithBot.recBotCoe with
        | bot => rw [accProb_bot]; simp [expL]
        | coe b =>
          rw [accProb_fin, accProb_fin]
          simp only [expL]
          have ha := Real.exp_pos a
          have hb := Real.exp_pos b
          have hc' := Real.exp_pos c
          have hd := Real.exp_pos d
          generalize Real.exp a = a at *
          generalize Real.exp b = b at *
          generalize Real.exp c = c at *
          generalize Real.exp d = d at *
          rw [← mul_assoc, ← mul_assoc, mul_min_of_nonneg _ _ (by positivity), mul_min_of_nonneg _ _ (by positivity),
            min_comm]
          congr 1
          · field_simp
          · field_simp

/-- The target distribution: normalised `expL ∘ t`. -/
noncomputable def target (t : X → LogV) (x : X) : ℝ := expL (t x) / ∑ y, expL (t y)

/-- **C54.** The Metropolis-Hastings step leaves the distribution proportional to `exp t` invariant (for the sampler:
`t = 2 log |c_i|`, so the distribution proportional to `c_i²`), for every proposal whose support covers it. -/
theorem C54_invariant (t lq : X → LogV) (hq : ∑ x, expL (lq x) = 1) (hc : ∀ x, t x ≠ ⊥ → lq x ≠ ⊥) (y : X) :
    ∑ x, target t x * mhStep t lq x y = target t y := by
  have : ∀ x, target t x * mhStep t lq x y = target t y * mhStep t lq y x := by
    intro x
    unfold target
    rw [div_mul_eq_mul_div, div_mul_eq_mul_div, mh_balance t lq hc]
  simp only [this]
  rw [← Finset.mul_sum, mhStep_sum t lq hq, mul_one]

/-- Minorisation: from every state the next one is distributed as the target with probability at least `1/M`. -/
theorem mhStep_ge (t lq : X → LogV) (hc : ∀ x, t x ≠ ⊥ → lq x ≠ ⊥) {M : ℝ} (hM : 0 < M)
    (hb : ∀ x, target t x ≤ M * expL (lq x)) {x : X} (hx : lq x ≠ ⊥) (y : X) :
    target t y / M ≤ mhStep t lq x y := by
  have hT : 0 ≤ ∑ y, expL (t y) := Finset.sum_nonneg fun y _ => expL_nonneg _
  rw [mhStep_eq]
  have hrest : 0 ≤ (if y = x then ∑ p, expL (lq p) * (1 - accProb (t x) (t p) (lq x) (lq p)) else 0) := by
    split_ifs
    · exact Finset.sum_nonneg fun p _ => mul_nonneg (expL_nonneg _) (sub_nonneg.2 (accProb_le_one _ _ _ _))
    · exact le_rfl
  refine le_trans ?_ (le_add_of_nonneg_right hrest)
  have hby := hb y
  have hbx := hb x
  have hcy := hc y
  unfold target at *
  generalize (∑ y, expL (t y)) = T at *
  generalize t x = a at *
  generalize t y = b at *
  generalize lq x = c at *
  generalize lq y = d at *
  induction b using WithBot.recBotCoe with
  | bot =>
    simp only [expL, zero_div]
    exact mul_nonneg (expL_nonneg _) (accProb_nonneg _ _ _ _)
  | coe b =>
    induction d using WithBot.recBotCoe with
    | bot => exact absurd rfl (hcy (by simp))
    | coe d =>
      induction c using WithBot.recBotCoe with
      | bot => exact absurd rfl hx
      | coe c =>
        induction a using WithBot.recBotCoe with
        | bot =>
          rw [accProb_bot_fin, mul_one, div_le_iff₀ hM, mul_comm]
          exact hby
        | coe a =>
          rw [accProb_fin]
          simp only [expL] at *
          have ha := Real.exp_pos a
          have hb' := Real.exp_pos b
          have hc' := Real.exp_pos c
          have hd := Real.exp_pos d
          generalize Real.exp a = a at *
          generalize Real.exp b = b at *
          generalize Real.exp c = c at *
          generalize Real.exp d = d at *
          rcases hT.eq_or_lt with h0 | h0
          · rw [← h0]
            simp only [div_zero, zero_div]
            exact mul_nonneg hd.le (le_min zero_le_one (by positivity))
          · rw [mul_min_of_nonneg _ _ hd.le]
            refine le_min ?_ ?_
            · rw [mul_one, div_le_iff₀ hM, mul_comm]
              exact hby
            · rw [div_le_iff₀ h0] at hbx
              rw [div_div, div_le_iff₀ (by positivity)]
              have : d * (b * c / (a * d)) * (T * M) = b * (M * c * T / a) := by field_simp
              rw [this]
              have : 1 ≤ M * c * T / a := by rw [le_div_iff₀ ha, one_mul]; exact hbx
              nlinarith

/-- Sum of absolute differences (twice the total variation distance). -/
noncomputable def dist1 (p q : X → ℝ) : ℝ := ∑ x, |p x - q x|

/-- **C54.** From the proposal as starting distribution, the distance to the target shrinks geometrically in the number
of iterations, with rate `1 - 1/M` for any bound `M` on target / proposal. -/
theorem C54_convergence (t lq : X → LogV) (hq : ∑ x, expL (lq x) = 1) (hc : ∀ x, t x ≠ ⊥ → lq x ≠ ⊥)
    (hpos : ∃ x, t x ≠ ⊥) {M : ℝ} (hM : 0 < M) (hb : ∀ x, target t x ≤ M * expL (lq x)) (n : ℕ) :
    dist1 (mhLaw t lq n) (target t) ≤ 2 * (1 - 1 / M) ^ n := by
  have hT : 0 < ∑ y, expL (t y) := by
    obtain ⟨x, hx⟩ := hpos
    exact Finset.sum_pos' (fun y _ => expL_nonneg _) ⟨x, Finset.mem_univ _, (expL_pos_iff _).2 hx⟩
  have hts : ∑ y, target t y = 1 := by
    unfold target
    rw [← Finset.sum_div, div_self hT.ne']
  have htn : ∀ y, 0 ≤ target t y := fun y => div_nonneg (expL_nonneg _) hT.le
  have hM1 : 0 ≤ 1 - 1 / M := by
    have : 1 ≤ M := by
      calc (1 : ℝ) = ∑ y, target t y := hts.symm
        _ ≤ ∑ y, M * expL (lq y) := Finset.sum_le_sum fun y _ => hb y
        _ = M := by rw [← Finset.mul_sum, hq, mul_one]
    rw [sub_nonneg, div_le_one hM]
    exact this
  induction n with
  | zero =>
    rw [pow_zero, mul_one]
    calc dist1 (mhLaw t lq 0) (target t) ≤ ∑ x, (mhLaw t lq 0 x + target t x) := by
          refine Finset.sum_le_sum fun x _ => ?_
          have := mhLaw_nonneg t lq 0 x
          have := htn x
          rw [abs_le]
          constructor <;> linarith
      _ = 2 := by rw [Finset.sum_add_distrib, mhLaw_sum t lq hq, hts]; norm_num
  | succ n ih =>
    have hdiff : ∀ y, mhLaw t lq (n + 1) y - target t y =
        ∑ x, (mhLaw t lq n x - target t x) * (mhStep t lq x y - target t y / M) := by
      intro y
      have e1 : ∑ x, (mhLaw t lq n x - target t x) * (target t y / M) = 0 := by
        rw [← Finset.sum_mul, Finset.sum_sub_distrib, mhLaw_sum t lq hq, hts, sub_self, zero_mul]
      simp only [mul_sub]
      rw [Finset.sum_sub_distrib, e1, sub_zero]
      simp only [sub_mul]
      rw [Finset.sum_sub_distrib, C54_invariant t lq hq hc]
      rfl
    have hzero : ∀ x, lq x = ⊥ → mhLaw t lq n x - target t x = 0 := by
      intro x hx
      rw [mhLaw_support t lq hx]
      have : t x = ⊥ := by
        by_contra h
        exact hc x h hx
      unfold target
      rw [this]
      simp [expL]
    calc dist1 (mhLaw t lq (n + 1)) (target t)
        = ∑ y, |∑ x, (mhLaw t lq n x - target t x) * (mhStep t lq x y - target t y / M)| := by
          unfold dist1
          simp only [hdiff]
      _ ≤ ∑ y, ∑ x, |mhLaw t lq n x - target t x| * (mhStep t lq x y - target t y / M) := by
          refine Finset.sum_le_sum fun y _ => (Finset.abs_sum_le_sum_abs _ _).trans
            (Finset.sum_le_sum fun x _ => ?_)
          by_cases hx : lq x = ⊥
          · rw [hzero x hx]; simp
          · rw [abs_mul, abs_of_nonneg (sub_nonneg.2 (mhStep_ge t lq hc hM hb hx y))]
      _ = ∑ x, |mhLaw t lq n x - target t x| * (1 - 1 / M) := by
          rw [Finset.sum_comm]
          refine Finset.sum_congr rfl fun x _ => ?_
          rw [← Finset.mul_sum, Finset.sum_sub_distrib, mhStep_sum t lq hq, ← Finset.sum_div, hts]
      _ = dist1 (mhLaw t lq n) (target t) * (1 - 1 / M) := by rw [← Finset.sum_mul]; rfl
      _ ≤ 2 * (1 - 1 / M) ^ n * (1 - 1 / M) := mul_le_mul_of_nonneg_right ih hM1
      _ = 2 * (1 - 1 / M) ^ (n + 1) := by ring

/-! ## The whole sampler -/

/-- `Z_i = Σ_x c_i(x)²`. -/
noncomputable def zSum (comp : ℕ → X → ℝ) (i : ℕ) : ℝ := ∑ x, comp i x ^ 2

/-- The SOCS density `Σ_i c_i(x)² / Σ_i Z_i`. -/
noncomputable def socsPmf (m : ℕ) (comp : ℕ → X → ℝ) (x : X) : ℝ :=
  (∑ i ∈ Finset.range m, comp i x ^ 2) / ∑ i ∈ Finset.range m, zSum comp i

theorem expL_twoLogAbs' (v : ℝ) : expL (twoLogAbs v) = v ^ 2 := by
  unfold twoLogAbs
  rw [expL_add, expL_logL (abs_nonneg _), ← sq, sq_abs]

theorem twoLogAbs_ne_bot {v : ℝ} : twoLogAbs v ≠ ⊥ ↔ v ≠ 0 := by
  rw [← expL_pos_iff, expL_twoLogAbs', sq_pos_iff]

omit [DecidableEq X] in
theorem target_comp (comp : ℕ → X → ℝ) (i : ℕ) (x : X) :
    target (fun x => twoLogAbs (comp i x)) x = comp i x ^ 2 / zSum comp i := by
  unfold target zSum
  simp only [expL_twoLogAbs']

/-- **C54.** Mixing the components' targets with the sampler's weights gives exactly the SOCS density, so chains in
equilibrium produce it. -/
theorem C54_equilibrium {m : ℕ} (comp : ℕ → X → ℝ) (hZ : ∀ i < m, 0 < zSum comp i) (x : X) :
    ∑ i ∈ Finset.range m, (Real.exp (Real.log (zSum comp i)) / ∑ j ∈ Finset.range m, Real.exp (Real.log (zSum comp j))) *
      target (fun x => twoLogAbs (comp i x)) x = socsPmf m comp x := by
  have hs : ∑ j ∈ Finset.range m, Real.exp (Real.log (zSum comp j)) = ∑ j ∈ Finset.range m, zSum comp j :=
    Finset.sum_congr rfl fun j hj => Real.exp_log (hZ j (Finset.mem_range.1 hj))
  rw [hs]
  unfold socsPmf
  rw [Finset.sum_div]
  refine Finset.sum_congr rfl fun i hi => ?_
  have h := hZ i (Finset.mem_range.1 hi)
  rw [Real.exp_log h, target_comp]
  field_simp

/-- **C54.** The law of a sampled row is within `2 Σ_i (Z_i/Z) (1 - 1/M_i)^n` of the SOCS density after `n` iterations,
for all components, all proposals that are distributions and cover their component, and all bounds
`c_i² / Z_i ≤ M_i q_i`. -/
theorem C54_sampler {m : ℕ} (comp : ℕ → X → ℝ) (lq : ℕ → X → LogV) (hZ : ∀ i < m, 0 < zSum comp i)
    (hq : ∀ i < m, ∑ x, expL (lq i x) = 1) {M : ℕ → ℝ} (hM : ∀ i < m, 0 < M i)
    (hb : ∀ i < m, ∀ x, comp i x ^ 2 / zSum comp i ≤ M i * expL (lq i x)) (n : ℕ) :
    dist1 (socsSample m (fun i => Real.log (zSum comp i)) comp lq n) (socsPmf m comp) ≤
      ∑ i ∈ Finset.range m, (zSum comp i / ∑ j ∈ Finset.range m, zSum comp j) * (2 * (1 - 1 / M i) ^ n) := by
  have hs : ∑ j ∈ Finset.range m, Real.exp (Real.log (zSum comp j)) = ∑ j ∈ Finset.range m, zSum comp j :=
    Finset.sum_congr rfl fun j hj => Real.exp_log (hZ j (Finset.mem_range.1 hj))
  have hconv : ∀ i < m, dist1 (mhLaw (fun x => twoLogAbs (comp i x)) (lq i) n)
      (target fun x => twoLogAbs (comp i x)) ≤ 2 * (1 - 1 / M i) ^ n := by
    intro i hi
    refine C54_convergence _ _ (hq i hi) ?_ ?_ (hM i hi) (fun x => ?_) n
    · intro x hx hbot
      rw [twoLogAbs_ne_bot] at hx
      have := hb i hi x
      rw [hbot] at this
      simp only [expL, mul_zero] at this
      have h2 : 0 < comp i x ^ 2 / zSum comp i := div_pos (by positivity) (hZ i hi)
      linarith
    · by_contra hne
      push Not at hne
      have : zSum comp i = 0 := Finset.sum_eq_zero fun x _ => by
        have := hne x
        rw [← expL_twoLogAbs', this]
        rfl
      exact (hZ i hi).ne' this
    · rw [target_comp]
      exact hb i hi x
  have hw : ∀ i ∈ Finset.range m, 0 ≤ zSum comp i / ∑ j ∈ Finset.range m, zSum comp j := fun i hi =>
    div_nonneg (hZ i (Finset.mem_range.1 hi)).le (Finset.sum_nonneg fun j hj => (hZ j (Finset.mem_range.1 hj)).le)
  calc dist1 (socsSample m (fun i => Real.log (zSum comp i)) comp lq n) (socsPmf m comp)
      = ∑ x, |∑ i ∈ Finset.range m, (zSum comp i / ∑ j ∈ Finset.range m, zSum comp j) *
          (mhLaw (fun x => twoLogAbs (comp i x)) (lq i) n x - target (fun x => twoLogAbs (comp i x)) x)| := by
        unfold dist1
        refine Finset.sum_congr rfl fun x _ => ?_
        rw [← C54_equilibrium comp hZ]
        unfold socsSample
        rw [← Finset.sum_sub_distrib, hs]
        congr 1
        refine Finset.sum_congr rfl fun i hi => ?_
        rw [Real.exp_log (hZ i (Finset.mem_range.1 hi)), mul_sub]
    _ ≤ ∑ x, ∑ i ∈ Finset.range m, (zSum comp i / ∑ j ∈ Finset.range m, zSum comp j) *
          |mhLaw (fun x => twoLogAbs (comp i x)) (lq i) n x - target (fun x => twoLogAbs (comp i x)) x| := by
        refine Finset.sum_le_sum fun x _ => (Finset.abs_sum_le_sum_abs _ _).trans (Finset.sum_le_sum fun i hi => ?_)
        rw [abs_mul, abs_of_nonneg (hw i hi)]
    _ = ∑ i ∈ Finset.range m, (zSum comp i / ∑ j ∈ Finset.range m, zSum comp j) *
          dist1 (mhLaw (fun x => twoLogAbs (comp i x)) (lq i) n) (target fun x => twoLogAbs (comp i x)) := by
        rw [Finset.sum_comm]
        refine Finset.sum_congr rfl fun i _ => ?_
        rw [← Finset.mul_sum]
        rfl
    _ ≤ _ := Finset.sum_le_sum fun i hi =>
        mul_le_mul_of_nonneg_left (hconv i (Finset.mem_range.1 hi)) (hw i hi)

/-- **C54, monotone components.** Each component is a distribution and is its own proposal; then `M_i = 1/Z_i` is a bound
and the distance after `n` iterations is at most `2 Σ_i (Z_i/Z) (1 - Z_i)^n`. -/
theorem C54_sampler_monotone {m : ℕ} (comp : ℕ → X → ℝ) (h0 : ∀ i < m, ∀ x, 0 ≤ comp i x)
    (h1 : ∀ i < m, ∑ x, comp i x = 1) (n : ℕ) :
    dist1 (socsSample m (fun i => Real.log (zSum comp i)) comp (fun i x => logL (comp i x)) n) (socsPmf m comp) ≤
      ∑ i ∈ Finset.range m, (zSum comp i / ∑ j ∈ Finset.range m, zSum comp j) * (2 * (1 - zSum comp i) ^ n) := by
  have hZ : ∀ i < m, 0 < zSum comp i := by
    intro i hi
    obtain ⟨x, hx⟩ : ∃ x, comp i x ≠ 0 := by
      by_contra hne
      push Not at hne
      have := h1 i hi
      simp [hne] at this
    exact Finset.sum_pos' (fun y _ => sq_nonneg _) ⟨x, Finset.mem_univ _, by positivity⟩
  have hle : ∀ i < m, ∀ x, comp i x ≤ 1 := fun i hi x =>
    (Finset.single_le_sum (fun y _ => h0 i hi y) (Finset.mem_univ x)).trans_eq (h1 i hi)
  have := C54_sampler comp (fun i x => logL (comp i x)) hZ
    (fun i hi => by
      rw [← h1 i hi]
      exact Finset.sum_congr rfl fun x _ => expL_logL (h0 i hi x))
    (M := fun i => 1 / zSum comp i) (fun i hi => one_div_pos.2 (hZ i hi))
    (fun i hi x => by
      rw [expL_logL (h0 i hi x), div_eq_mul_one_div, mul_comm]
      refine mul_le_mul_of_nonneg_left ?_ (one_div_pos.2 (hZ i hi)).le
      nlinarith [h0 i hi x, hle i hi x]) n
  simpa only [one_div_one_div] using this

/-! ## The proposal covers the target -/

theorem absProposal_F (eps : ℝ) (sg : IC → Bool) (c : IC) : (absProposal eps sg c).F = c.F := by
  induction c with
  | leaf q C R par => rfl
  | cat1 n cs ih => simp only [absProposal, IC.F, ih]
  | cat2 n cs ih => simp only [absProposal, IC.F, ih]
  | prod c ih => rfl
  | sum c Co R w ih => simp only [absProposal, IC.F, ih]

theorem absProposal_C (eps : ℝ) (sg : IC → Bool) (c : IC) : (absProposal eps sg c).C = c.C := by
  induction c with
  | leaf q C R par => rfl
  | cat1 n cs ih => simp only [absProposal, IC.C, ih]
  | cat2 n cs ih => simp only [absProposal, IC.C, ih]
  | prod c ih => simp only [absProposal, IC.C, ih]
  | sum c Co R w ih => simp only [absProposal, IC.C]

/-- Standard sums have non-negative weights. -/
def NonnegSums (sg : IC → Bool) : IC → Prop
  | .leaf _ _ _ _ => True
  | .cat1 _ cs => ∀ i, NonnegSums sg (cs i)
  | .cat2 _ cs => ∀ i, NonnegSums sg (cs i)
  | .prod c => NonnegSums sg c
  | .sum c Co R w => NonnegSums sg c ∧ (sg (.sum c Co R w) = false → ∀ f i co r, 0 ≤ w f i co r)

theorem absNorm_pos {eps : ℝ} (he : 0 < eps) (n : ℕ) (w : ℕ → ℝ) (i : ℕ) : 0 < absNorm eps n w i := by
  unfold absNorm
  have : (0 : ℝ) < 10 ^ (-12 : ℤ) := by positivity
  exact div_pos (by positivity) (lt_of_lt_of_le this (le_max_right _ _))

/-- **C54.** `build_abs_weight_proposal` returns a non-negative circuit that is positive wherever the signed component
is non-zero, so every state of the target can be proposed. -/
theorem C54_proposal_covers {eps : ℝ} (he : 0 < eps) (sg : IC → Bool) (x : Var → ℝ) :
    ∀ c : IC, NonnegSums sg c → (Leaves (fun _ p => (∃ K w, p = .scat K w) ∨ ∀ t, 0 ≤ dens p t) c) →
      ∀ f ch r, f < c.F → ch < c.C → Wf c → r < c.R →
        0 ≤ (absProposal eps sg c).value x f ch r ∧
        (c.value x f ch r ≠ 0 → 0 < (absProposal eps sg c).value x f ch r) := by
  intro c
  induction c with
  | leaf q C R par =>
    intro _ hl f ch r hf hch _ hr
    have := hl f hf ch hch r hr
    simp only [absProposal, IC.value]
    rcases this with ⟨K, w, e⟩ | h
    · rw [e]
      simp only [dens, ne_eq, ite_eq_right_iff, not_forall]
      constructor
      · split_ifs
        · exact (absNorm_pos he _ _ _).le
        · exact le_rfl
      · rintro ⟨h1, _⟩
        rw [if_pos h1]
        exact absNorm_pos he _ _ _
    · cases hp : par f ch r with
      | scat K w =>
        simp only [dens, ne_eq, ite_eq_right_iff, not_forall]
        constructor
        · split_ifs
          · exact (absNorm_pos he _ _ _).le
          · exact le_rfl
        · rintro ⟨h1, _⟩
          rw [if_pos h1]
          exact absNorm_pos he _ _ _
      | _ =>
        rw [hp] at h
        exact ⟨h _, fun hne => lt_of_le_of_ne (h _) (Ne.symm hne)⟩
  | cat1 n cs ih =>
    intro hn hl f ch r hf hch hw hr
    obtain ⟨l1, l2⟩ := locate_ofFn (s := fun i : Fin n => (cs i).F) hf
    simp only [absProposal, IC.value, IC.pickV, absProposal_F, l1, dif_pos]
    refine ih _ (hn _) (hl _) _ ch r l2 ?_ (hw.2.1 _) ?_
    · rw [hw.2.2.1 _ ⟨0, hw.1⟩]; simpa [IC.C, hw.1] using hch
    · rw [hw.2.2.2.1 _ ⟨0, hw.1⟩]; simpa [IC.R, hw.1] using hr
  | cat2 n cs ih =>
    intro hn hl f ch r hf hch hw hr
    obtain ⟨l1, l2⟩ := locate_ofFn (s := fun i : Fin n => (cs i).C) hch
    simp only [absProposal, IC.value, IC.pickV, absProposal_C, l1, dif_pos]
    refine ih _ (hn _) (hl _) f _ r ?_ l2 (hw.2.1 _) ?_
    · rw [hw.2.2.1 _ ⟨0, hw.1⟩]; simpa [IC.F, hw.1] using hf
    · rw [hw.2.2.2.1 _ ⟨0, hw.1⟩]; simpa [IC.R, hw.1] using hr
  | prod c ih =>
    intro hn hl f ch r hf hch hw hr
    have hch : ch < c.C := hch
    have hr : r < c.R := hr
    have hw : Wf c := hw
    simp only [absProposal, IC.value, absProposal_F]
    constructor
    · exact Finset.prod_nonneg fun g hg => (ih hn hl g ch r (Finset.mem_range.1 hg) hch hw hr).1
    · intro hne
      refine Finset.prod_pos fun g hg => (ih hn hl g ch r (Finset.mem_range.1 hg) hch hw hr).2 ?_
      exact Finset.prod_ne_zero_iff.1 hne g hg
  | sum c Co R w ih =>
    intro hn hl f ch r hf hch hw hr
    have hr' : r < c.R := by rw [← hw.2]; exact hr
    have hv := fun i (hi : i ∈ Finset.range c.C) => ih hn.1 hl f i r hf (Finset.mem_range.1 hi) hw.1 hr'
    simp only [absProposal, IC.value, absProposal_C]
    by_cases hs : sg (.sum c Co R w) = true
    · simp only [hs, if_true]
      constructor
      · exact Finset.sum_nonneg fun i hi => mul_nonneg (absNorm_pos he _ _ _).le (hv i hi).1
      · intro hne
        obtain ⟨i, hi, hi0⟩ := Finset.exists_ne_zero_of_sum_ne_zero hne
        exact Finset.sum_pos' (fun i hi => mul_nonneg (absNorm_pos he _ _ _).le (hv i hi).1)
          ⟨i, hi, mul_pos (absNorm_pos he _ _ _) ((hv i hi).2 (right_ne_zero_of_mul hi0))⟩
    · have hs' : sg (.sum c Co R w) = false := by simpa using hs
      simp only [hs', Bool.false_eq_true, if_false]
      have hw0 := hn.2 hs'
      constructor
      · exact Finset.sum_nonneg fun i hi => mul_nonneg (hw0 _ _ _ _) (hv i hi).1
      · intro hne
        obtain ⟨i, hi, hi0⟩ := Finset.exists_ne_zero_of_sum_ne_zero hne
        exact Finset.sum_pos' (fun i hi => mul_nonneg (hw0 _ _ _ _) (hv i hi).1)
          ⟨i, hi, mul_pos (lt_of_le_of_ne (hw0 _ _ _ _) (Ne.symm (left_ne_zero_of_mul hi0)))
            ((hv i hi).2 (right_ne_zero_of_mul hi0))⟩

/-- A concrete case: two components on three states; after `n` iterations the sampler is within the stated bound of the
SOCS density, and the bound tends to zero. -/
theorem C54_example (n : ℕ) :
    dist1 (socsSample (X := Fin 3) 2 (fun i => Real.log (zSum (fun i (x : Fin 3) => if i = 0 then 1 / 3
        else if x = 0 then 1 / 2 else 1 / 4) i)) (fun i x => if i = 0 then 1 / 3 else if x = 0 then 1 / 2 else 1 / 4)
        (fun i x => logL (if i = 0 then 1 / 3 else if x = 0 then 1 / 2 else 1 / 4)) n)
      (socsPmf 2 fun i x => if i = 0 then 1 / 3 else if x = 0 then 1 / 2 else 1 / 4) ≤ 2 * (2 / 3) ^ n := by
  set comp : ℕ → Fin 3 → ℝ := fun i x => if i = 0 then 1 / 3 else if x = 0 then 1 / 2 else 1 / 4 with hcomp
  have z0 : zSum comp 0 = 1 / 3 := by simp [zSum, hcomp]; norm_num
  have z1 : zSum comp 1 = 3 / 8 := by simp [zSum, hcomp, Fin.sum_univ_succ]; norm_num
  have h := C54_sampler_monotone (m := 2) comp
    (fun i _ x => by simp only [hcomp]; split_ifs <;> norm_num)
    (fun i hi => by
      simp only [hcomp, Fin.sum_univ_succ]
      by_cases e : i = 0
      · simp [e]; norm_num
      · simp [e]; norm_num) n
  refine h.trans ?_
  simp only [Finset.sum_range_succ, Finset.sum_range_zero, zero_add, z0, z1]
  have : (1 - 3 / 8 : ℝ) ^ n ≤ (2 / 3) ^ n := pow_le_pow_left₀ (by norm_num) (by norm_num) n
  norm_num at this ⊢
  nlinarith [pow_pos (show (0 : ℝ) < 2 / 3 by norm_num) n]

end Inner
end Verif

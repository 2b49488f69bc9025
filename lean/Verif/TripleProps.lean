import Verif.Triple
import Verif.SocsProps

/-!
# C77: triple products are integrals
-/

open MeasureTheory

namespace Verif
namespace Inner

/-- The leaf formulas are right: whenever a closed form is returned for three admissible cells of the same variable, it is
the integral of the product of their densities.  (`C77_leaves` proves this for the modelled families.) -/
def LeafTp (μ : Var → Measure ℝ) (P : Var → LeafPar → Prop) : Prop :=
  ∀ v a b c z, P v a → P v b → P v c → tpPar a b c = .ok z →
    Integrable (fun t => dens a t * dens b t * dens c t) (μ v) ∧ ∫ t, dens a t * dens b t * dens c t ∂μ v = z

theorem tpChecks_ok {a b c : IC} {u : Unit} (h : tpChecks a b c = .ok u) :
    a.vars = b.vars ∧ a.vars = c.vars ∧ (a.F = b.F ∧ a.F = c.F) ∧ a.R = b.R ∧ a.R = c.R := by
  unfold tpChecks at h
  split_ifs at h with h1 h2 h3 h4
  simp only [not_not, not_or] at h1 h2 h3 h4
  exact ⟨h1, h2, h3, h4⟩

theorem tpChecks_of {a b c : IC} (h1 : a.vars = b.vars) (h2 : a.vars = c.vars) (h3 : a.F = b.F ∧ a.F = c.F)
    (h4 : a.R = b.R ∧ a.R = c.R) : tpChecks a b c = .ok () := by
  unfold tpChecks
  rw [if_neg (not_not.2 h1), if_neg (not_not.2 h2), if_neg (by simp [h3.1.symm, h3.2.symm]),
    if_neg (by simp [h4.1.symm, h4.2.symm])]

theorem tp_checks {a b c : IC} {k : Mat3} (h : tp a b c = .ok k) : tpChecks a b c = .ok () := by
  cases hc : tpChecks a b c with
  | ok u => rfl
  | error e => cases a <;> (unfold tp at h; simp only [hc, reduceCtorEq] at h)

/-! ## Leaves -/

theorem cat_tp (K : ℕ) (w1 w2 w3 : ℕ → ℝ) :
    Integrable (fun t => dens (.cat K w1) t * dens (.cat K w2) t * dens (.cat K w3) t) natCount ∧
      ∫ t, dens (.cat K w1) t * dens (.cat K w2) t * dens (.cat K w3) t ∂natCount =
        ∑ k ∈ Finset.range K, w1 k * w2 k * w3 k := by
  have := natCount_finite (g := fun t => dens (.cat K w1) t * dens (.cat K w2) t * dens (.cat K w3) t) K fun n hn => by
    rw [dens_cat_nat, if_neg (by omega), zero_mul, zero_mul]
  refine ⟨this.1, this.2.trans (Finset.sum_congr rfl fun k hk => ?_)⟩
  have hk := Finset.mem_range.1 hk
  rw [dens_cat_nat, dens_cat_nat, dens_cat_nat, if_pos hk, if_pos hk, if_pos hk]

theorem bern_tp (p1 p2 p3 : ℝ) :
    Integrable (fun t => dens (.bern p1) t * dens (.bern p2) t * dens (.bern p3) t) natCount ∧
      ∫ t, dens (.bern p1) t * dens (.bern p2) t * dens (.bern p3) t ∂natCount =
        (1 - p1) * (1 - p2) * (1 - p3) + p1 * p2 * p3 := by
  have := natCount_finite (g := fun t => dens (.bern p1) t * dens (.bern p2) t * dens (.bern p3) t) 2 fun n hn => by
    have h1 : (n : ℝ) ≠ 1 := by exact_mod_cast (by omega : n ≠ 1)
    have h0 : (n : ℝ) ≠ 0 := by exact_mod_cast (by omega : n ≠ 0)
    simp only [dens, h1, h0, if_false, mul_zero]
  refine ⟨this.1, this.2.trans ?_⟩
  simp [Finset.sum_range_succ, dens]

theorem geom_tp {p1 p2 p3 : ℝ} (h1 : 0 < p1) (h1' : p1 ≤ 1) (h2 : 0 < p2) (h2' : p2 ≤ 1) (h3 : 0 < p3) (h3' : p3 ≤ 1) :
    Integrable (fun t => dens (.geom p1) t * dens (.geom p2) t * dens (.geom p3) t) natCount ∧
      ∫ t, dens (.geom p1) t * dens (.geom p2) t * dens (.geom p3) t ∂natCount =
        p1 * p2 * p3 / (1 - (1 - p1) * (1 - p2) * (1 - p3)) := by
  apply natCount_integral
  simp only [dens_geom_nat]
  have hx0 : 0 ≤ (1 - p1) * (1 - p2) := mul_nonneg (by linarith) (by linarith)
  have hx1 : (1 - p1) * (1 - p2) < 1 := by nlinarith
  have hy0 : 0 ≤ (1 - p1) * (1 - p2) * (1 - p3) := mul_nonneg hx0 (by linarith)
  have hy1 : (1 - p1) * (1 - p2) * (1 - p3) < 1 := by nlinarith
  have := (hasSum_geometric_of_lt_one hy0 hy1).mul_left (p1 * p2 * p3)
  rw [← div_eq_mul_inv] at this
  refine this.congr_fun ?_ |> id
  intro n
  rw [mul_pow, mul_pow]; ring

theorem unif_tp {a1 b1 a2 b2 a3 b3 : ℝ} :
    Integrable (fun t => dens (.unif a1 b1) t * dens (.unif a2 b2) t * dens (.unif a3 b3) t) volume ∧
      ∫ t, dens (.unif a1 b1) t * dens (.unif a2 b2) t * dens (.unif a3 b3) t =
        max (min (min b1 b2) b3 - max (max a1 a2) a3) 0 / ((b1 - a1) * (b2 - a2) * (b3 - a3)) := by
  have e : (fun t => dens (.unif a1 b1) t * dens (.unif a2 b2) t * dens (.unif a3 b3) t) =
      (Set.Icc (max (max a1 a2) a3) (min (min b1 b2) b3)).indicator
        fun _ => 1 / (b1 - a1) * (1 / (b2 - a2)) * (1 / (b3 - a3)) := by
    funext t
    by_cases h : t ∈ Set.Icc (max (max a1 a2) a3) (min (min b1 b2) b3)
    · rw [Set.indicator_of_mem h]
      simp only [Set.mem_Icc, max_le_iff, le_min_iff] at h
      simp only [dens]
      rw [if_pos ⟨h.1.1.1, h.2.1.1⟩, if_pos ⟨h.1.1.2, h.2.1.2⟩, if_pos ⟨h.1.2, h.2.2⟩]
    · rw [Set.indicator_of_notMem h]
      simp only [Set.mem_Icc, max_le_iff, le_min_iff] at h
      simp only [dens]
      by_cases h1 : a1 ≤ t ∧ t ≤ b1
      · by_cases h2 : a2 ≤ t ∧ t ≤ b2
        · by_cases h3 : a3 ≤ t ∧ t ≤ b3
          · exact absurd ⟨⟨⟨h1.1, h2.1⟩, h3.1⟩, ⟨h1.2, h2.2⟩, h3.2⟩ h
          · rw [if_neg h3, mul_zero]
        · rw [if_neg h2, mul_zero, zero_mul]
      · rw [if_neg h1, zero_mul, zero_mul]
  rw [e]
  constructor
  · rw [integrable_indicator_iff measurableSet_Icc]
    exact integrableOn_const (by simp) (by finiteness)
  · rw [integral_indicator measurableSet_Icc, setIntegral_const, Real.volume_real_Icc, smul_eq_mul]
    rw [one_div_mul_one_div, one_div_mul_one_div, mul_one_div]

theorem normal_tp {m1 s1 m2 s2 m3 s3 : ℝ} (h1 : 0 < s1) (h2 : 0 < s2) (h3 : 0 < s3) {t1 t2 t3 t m : ℝ}
    (e1 : t1 = 1 / s1 ^ 2) (e2 : t2 = 1 / s2 ^ 2) (e3 : t3 = 1 / s3 ^ 2) (et : t = t1 + t2 + t3)
    (em : m = (t1 * m1 + t2 * m2 + t3 * m3) / t) :
    Integrable (fun x => dens (.normal m1 s1) x * dens (.normal m2 s2) x * dens (.normal m3 s3) x) volume ∧
      ∫ x, dens (.normal m1 s1) x * dens (.normal m2 s2) x * dens (.normal m3 s3) x =
        Real.exp (-Real.log (2 * Real.pi) - (Real.log s1 + Real.log s2 + Real.log s3) - 1 / 2 * Real.log t -
          1 / 2 * ((t1 * m1 ^ 2 + t2 * m2 ^ 2 + t3 * m3 ^ 2) - t * m ^ 2)) := by
  have hpi := Real.pi_pos
  have p1 : 0 < t1 := by rw [e1]; positivity
  have p2 : 0 < t2 := by rw [e2]; positivity
  have p3 : 0 < t3 := by rw [e3]; positivity
  have pt : 0 < t := by rw [et]; positivity
  have hm : t * m = t1 * m1 + t2 * m2 + t3 * m3 := by rw [em]; field_simp
  have hexp : ∀ (x mm s tt : ℝ), tt = 1 / s ^ 2 → -(x - mm) ^ 2 / (2 * s ^ 2) = -(1 / 2) * (tt * (x - mm) ^ 2) := by
    intro x mm s tt h
    rw [h, div_mul_eq_div_div]; ring
  have e : (fun x => dens (.normal m1 s1) x * dens (.normal m2 s2) x * dens (.normal m3 s3) x) = fun x =>
      1 / (s1 * s2 * s3 * (2 * Real.pi) * Real.sqrt (2 * Real.pi)) *
        Real.exp (-(1 / 2) * ((t1 * m1 ^ 2 + t2 * m2 ^ 2 + t3 * m3 ^ 2) - t * m ^ 2)) *
        Real.exp (-(t / 2) * (x - m) ^ 2) := by
    funext x
    simp only [dens]
    rw [hexp x m1 s1 t1 e1, hexp x m2 s2 t2 e2, hexp x m3 s3 t3 e3]
    rw [mul_mul_mul_comm (1 / (s1 * Real.sqrt (2 * Real.pi))) _ (1 / (s2 * Real.sqrt (2 * Real.pi))), ← Real.exp_add,
      mul_mul_mul_comm, ← Real.exp_add, mul_assoc (1 / (s1 * s2 * s3 * _ * _)), ← Real.exp_add]
    congr 1
    · have : Real.sqrt (2 * Real.pi) * Real.sqrt (2 * Real.pi) = 2 * Real.pi :=
        Real.mul_self_sqrt (by positivity)
      rw [one_div_mul_one_div, one_div_mul_one_div]
      congr 1
      calc _ = s1 * s2 * s3 * (Real.sqrt (2 * Real.pi) * Real.sqrt (2 * Real.pi)) * Real.sqrt (2 * Real.pi) := by ring
        _ = _ := by rw [this]
    · congr 1
      have : t * x * m = x * (t1 * m1 + t2 * m2 + t3 * m3) := by rw [← hm]; ring
      rw [et] at this ⊢
      linear_combination -this
  have hb : 0 < t / 2 := by positivity
  rw [e]
  constructor
  · apply Integrable.const_mul
    exact (integrable_exp_neg_mul_sq hb).comp_sub_right _
  · rw [integral_const_mul, integral_sub_right_eq_self (fun x => Real.exp (-(t / 2) * x ^ 2)), integral_gaussian]
    rw [sub_eq_add_neg _ (1 / 2 * (t1 * m1 ^ 2 + _ + _ - _)), Real.exp_add, mul_right_comm, neg_mul]
    congr 1
    have l1 : 1 / 2 * Real.log t = Real.log (Real.sqrt t) := by rw [Real.log_sqrt pt.le]; ring
    rw [l1, ← Real.log_mul h1.ne' h2.ne', ← Real.log_mul (by positivity) h3.ne', sub_sub, ← Real.log_mul (by positivity)
      (by positivity), ← neg_add', ← Real.log_mul (by positivity) (by positivity), Real.exp_neg,
      Real.exp_log (by positivity)]
    have e2 : Real.pi / (t / 2) = 2 * Real.pi / t := by field_simp
    rw [e2, Real.sqrt_div (by positivity)]
    have : Real.sqrt (2 * Real.pi) ≠ 0 := by positivity
    have : Real.sqrt t ≠ 0 := by positivity
    field_simp

theorem binom_tp {n1 n2 n3 : ℕ} {p1 p2 p3 : ℝ} (h1 : 10 ^ (-30 : ℤ) ≤ p1) (h1' : 10 ^ (-30 : ℤ) ≤ 1 - p1)
    (h2 : 10 ^ (-30 : ℤ) ≤ p2) (h2' : 10 ^ (-30 : ℤ) ≤ 1 - p2) (h3 : 10 ^ (-30 : ℤ) ≤ p3) (h3' : 10 ^ (-30 : ℤ) ≤ 1 - p3) :
    Integrable (fun t => dens (.binom n1 p1) t * dens (.binom n2 p2) t * dens (.binom n3 p3) t) natCount ∧
      ∫ t, dens (.binom n1 p1) t * dens (.binom n2 p2) t * dens (.binom n3 p3) t ∂natCount =
        ∑ k ∈ Finset.range (max (max n1 n2) n3 + 1),
          if k ≤ n1 ∧ k ≤ n2 ∧ k ≤ n3 then
            Real.exp (binomLogpmf k n1 p1 + binomLogpmf k n2 p2 + binomLogpmf k n3 p3) else 0 := by
  have := natCount_finite (g := fun t => dens (.binom n1 p1) t * dens (.binom n2 p2) t * dens (.binom n3 p3) t)
    (max (max n1 n2) n3 + 1) fun n hn => by
    have : n1 < n := by have := le_max_left n1 n2; have := le_max_left (max n1 n2) n3; omega
    rw [dens_binom_nat, if_neg (by omega), zero_mul, zero_mul]
  refine ⟨this.1, this.2.trans (Finset.sum_congr rfl fun k _ => ?_)⟩
  rw [dens_binom_nat, dens_binom_nat, dens_binom_nat]
  by_cases a : k ≤ n1
  · by_cases b : k ≤ n2
    · by_cases c : k ≤ n3
      · rw [if_pos a, if_pos b, if_pos c, if_pos ⟨a, b, c⟩, Real.exp_add, Real.exp_add, exp_binomLogpmf a h1 h1',
          exp_binomLogpmf b h2 h2', exp_binomLogpmf c h3 h3']
      · rw [if_neg c, if_neg (fun h : k ≤ n1 ∧ k ≤ n2 ∧ k ≤ n3 => c h.2.2), mul_zero]
    · rw [if_neg b, if_neg (fun h : k ≤ n1 ∧ k ≤ n2 ∧ k ≤ n3 => b h.2.1), mul_zero, zero_mul]
  · rw [if_neg a, if_neg (fun h : k ≤ n1 ∧ k ≤ n2 ∧ k ≤ n3 => a h.1), zero_mul, zero_mul]

/-- Parameters for which the clamps of the triple product are inactive: those of `Admissible`, and Normal scales not below
`1e-30`. -/
def Admissible3 (disc : Var → Bool) (v : Var) : LeafPar → Prop
  | .normal _ s => disc v = false ∧ 10 ^ (-30 : ℤ) ≤ s
  | p => Admissible disc ∅ v p

/-- **C77 (leaves).** Every closed form returned for three admissible cells of the same variable is the integral (sum) of
the product of their densities. -/
theorem C77_leaves (disc : Var → Bool) : LeafTp (refMeasure disc) (Admissible3 disc) := by
  intro v a b c z ha hb hc' h
  have hd : disc v = true → refMeasure disc v = natCount := fun h => by simp [refMeasure, h]
  have hc : disc v = false → refMeasure disc v = volume := fun h => by simp [refMeasure, h]
  have hcat : ∀ {K K' K'' : ℕ} {w1 w2 w3 : ℕ → ℝ}, disc v = true → tpPar.catTriple K w1 K' w2 K'' w3 = .ok z →
      Integrable (fun t => dens (.cat K w1) t * dens (.cat K' w2) t * dens (.cat K'' w3) t) (refMeasure disc v) ∧
      ∫ t, dens (.cat K w1) t * dens (.cat K' w2) t * dens (.cat K'' w3) t ∂refMeasure disc v = z := by
    intro K K' K'' w1 w2 w3 h0 h
    unfold tpPar.catTriple at h
    split_ifs at h with hk
    simp only [not_or, not_not] at hk
    obtain ⟨rfl, rfl⟩ := hk
    cases h
    rw [hd h0]
    exact cat_tp _ _ _ _
  cases a <;> cases b <;> cases c <;> simp only [tpPar, reduceCtorEq] at h <;>
    simp only [Admissible3, Admissible] at ha hb hc' <;> first
    | exact hcat ha h
    | skip
  case bern.bern.bern => cases h; rw [hd ha]; exact bern_tp _ _ _
  case unif.unif.unif =>
    cases h
    rw [hc ha.1, clampMin_of_le ha.2, clampMin_of_le hb.2, clampMin_of_le hc'.2]
    exact unif_tp
  case geom.geom.geom p1 p2 p3 =>
    cases h
    have h1 := tiny_pos.trans_le ha.2.1
    have h2 := tiny_pos.trans_le hb.2.1
    have h3 := tiny_pos.trans_le hc'.2.1
    rw [hd ha.1, max_eq_left h1.le, max_eq_left h2.le, max_eq_left h3.le, min_eq_left ha.2.2, min_eq_left hb.2.2,
      min_eq_left hc'.2.2, clampMin_of_le]
    · exact geom_tp h1 ha.2.2 h2 hb.2.2 h3 hc'.2.2
    · have a1 := ha.2.1
      have hx0 : 0 ≤ (1 - p2) * (1 - p3) := mul_nonneg (by linarith [hb.2.2]) (by linarith [hc'.2.2])
      have hx1 : (1 - p2) * (1 - p3) ≤ 1 := by nlinarith [hb.2.2, hc'.2.2]
      have : (1 - p1) * ((1 - p2) * (1 - p3)) ≤ (1 - p1) * 1 := mul_le_mul_of_nonneg_left hx1 (by linarith [ha.2.2])
      rw [mul_assoc]
      linarith
  case normal.normal.normal m1 s1 m2 s2 m3 s3 =>
    cases h
    rw [hc ha.1, clampMin_of_le ha.2, clampMin_of_le hb.2, clampMin_of_le hc'.2]
    exact normal_tp (tiny_pos.trans_le ha.2) (tiny_pos.trans_le hb.2) (tiny_pos.trans_le hc'.2) rfl rfl rfl rfl rfl
  case binom.binom.binom =>
    cases h
    rw [hd ha.1]
    exact binom_tp ha.2.1 ha.2.2 hb.2.1 hb.2.2 hc'.2.1 hc'.2.2

/-! ## Circuits -/

variable {μ : Var → Measure ℝ} [∀ v, SigmaFinite (μ v)]

theorem C77_main {P : Var → LeafPar → Prop} (hP : LeafTp μ P) : ∀ {a b c : IC} {k : Mat3}, tp a b c = .ok k →
    Wf a → Wf b → Wf c → Sorted a → Sorted b → Sorted c → Leaves P a → Leaves P b → Leaves P c →
    ∀ f < a.F, (a.fs f = b.fs f ∧ a.fs f = c.fs f) ∧ ∀ i < a.C, ∀ j < b.C, ∀ l < c.C, ∀ r < a.R,
      IntegrableOver μ (a.fs f) (fun x => a.value x f i r * b.value x f j r * c.value x f l r) ∧
      intOn μ (a.fs f) (fun x => a.value x f i r * b.value x f j r * c.value x f l r) = k f i j l r := by
  intro a
  induction a with
  | leaf q C1 R1 par1 =>
    intro b c k h wa wb wc sa sb sc la lb lc f hf
    obtain ⟨v1, v2, -, r1, r2⟩ := tpChecks_ok (tp_checks h)
    have hck := tp_checks h
    unfold tp at h
    simp only [hck] at h
    cases b <;> cases c <;> simp only [reduceCtorEq] at h
    rename_i q' C2 R2 par2 q'' C3 R3 par3
    obtain rfl := sorted_ext sa sb v1
    obtain rfl := sorted_ext sa sc v2
    obtain rfl : R1 = R2 := r1
    obtain rfl : R1 = R3 := r2
    have hf' : f < q.length := hf
    refine ⟨⟨rfl, rfl⟩, fun i hi j hj l hl r hr => ?_⟩
    split at h
    · cases h
    · rename_i k' hk
      cases h
      have e := seqFin_ok (seqFin_ok (seqFin_ok (seqFin_ok (seqFin_ok hk ⟨f, hf'⟩) ⟨i, hi⟩) ⟨j, hj⟩) ⟨l, hl⟩) ⟨r, hr⟩
      have hI := hP (q.getD f 0) _ _ _ _ (la f hf' i hi r hr) (lb f hf' j hj r hr) (lc f hf' l hl r hr) e
      have hS := intOn_singleton (μ := μ) (q.getD f 0)
        (fun t => dens (par1 f i r) t * dens (par2 f j r) t * dens (par3 f l r) t) hI.1
      refine ⟨hS.1, hS.2.trans (hI.2.trans ?_)⟩
      have hc : f < q.length ∧ i < C1 ∧ j < C2 ∧ l < C3 ∧ r < R1 := ⟨hf', hi, hj, hl, hr⟩
      dsimp only
      rw [dif_pos hc]
  | cat1 n cs ih =>
    intro b c k h wa wb wc sa sb sc la lb lc f hf
    have hck := tp_checks h
    unfold tp at h
    simp only [hck] at h
    cases b <;> cases c <;> simp only at h <;> try (split_ifs at h; done)
    rename_i m ds m' es
    split_ifs at h with hmm
    obtain ⟨rfl, rfl⟩ := hmm
    split at h
    · cases h
    · rename_i k' hk
      cases h
      have hk' : ∀ i, tp (cs i) (ds i) (es i) = .ok (k' i) := fun i => by simpa using seqFin_ok hk i
      have hF : (fun i : Fin n => (ds i).F) = fun i : Fin n => (cs i).F := by
        funext i; exact (tpChecks_ok (tp_checks (hk' i))).2.2.1.1.symm
      have hF' : (fun i : Fin n => (es i).F) = fun i : Fin n => (cs i).F := by
        funext i; exact (tpChecks_ok (tp_checks (hk' i))).2.2.1.2.symm
      obtain ⟨l1, l2⟩ := locate_ofFn (s := fun i : Fin n => (cs i).F) hf
      have := ih ⟨_, l1⟩ (hk' ⟨_, l1⟩) (wa.2.1 _) (wb.2.1 _) (wc.2.1 _) (sa _) (sb _) (sc _) (la _) (lb _) (lc _) _ l2
      simp only [IC.fs, IC.value, IC.pickV, pick3, hF, hF', l1, dif_pos]
      refine ⟨this.1, fun i hi j hj l hl r hr => this.2 i ?_ j ?_ l ?_ r ?_⟩
      · rw [wa.2.2.1 _ ⟨0, wa.1⟩]; simpa [IC.C, wa.1] using hi
      · rw [wb.2.2.1 _ ⟨0, wb.1⟩]; simpa [IC.C, wb.1] using hj
      · rw [wc.2.2.1 _ ⟨0, wc.1⟩]; simpa [IC.C, wc.1] using hl
      · rw [wa.2.2.2.1 _ ⟨0, wa.1⟩]; simpa [IC.R, wa.1] using hr
  | cat2 n cs ih =>
    intro b c k h wa wb wc sa sb sc la lb lc f hf
    have hck := tp_checks h
    unfold tp at h
    simp only [hck] at h
    cases b <;> cases c <;> simp only at h <;> try (split_ifs at h; done)
    rename_i m ds m' es
    split at h
    · cases h
    · rename_i k' hk
      cases h
      have hk' : ∀ i j l, tp (cs i) (ds j) (es l) = .ok (k' i j l) :=
        fun i j l => seqFin_ok (seqFin_ok (seqFin_ok hk i) j) l
      have hn := wa.1
      have hm := wb.1
      have hm' := wc.1
      have hf0 : f < (cs ⟨0, hn⟩).F := by simpa [IC.F, hn] using hf
      have e0 := (ih ⟨0, hn⟩ (hk' _ ⟨0, hm⟩ ⟨0, hm'⟩) (wa.2.1 _) (wb.2.1 _) (wc.2.1 _) (sa _) (sb _) (sc _) (la _) (lb _)
        (lc _) f hf0).1
      simp only [IC.fs, hn, hm, hm', dif_pos]
      refine ⟨e0, fun i hi j hj l hl r hr => ?_⟩
      obtain ⟨l1, l2⟩ := locate_ofFn (s := fun i : Fin n => (cs i).C) hi
      obtain ⟨l3, l4⟩ := locate_ofFn (s := fun i : Fin m => (ds i).C) hj
      obtain ⟨l5, l6⟩ := locate_ofFn (s := fun i : Fin m' => (es i).C) hl
      simp only [IC.value, IC.pickV, pick3, l1, l3, l5, dif_pos]
      have hf1 : f < (cs ⟨_, l1⟩).F := by rwa [wa.2.2.1 _ ⟨0, hn⟩]
      rw [wa.2.2.2.2.2 ⟨0, hn⟩ ⟨_, l1⟩ f hf0]
      refine (ih ⟨_, l1⟩ (hk' _ ⟨_, l3⟩ ⟨_, l5⟩) (wa.2.1 _) (wb.2.1 _) (wc.2.1 _) (sa _) (sb _) (sc _) (la _) (lb _) (lc _)
        f hf1).2 _ l2 _ l4 _ l6 r ?_
      rw [wa.2.2.2.1 _ ⟨0, hn⟩]; simpa [IC.R, hn] using hr
  | prod a ih =>
    intro b c k h wa wb wc sa sb sc la lb lc f hf
    have hck := tp_checks h
    unfold tp at h
    simp only [hck] at h
    cases b <;> cases c <;> simp only [reduceCtorEq] at h
    rename_i b c
    split at h
    · cases h
    · rename_i k' hk
      cases h
      obtain ⟨-, -, hF, -⟩ := tpChecks_ok (tp_checks hk)
      have H := ih hk wa wb wc sa sb sc la lb lc
      simp only [IC.fs, IC.value]
      rw [← hF.1, ← hF.2]
      refine ⟨⟨Finset.biUnion_congr rfl fun g hg => (H g (Finset.mem_range.1 hg)).1.1,
        Finset.biUnion_congr rfl fun g hg => (H g (Finset.mem_range.1 hg)).1.2⟩, fun i hi j hj l hl r hr => ?_⟩
      simp only [← Finset.prod_mul_distrib]
      have := intOn_prod (μ := μ) a.F a.fs (fun g x => a.value x g i r * b.value x g j r * c.value x g l r)
        (fs_disjoint wa)
        (fun g hg x y hxy => by
          exact congrArg₂ (· * ·) (congrArg₂ (· * ·) (value_local (c := a) wa g hg i hi r x y hxy)
            (value_local (c := b) wb g (hF.1 ▸ hg) j hj r x y (by rw [← (H g hg).1.1]; exact hxy)))
            (value_local (c := c) wc g (hF.2 ▸ hg) l hl r x y (by rw [← (H g hg).1.2]; exact hxy)))
        (fun g hg => ((H g hg).2 i hi j hj l hl r hr).1)
      refine ⟨this.1, this.2.trans ?_⟩
      exact Finset.prod_congr rfl fun g hg => ((H g (Finset.mem_range.1 hg)).2 i hi j hj l hl r hr).2
  | sum a Co Rs w ih =>
    intro b c k h wa wb wc sa sb sc la lb lc f hf
    have hck := tp_checks h
    unfold tp at h
    simp only [hck] at h
    cases b <;> cases c <;> simp only [reduceCtorEq] at h
    rename_i b Co' Rs' w' c Co'' Rs'' w''
    split at h
    · cases h
    · rename_i k' hk
      cases h
      have H := ih hk wa.1 wb.1 wc.1 sa sb sc la lb lc f hf
      refine ⟨H.1, fun x hx y hy z hz r hr => ?_⟩
      have hr' : r < a.R := by rw [← wa.2]; exact hr
      have step : ∀ i ∈ Finset.range a.C, ∀ j ∈ Finset.range b.C, ∀ l ∈ Finset.range c.C,
          IntegrableOver μ (a.fs f) (fun u => w f i x r * w' f j y r * w'' f l z r *
            (a.value u f i r * b.value u f j r * c.value u f l r)) ∧
          intOn μ (a.fs f) (fun u => w f i x r * w' f j y r * w'' f l z r *
            (a.value u f i r * b.value u f j r * c.value u f l r)) =
            w f i x r * w' f j y r * w'' f l z r * k' f i j l r := by
        intro i hi j hj l hl
        have h0 := H.2 i (Finset.mem_range.1 hi) j (Finset.mem_range.1 hj) l (Finset.mem_range.1 hl) r hr'
        have h1 := intOn_mul (μ := μ) (w f i x r * w' f j y r * w'' f l z r) (a.fs f) h0.1
        exact ⟨h1.1, h1.2.trans (by rw [h0.2])⟩
      have s0 := fun i (hi : i ∈ Finset.range a.C) j (hj : j ∈ Finset.range b.C) =>
        intOn_sum (μ := μ) (Finset.range c.C) (a.fs f)
          (fun l u => w f i x r * w' f j y r * w'' f l z r * (a.value u f i r * b.value u f j r * c.value u f l r))
          fun l hl => (step i hi j hj l hl).1
      have s1 := fun i (hi : i ∈ Finset.range a.C) => intOn_sum (μ := μ) (Finset.range b.C) (a.fs f)
        (fun j u => ∑ l ∈ Finset.range c.C, w f i x r * w' f j y r * w'' f l z r *
          (a.value u f i r * b.value u f j r * c.value u f l r)) fun j hj => (s0 i hi j hj).1
      have s2 := intOn_sum (μ := μ) (Finset.range a.C) (a.fs f)
        (fun i u => ∑ j ∈ Finset.range b.C, ∑ l ∈ Finset.range c.C, w f i x r * w' f j y r * w'' f l z r *
          (a.value u f i r * b.value u f j r * c.value u f l r)) fun i hi => (s1 i hi).1
      have e : (fun u => (IC.sum a Co Rs w).value u f x r * (IC.sum b Co' Rs' w').value u f y r *
          (IC.sum c Co'' Rs'' w'').value u f z r) = fun u =>
          ∑ i ∈ Finset.range a.C, ∑ j ∈ Finset.range b.C, ∑ l ∈ Finset.range c.C,
            w f i x r * w' f j y r * w'' f l z r * (a.value u f i r * b.value u f j r * c.value u f l r) := by
        funext u
        simp only [IC.value]
        rw [Finset.sum_mul_sum, Finset.sum_mul]
        refine Finset.sum_congr rfl fun i _ => ?_
        rw [Finset.sum_mul]
        refine Finset.sum_congr rfl fun j _ => ?_
        rw [Finset.mul_sum]
        refine Finset.sum_congr rfl fun l _ => ?_
        ring
      rw [e]
      refine ⟨s2.1, s2.2.trans (Finset.sum_congr rfl fun i hi => (s1 i hi).2.trans (Finset.sum_congr rfl fun j hj =>
        (s0 i hi j hj).2.trans (Finset.sum_congr rfl fun l hl => (step i hi j hj l hl).2)))⟩

end Inner
end Verif

import Verif.IntervalLeaves
import Verif.CircuitProps

/-!
# C36: interval evidence gives the probability of the box

Specification: `boxProb` - the integral of the point-evidence density over the box of allowed values.
-/

open MeasureTheory

namespace Verif
namespace Interval

open Circ

/-- Specification: the probability the circuit's density gives to the box, over the variables `S`: the density
(`log_likelihood` on complete rows, C09/C10) integrated over the values allowed by the bounds. -/
noncomputable def boxProb (μ : Var → Measure ℝ) (lo hi : Var → Bnd) (S : Finset Var) (p : (Var → ℝ) → ℝ) : ENNReal :=
  (∫⋯∫⁻_S, (fun y => ENNReal.ofReal (p y)) ∂fun v => (μ v).restrict (boxSet (lo v) (hi v))) fun _ => 0

/-- Every leaf cell has admissible parameters and the reference measure of its family. -/
def Adm (μ : Var → Measure ℝ) : BC → Prop
  | .leaf q C R d => ∀ i (hi : i < q.length), ∀ ch < C, ∀ r < R, (d i ch r).Adm (μ q[i])
  | .cat1 _ cs => ∀ i, Adm μ (cs i)
  | .cat2 _ cs => ∀ i, Adm μ (cs i)
  | .prod c => Adm μ c
  | .sum c _ _ _ => Adm μ c

/-! ### densities are measurable and normalised -/

theorem adm_dens {μ : Measure ℝ} {d : Dist} (h : d.Adm μ) :
    Measurable (fun t => expL (d.ll t)) ∧ ∫⁻ t, ENNReal.ofReal (expL (d.ll t)) ∂μ = 1 := by
  cases d with
  | bern p =>
    obtain ⟨h0, h1, K, hK, rfl⟩ := h
    refine ⟨Leaves.bernoulli_measurable p, ?_⟩
    have := (bern_box h0 h1 hK none none).1
    rw [Dist.P, boxSet_none, Measure.restrict_univ] at this
    rw [this]; simp [bernProb]
  | cat K l =>
    obtain ⟨h0, N, hK, rfl⟩ := h
    refine ⟨Leaves.categorical_measurable K l, ?_⟩
    have := (cat_box h0 hK none none).1
    rw [Dist.P, boxSet_none, Measure.restrict_univ] at this
    rw [this]
    have : catProb K l none none = 1 := by
      unfold catProb
      refine (Finset.sum_congr rfl fun k hk => ?_).trans (sum_softmax h0)
      have c1 : (((k : ℝ)) : EReal) ≤ ((((K : ℝ) - 1 : ℝ)) : EReal) := by
        rw [EReal.coe_le_coe_iff, le_sub_iff_add_le]; exact_mod_cast Finset.mem_range.1 hk
      have c0 : (0 : EReal) ≤ (((k : ℝ)) : EReal) := by exact_mod_cast Nat.cast_nonneg k
      have c : Option.elim (none : Bnd) 0 ceilE ≤ (((k : ℝ)) : EReal) ∧
          (((k : ℝ)) : EReal) ≤ Option.elim (none : Bnd) ((((K : ℝ) - 1 : ℝ)) : EReal) floorE := ⟨c0, c1⟩
      rw [if_pos c, mul_one]
    rw [this]; simp
  | unif a b =>
    obtain ⟨h0, rfl⟩ := h
    exact ⟨Leaves.uniform_measurable a b, Leaves.uniform_normalised h0⟩
  | normal m s =>
    obtain ⟨h0, rfl⟩ := h
    exact ⟨Leaves.normal_measurable m h0, Leaves.normal_normalised m h0⟩
  | laplace m s =>
    obtain ⟨h0, rfl⟩ := h
    refine ⟨?_, laplace_normalised m h0⟩
    simp only [Dist.ll, expL_laplaceLL m h0]
    fun_prop
  | expo r =>
    obtain ⟨h0, rfl⟩ := h
    refine ⟨?_, expo_normalised h0⟩
    have : (fun t => expL ((Dist.expo r).ll t)) = fun t => if 0 ≤ t then r * Real.exp (-r * t) else 0 := by
      funext t
      by_cases ht : 0 ≤ t
      · rw [if_pos ht]; exact expL_expoLL h0 ht
      · simp [Dist.ll, expoLL, ht]
    rw [this]
    exact Measurable.ite measurableSet_Ici (by fun_prop) measurable_const
  | logNormal m s =>
    obtain ⟨h0, rfl⟩ := h
    refine ⟨?_, logNormal_normalised m h0⟩
    have : (fun t => expL ((Dist.logNormal m s).ll t)) = fun t => if 0 < t then
        expL (Leaves.normalLL m s (Real.log t)) * t⁻¹ else 0 := by
      funext t
      by_cases ht : 0 < t
      · rw [if_pos ht]
        simp only [Dist.ll, logNormalLL]
        rw [if_pos ht, expL_add, expL_coe, Real.exp_neg, Real.exp_log ht]
      · simp [Dist.ll, logNormalLL, ht]
    rw [this]
    exact Measurable.ite measurableSet_Ioi
      (((Leaves.normal_measurable m h0).comp Real.measurable_log).mul measurable_inv) measurable_const
  | gamma a b =>
    obtain ⟨ha, h0, rfl⟩ := h
    refine ⟨?_, gamma_normalised ha h0⟩
    have : (fun t => expL ((Dist.gamma a b).ll t)) = fun t => if 0 < t then
        1 / Real.Gamma a * (Real.exp (-(b * t)) * (b * t) ^ (a - 1)) * b else if t = 0 then expL (gammaLL a b 0) else 0 := by
      funext t
      by_cases ht : 0 < t
      · rw [if_pos ht]; exact expL_gammaLL ha h0 ht
      · rw [if_neg ht]
        by_cases ht0 : t = 0
        · rw [if_pos ht0, ht0]; rfl
        · rw [if_neg ht0]; simp [Dist.ll, gammaLL, ht, ht0]
    rw [this]
    exact Measurable.ite measurableSet_Ioi (by fun_prop)
      (Measurable.ite (measurableSet_singleton 0) measurable_const measurable_const)
  | noCdf d => exact h

/-- **C10, C11: leaf hypothesis.** Bernoulli, Categorical, Uniform, Normal, Laplace, Exponential, LogNormal and Gamma leaves
with parameters in their domains have measurable densities of total mass one. -/
theorem C10_leaf_families {μ : Measure ℝ} {d : Dist} (h : d.Adm μ) :
    Measurable (fun t => expL (d.ll t)) ∧ ∫⁻ t, ENNReal.ofReal (expL (d.ll t)) ∂μ = 1 := adm_dens h

theorem adm_leafOk {μ : Var → Measure ℝ} : ∀ {c : BC}, Adm μ c → LeafOk μ c.circ
  | .leaf _ _ _ _, h => fun i hi ch hch r hr => adm_dens (h i hi ch hch r hr)
  | .cat1 _ _, h => fun i => adm_leafOk (h i)
  | .cat2 _ _, h => fun i => adm_leafOk (h i)
  | .prod c, h => adm_leafOk (c := c) h
  | .sum c _ _ _, h => adm_leafOk (c := c) h

/-! ### factorisation of integrals over disjoint variables -/

section factor
variable {ν : Var → Measure ℝ} [∀ v, SigmaFinite (ν v)]

/-- `g` only depends on the variables in `S`. -/
def LocalE (S : Finset Var) (g : (Var → ℝ) → ENNReal) : Prop := ∀ x y, (∀ v ∈ S, x v = y v) → g x = g y

omit [∀ v, SigmaFinite (ν v)] in
theorem lmarginal_const_of_local {S : Finset Var} {g : (Var → ℝ) → ENNReal} (hg : LocalE S g) (x y : Var → ℝ) :
    (∫⋯∫⁻_S, g ∂ν) x = (∫⋯∫⁻_S, g ∂ν) y := by
  unfold lmarginal
  refine lintegral_congr fun z => hg _ _ fun v hv => ?_
  simp [Function.updateFinset, hv]

omit [∀ v, SigmaFinite (ν v)] in
theorem lmarginal_mul_out {T : Finset Var} {g h : (Var → ℝ) → ENNReal} (hh : Measurable h)
    (hg : ∀ x y, (∀ v ∉ T, x v = y v) → g x = g y) (x : Var → ℝ) :
    (∫⋯∫⁻_T, (fun y => g y * h y) ∂ν) x = g x * (∫⋯∫⁻_T, h ∂ν) x := by
  unfold lmarginal
  have hm : Measurable fun z : (i : T) → ℝ => h (Function.updateFinset x T z) := hh.comp measurable_updateFinset
  refine Eq.trans ?_ (lintegral_const_mul (μ := Measure.pi fun i : T => ν i) (g x) hm)
  refine lintegral_congr fun z => ?_
  show g (Function.updateFinset x T z) * _ = _
  rw [hg (Function.updateFinset x T z) x fun v hv => by simp [Function.updateFinset, hv]]

omit [∀ v, SigmaFinite (ν v)] in
theorem lmarginal_wsum (S : Finset Var) (s : Finset ℕ) (a : ℕ → ENNReal) {g : ℕ → (Var → ℝ) → ENNReal}
    (hg : ∀ i ∈ s, Measurable (g i)) (x : Var → ℝ) :
    (∫⋯∫⁻_S, (fun y => ∑ i ∈ s, a i * g i y) ∂ν) x = ∑ i ∈ s, a i * (∫⋯∫⁻_S, g i ∂ν) x := by
  unfold lmarginal
  have hm : ∀ i ∈ s, Measurable fun z : (i : S) → ℝ => g i (Function.updateFinset x S z) := fun i hi =>
    (hg i hi).comp measurable_updateFinset
  refine (lintegral_finsetSum (μ := Measure.pi fun i : S => ν i) s
    (f := fun i z => a i * g i (Function.updateFinset x S z)) fun i hi => (hm i hi).const_mul _).trans ?_
  refine Finset.sum_congr rfl fun i hi => ?_
  exact lintegral_const_mul (μ := Measure.pi fun i : S => ν i) (a i) (hm i hi)

theorem lmarginal_mul {S T : Finset Var} (hST : Disjoint S T) {g h : (Var → ℝ) → ENNReal} (mg : Measurable g)
    (mh : Measurable h) (hg : LocalE S g) (hh : LocalE T h) (x : Var → ℝ) :
    (∫⋯∫⁻_(S ∪ T), (fun y => g y * h y) ∂ν) x = (∫⋯∫⁻_S, g ∂ν) x * (∫⋯∫⁻_T, h ∂ν) x := by
  have hu := lmarginal_union ν (fun y => g y * h y) (mg.mul mh) hST
  rw [hu]
  have e : (∫⋯∫⁻_T, (fun y => g y * h y) ∂ν) = fun y => (∫⋯∫⁻_T, h ∂ν) x * g y := by
    funext y
    rw [lmarginal_mul_out mh fun a b hab => hg _ _ fun v hv => hab v (Finset.disjoint_left.1 hST hv),
      lmarginal_const_of_local hh y x, mul_comm]
  rw [e, lmarginal_mul_out mg (fun _ _ _ => rfl), mul_comm]

theorem lmarginal_prod (n : ℕ) (S : ℕ → Finset Var) (g : ℕ → (Var → ℝ) → ENNReal)
    (hd : ∀ i < n, ∀ j < n, i ≠ j → Disjoint (S i) (S j)) (mg : ∀ i < n, Measurable (g i))
    (hg : ∀ i < n, LocalE (S i) (g i)) (x : Var → ℝ) :
    (∫⋯∫⁻_((Finset.range n).biUnion S), (fun y => ∏ i ∈ Finset.range n, g i y) ∂ν) x =
      ∏ i ∈ Finset.range n, (∫⋯∫⁻_(S i), g i ∂ν) x := by
  induction n with
  | zero => simp
  | succ n ih =>
    have ih := ih (fun i hi j hj => hd i (by omega) j (by omega)) (fun i hi => mg i (by omega))
      (fun i hi => hg i (by omega))
    rw [Finset.prod_range_succ, ← ih]
    have hU : (Finset.range (n + 1)).biUnion S = (Finset.range n).biUnion S ∪ S n := by
      rw [Finset.range_add_one, Finset.biUnion_insert, Finset.union_comm]
    simp only [Finset.prod_range_succ]
    rw [hU, lmarginal_mul _ (Finset.measurable_prod _ fun i hi => mg i (by have := Finset.mem_range.1 hi; omega))
      (mg n (by omega)) _ (hg n (by omega))]
    · rw [Finset.disjoint_biUnion_left]
      intro i hi
      have := Finset.mem_range.1 hi
      exact hd i (by omega) n (by omega) (by omega)
    · intro a b hab
      refine Finset.prod_congr rfl fun i hi => ?_
      have := Finset.mem_range.1 hi
      exact hg i (by omega) _ _ fun v hv => hab v (Finset.mem_biUnion.2 ⟨i, hi, hv⟩)

end factor

/-! ### shape of the boxed circuit -/

theorem bind_ok {α β : Type} {a : Except Exc α} {f : α → Except Exc β} {b : β} (h : (a >>= f) = .ok b) :
    ∃ x, a = .ok x ∧ f x = .ok b := by
  cases a with
  | error e => cases h
  | ok x => exact ⟨x, rfl, h⟩

theorem boxed_shape {lo hi : Var → Bnd} : ∀ {c : BC} {b : Circ}, c.boxed lo hi = .ok b → F b = F c.circ ∧ C b = C c.circ
  | .leaf q C R d, b, h => by
    obtain ⟨t, -, h⟩ := bind_ok h
    cases h; exact ⟨rfl, rfl⟩
  | .cat1 n cs, b, h => by
    obtain ⟨k, hk, h⟩ := bind_ok h
    cases h
    have := fun i => boxed_shape (Inner.seqFin_ok hk i)
    constructor
    · simp only [F, BC.circ, fun i => (this i).1]
    · simp only [C, BC.circ, fun i => (this i).2]
  | .cat2 n cs, b, h => by
    obtain ⟨k, hk, h⟩ := bind_ok h
    cases h
    have := fun i => boxed_shape (Inner.seqFin_ok hk i)
    constructor
    · simp only [F, BC.circ, fun i => (this i).1]
    · simp only [C, BC.circ, fun i => (this i).2]
  | .prod c, b, h => by
    obtain ⟨k, hk, h⟩ := bind_ok h
    cases h
    exact ⟨rfl, (boxed_shape hk).2⟩
  | .sum c Co R θ, b, h => by
    obtain ⟨k, hk, h⟩ := bind_ok h
    cases h
    exact ⟨(boxed_shape hk).1, rfl⟩

theorem boxed_tensorR {lo hi : Var → Bnd} : ∀ {c : BC} {b : Circ}, c.boxed lo hi = .ok b → tensorR b = tensorR c.circ
  | .leaf q C R d, b, h => by
    obtain ⟨t, -, h⟩ := bind_ok h
    cases h; rfl
  | .cat1 n cs, b, h => by
    obtain ⟨k, hk, h⟩ := bind_ok h
    cases h
    simp only [tensorR, BC.circ, fun i => boxed_tensorR (Inner.seqFin_ok hk i)]
  | .cat2 n cs, b, h => by
    obtain ⟨k, hk, h⟩ := bind_ok h
    cases h
    simp only [tensorR, BC.circ, fun i => boxed_tensorR (Inner.seqFin_ok hk i)]
  | .prod c, b, h => by
    obtain ⟨k, hk, h⟩ := bind_ok h
    cases h
    exact boxed_tensorR (c := c) (b := k) hk
  | .sum c Co R θ, b, h => by
    obtain ⟨k, hk, h⟩ := bind_ok h
    cases h
    simp only [tensorR, BC.circ, boxed_tensorR hk]

/-! ### main induction -/

/-- The clamping constant. -/
noncomputable def eps : ℝ := 10 ^ (-40 : ℤ)

theorem eps_pos : 0 < eps := by unfold eps; positivity

theorem clamp_band {P v : ℝ} (h0 : 0 ≤ P) (h1 : P ≤ 1) (h : v = P ∨ v = clampP P) : P ≤ v ∧ v ≤ P + eps ∧ v ≤ 1 := by
  have e := eps_pos
  have e1 : eps ≤ 1 := by unfold eps; norm_num
  rcases h with rfl | rfl
  · exact ⟨le_rfl, by linarith, h1⟩
  · unfold clampP
    refine ⟨le_max_left _ _, max_le (by linarith) ?_, max_le h1 e1⟩
    show eps ≤ P + eps
    linarith

theorem prod_band {n : ℕ} {P v : ℕ → ℝ} {k : ℕ → ℕ} {eps : ℝ} (he : 0 ≤ eps) (h : ∀ i < n, 0 ≤ P i ∧ P i ≤ v i ∧ v i ≤ P i + k i * eps ∧ v i ≤ 1) :
    0 ≤ ∏ i ∈ Finset.range n, P i ∧ ∏ i ∈ Finset.range n, P i ≤ ∏ i ∈ Finset.range n, v i ∧
    ∏ i ∈ Finset.range n, v i ≤ ∏ i ∈ Finset.range n, P i + (∑ i ∈ Finset.range n, k i : ℕ) * eps ∧
    ∏ i ∈ Finset.range n, v i ≤ 1 := by
  induction n with
  | zero => simp
  | succ n ih =>
    obtain ⟨a, b, c, d⟩ := ih fun i hi => h i (by omega)
    obtain ⟨a', b', c', d'⟩ := h n (by omega)
    simp only [Finset.prod_range_succ, Finset.sum_range_succ, Nat.cast_add]
    set p := ∏ i ∈ Finset.range n, P i
    set w := ∏ i ∈ Finset.range n, v i
    have hk : (0 : ℝ) ≤ ((∑ i ∈ Finset.range n, k i : ℕ) : ℝ) * eps := by positivity
    have hk' : (0 : ℝ) ≤ (k n : ℝ) * eps := by positivity
    generalize ((∑ i ∈ Finset.range n, k i : ℕ) : ℝ) = K at *
    refine ⟨mul_nonneg a a', mul_le_mul b b' a' (a.trans b), ?_, ?_⟩
    · have h1 : w * v n - p * P n = (w - p) * v n + p * (v n - P n) := by ring
      have h2 : (w - p) * v n ≤ K * eps * 1 := mul_le_mul (by linarith) d' (a'.trans b') hk
      have h3 : p * (v n - P n) ≤ 1 * (k n * eps) := mul_le_mul (b.trans d) (by linarith) (by linarith) zero_le_one
      nlinarith
    · exact mul_le_one₀ d (a'.trans b') d'

/-- Every leaf cell's value exceeds the probability of its interval by at most `δ`. -/
def Band (μ : Var → Measure ℝ) (lo hi : Var → Bnd) (δ : ℝ) : BC → Prop
  | .leaf q C R d => ∀ i (hi' : i < q.length), ∀ ch < C, ∀ r < R, ∀ v,
      (d i ch r).box (lo q[i]) (hi q[i]) = .ok v → v ≤ ((d i ch r).P (μ q[i]) (lo q[i]) (hi q[i])).toReal + δ
  | .cat1 _ cs => ∀ i, Band μ lo hi δ (cs i)
  | .cat2 _ cs => ∀ i, Band μ lo hi δ (cs i)
  | .prod c => Band μ lo hi δ c
  | .sum c _ _ _ => Band μ lo hi δ c

theorem main {μ : Var → Measure ℝ} [∀ v, SigmaFinite (μ v)] {lo hi : Var → Bnd} {r : ℕ} {δ : ℝ} (hδ : 0 ≤ δ) :
    ∀ {c : BC} {b : Circ}, c.boxed lo hi = .ok b → Band μ lo hi δ c → Adm μ c → Accepted c.circ → Aligned c.circ → RepIn r c.circ →
      ∀ f < F c.circ, ∀ ch < C c.circ, ∃ P : ℝ,
        boxProb μ lo hi (fscope c.circ f) (fun y => expL (featAt (den c.circ) f (fun v => some (y v)) r ch)) =
          ENNReal.ofReal P ∧ 0 ≤ P ∧ P ≤ expL (featAt (den b) f (fun _ => some 0) r ch) ∧
        expL (featAt (den b) f (fun _ => some 0) r ch) ≤ P + (fscope c.circ f).card * δ ∧
        expL (featAt (den b) f (fun _ => some 0) r ch) ≤ 1
  | .leaf q C R d, b, h, hB, ha, hac, hal, hr => by
    intro f hf ch hch
    obtain ⟨t, ht, h⟩ := bind_ok h
    cases h
    have hf' : f < q.length := hf
    have hch' : ch < C := hch
    have hr' : bc R r < R := bc_lt hr
    have hq : q[f]? = some q[f] := by simp [hf']
    have hcell : (d f ch (bc R r)).box (lo q[f]) (hi q[f]) = .ok (t ⟨f, hf'⟩ ⟨ch, hch'⟩ ⟨bc R r, hr'⟩) :=
      Inner.seqFin_ok (Inner.seqFin_ok (Inner.seqFin_ok ht ⟨f, hf'⟩) ⟨ch, hch'⟩) ⟨bc R r, hr'⟩
    obtain ⟨P, hP, h0, h1, hv⟩ := leaf_box (ha f hf' ch hch' _ hr') hcell
    have band := clamp_band h0 h1 hv
    have e1 : expL (featAt (den (Circ.leaf q C R fun i ch r _ =>
        if h : i < q.length ∧ ch < C ∧ r < R then logL (t ⟨i, h.1⟩ ⟨ch, h.2.1⟩ ⟨r, h.2.2⟩) else ⊥)) f (fun _ => some 0) r ch) =
        t ⟨f, hf'⟩ ⟨ch, hch'⟩ ⟨bc R r, hr'⟩ := by
      rw [featAt_leaf hq]
      simp only [hf', hch', hr', and_self, dif_pos]
      exact expL_logL (h0.trans band.1)
    rw [e1]
    refine ⟨P, ?_, h0, band.1, ?_, band.2.2⟩
    · rw [← hP]
      simp only [BC.circ]
      rw [fscope_leaf hq, boxProb]
      simp only [featAt_leaf hq]
      rw [lmarginal_singleton]
      simp only [Function.update_self]
      rfl
    · simp only [BC.circ]
      rw [fscope_leaf hq]
      have := hB f hf' ch hch' _ hr' _ hcell
      rw [hP, ENNReal.toReal_ofReal h0] at this
      simpa using this
  | .cat1 n cs, b, h, hB, ha, hac, hal, hr => by
    intro f hf ch hch
    obtain ⟨k, hk, h⟩ := bind_ok h
    cases h
    obtain ⟨i, j, hj, rfl⟩ := exists_cat1_index (cs := fun i => (cs i).circ) hf
    have sh := fun i => boxed_shape (Inner.seqFin_ok hk i)
    have ho : offF (fun i => (cs i).circ) i = offF k i := by simp only [offF, fun i => (sh i).1]
    have ih := main hδ (Inner.seqFin_ok hk i) (hB i) (ha i) (hac.1 i) (hal i) (hr i) j hj ch
      (by have := cat1_C hac.2 i; rw [this]; exact hch)
    simp only [BC.circ]
    rw [fscope_cat1 i hj]
    simp only [featAt_cat1 (cs := fun i => (cs i).circ) i hj]
    rw [ho, featAt_cat1 (cs := k) i (by rw [(sh i).1]; exact hj)]
    exact ih
  | .cat2 n cs, b, h, hB, ha, hac, hal, hr => by
    intro f hf ch hch
    obtain ⟨k, hk, h⟩ := bind_ok h
    have hsh := boxed_shape (c := .cat2 n cs) (b := b) (by assumption)
    cases h
    obtain ⟨i, j, hj, rfl⟩ := exists_cat2_index (cs := fun i => (cs i).circ) hch
    have sh := fun i => boxed_shape (Inner.seqFin_ok hk i)
    have ho : offC (fun i => (cs i).circ) i = offC k i := by simp only [offC, fun i => (sh i).2]
    have ih := main hδ (Inner.seqFin_ok hk i) (hB i) (ha i) (hac.1 i) (hal.1 i) (hr i) f
      (by have := cat2_F hac.2 i; rw [this]; exact hf) j hj
    simp only [BC.circ] at hf ⊢
    rw [fscope_cat2 hal.2 i]
    simp only [featAt_cat2 (cs := fun i => (cs i).circ) i hf hj]
    rw [ho, featAt_cat2 (cs := k) i (by rw [hsh.1]; exact hf) (by rw [(sh i).2]; exact hj)]
    exact ih
  | .prod c, b, h, hB, ha, hac, hal, hr => by
    intro f hf ch hch
    have hac : Accepted c.circ := hac
    have hal : Aligned c.circ := hal
    have hr : RepIn r c.circ := hr
    have ha : Adm μ c := ha
    have hB : Band μ lo hi δ c := hB
    have hch : ch < C c.circ := hch
    obtain ⟨k, hk, h⟩ := bind_ok h
    cases h
    obtain rfl : f = 0 := by simp only [BC.circ, F] at hf; omega
    have ih := fun g hg => main hδ hk hB ha hac hal hr g hg ch hch
    choose! P hP using ih
    have sh := boxed_shape hk
    have hsc : fscope (Circ.prod c.circ) 0 = (Finset.range (F c.circ)).biUnion (fscope c.circ) := by
      ext v; rw [mem_fscope_prod]; simp
    have hcard : (fscope (Circ.prod c.circ) 0).card = ∑ g ∈ Finset.range (F c.circ), (fscope c.circ g).card := by
      rw [hsc, Finset.card_biUnion]
      intro a ha' b' hb' hne
      exact fscope_disjoint hac (Finset.mem_range.1 ha') (Finset.mem_range.1 hb') hne
    have band := prod_band hδ (n := F c.circ) (P := P) (v := fun g => expL (featAt (den k) g (fun _ => some 0) r ch))
      (k := fun g => (fscope c.circ g).card) fun g hg => (hP g hg).2
    refine ⟨∏ g ∈ Finset.range (F c.circ), P g, ?_, band.1, ?_⟩
    · simp only [BC.circ, expL_featAt_prod]
      rw [hsc, boxProb]
      simp only [ENNReal.ofReal_prod_of_nonneg fun g _ => expL_nonneg _]
      rw [lmarginal_prod _ (fscope c.circ) (fun g y => ENNReal.ofReal (expL (featAt (den c.circ) g (fun v => some (y v)) r ch)))]
      · rw [ENNReal.ofReal_prod_of_nonneg fun g hg => (hP g (Finset.mem_range.1 hg)).2.1]
        exact Finset.prod_congr rfl fun g hg => (hP g (Finset.mem_range.1 hg)).1
      · exact fun i hi j hj => fscope_disjoint hac hi hj
      · intro i hi
        exact ENNReal.measurable_ofReal.comp (featAt_measurable (Φ := fun y : Var → ℝ => fun v => some (y v))
          (fun v => .inl ⟨fun y => y v, measurable_pi_apply v, fun _ => rfl⟩) hac hr (adm_leafOk ha) hi hch)
      · intro i hi x y hxy
        simp only
        rw [featAt_local hac hal hi hch fun v hv => by rw [hxy v hv]]
    · simp only [BC.circ]
      rw [expL_featAt_prod, sh.1, hcard]
      exact band.2
  | .sum c Co R θ, b, h, hB, ha, hac, hal, hr => by
    intro f hf ch hch
    obtain ⟨k, hk, h⟩ := bind_ok h
    cases h
    have hfc : f < F c.circ := hf
    have ih := fun ci hci => main hδ hk hB ha hac.1 hal hr.1 f hfc ci hci
    choose! P hP using ih
    have sh := boxed_shape hk
    have hw := sum_weight hac hfc hch hr.2
    have hwn : ∀ ci, 0 ≤ weight c.circ θ f ci ch (bc R r) := fun ci => softmax_nonneg _ _ _
    have hwk : ∀ ci, weight k θ f ci ch (bc R r) = weight c.circ θ f ci ch (bc R r) := by
      intro ci; unfold weight; rw [sh.2]
    simp only [BC.circ]
    rw [fscope_sum, expL_featAt_sum (by rw [sh.1]; exact hfc)]
    simp only [expL_featAt_sum hfc, hwk]
    rw [sh.2]
    refine ⟨∑ ci ∈ Finset.range (C c.circ), weight c.circ θ f ci ch (bc R r) * P ci, ?_, ?_, ?_, ?_, ?_⟩
    · rw [boxProb]
      simp only [ENNReal.ofReal_sum_of_nonneg fun ci _ => mul_nonneg (hwn ci) (expL_nonneg _),
        ENNReal.ofReal_mul (hwn _)]
      rw [ENNReal.ofReal_sum_of_nonneg fun ci hci => mul_nonneg (hwn ci) (hP ci (Finset.mem_range.1 hci)).2.1]
      have hm : ∀ ci ∈ Finset.range (C c.circ), Measurable fun y : Var → ℝ =>
          ENNReal.ofReal (expL (featAt (den c.circ) f (fun v => some (y v)) r ci)) := fun ci hci =>
        ENNReal.measurable_ofReal.comp (featAt_measurable (Φ := fun y : Var → ℝ => fun v => some (y v))
          (fun v => .inl ⟨fun y => y v, measurable_pi_apply v, fun _ => rfl⟩) hac.1 hr.1 (adm_leafOk ha) hfc
            (Finset.mem_range.1 hci))
      rw [lmarginal_wsum _ _ _ hm]
      refine Finset.sum_congr rfl fun ci hci => ?_
      rw [ENNReal.ofReal_mul (hwn ci)]
      congr 1
      exact (hP ci (Finset.mem_range.1 hci)).1
    · exact Finset.sum_nonneg fun ci hci => mul_nonneg (hwn ci) (hP ci (Finset.mem_range.1 hci)).2.1
    · exact Finset.sum_le_sum fun ci hci => mul_le_mul_of_nonneg_left (hP ci (Finset.mem_range.1 hci)).2.2.1 (hwn ci)
    · have : ∑ ci ∈ Finset.range (C c.circ), weight c.circ θ f ci ch (bc R r) * P ci + (fscope c.circ f).card * δ =
          ∑ ci ∈ Finset.range (C c.circ), weight c.circ θ f ci ch (bc R r) * (P ci + (fscope c.circ f).card * δ) := by
        simp only [mul_add, Finset.sum_add_distrib, ← Finset.sum_mul]
        rw [hw, one_mul]
      rw [this]
      exact Finset.sum_le_sum fun ci hci => mul_le_mul_of_nonneg_left (hP ci (Finset.mem_range.1 hci)).2.2.2.1 (hwn ci)
    · rw [← hw]
      refine Finset.sum_le_sum fun ci hci => ?_
      exact mul_le_of_le_one_right (hwn ci) (hP ci (Finset.mem_range.1 hci)).2.2.2.2

theorem band_eps {μ : Var → Measure ℝ} {lo hi : Var → Bnd} : ∀ {c : BC}, Adm μ c → Band μ lo hi eps c
  | .leaf q C R d, h => fun i hi' ch hch r hr v hv => by
    obtain ⟨P, hP, h0, h1, h2⟩ := leaf_box (h i hi' ch hch r hr) hv
    rw [hP, ENNReal.toReal_ofReal h0]
    exact (clamp_band h0 h1 h2).2.1
  | .cat1 _ _, h => fun i => band_eps (h i)
  | .cat2 _ _, h => fun i => band_eps (h i)
  | .prod c, h => band_eps (c := c) h
  | .sum c _ _ _, h => band_eps (c := c) h

/-- Every leaf cell gives its interval either a probability of at least `1e-40` or is a Uniform cell (never clamped). -/
def NoClamp (μ : Var → Measure ℝ) (lo hi : Var → Bnd) : BC → Prop
  | .leaf q C R d => ∀ i (hi' : i < q.length), ∀ ch < C, ∀ r < R,
      (∃ a b, d i ch r = .unif a b) ∨ ENNReal.ofReal (10 ^ (-40 : ℤ)) ≤ (d i ch r).P (μ q[i]) (lo q[i]) (hi q[i])
  | .cat1 _ cs => ∀ i, NoClamp μ lo hi (cs i)
  | .cat2 _ cs => ∀ i, NoClamp μ lo hi (cs i)
  | .prod c => NoClamp μ lo hi c
  | .sum c _ _ _ => NoClamp μ lo hi c

theorem band_zero {μ : Var → Measure ℝ} {lo hi : Var → Bnd} : ∀ {c : BC}, Adm μ c → NoClamp μ lo hi c → Band μ lo hi 0 c
  | .leaf q C R d, h, hn => fun i hi' ch hch r hr v hv => by
    have ha := h i hi' ch hch r hr
    rcases hn i hi' ch hch r hr with ⟨a, b, e⟩ | e
    · rw [e] at hv ha ⊢
      obtain ⟨hab, hμ⟩ := ha
      cases hv
      have := unif_box hab (lo q[i]) (hi q[i])
      rw [hμ, this.1, ENNReal.toReal_ofReal this.2.1]; simp
    · obtain ⟨P, hP, h0, h1, h2⟩ := leaf_box ha hv
      rw [hP] at e ⊢
      rw [ENNReal.toReal_ofReal h0, add_zero]
      rw [ENNReal.ofReal_le_ofReal_iff h0] at e
      rcases h2 with rfl | rfl
      · exact le_rfl
      · unfold clampP; exact max_le le_rfl e
  | .cat1 _ _, h, hn => fun i => band_zero (h i) (hn i)
  | .cat2 _ _, h, hn => fun i => band_zero (h i) (hn i)
  | .prod c, h, hn => band_zero (c := c) h hn
  | .sum c _ _ _, h, hn => band_zero (c := c) h hn

theorem lik_ok {c : BC} {cols : List Var} {lo hi : Var → Bnd} {T : ℕ → ℕ → ℕ → LogV}
    (h : logLikInterval c cols lo hi = .ok T) : ∃ b, c.boxed lo hi = .ok b ∧ ∃ R, tensorR c.circ = some R ∧
      ∀ f ch r, T f ch r = featAt (den b) f (fun _ => some 0) r ch := by
  obtain ⟨-, -, h⟩ := bind_ok h
  obtain ⟨b, hb, h⟩ := bind_ok h
  refine ⟨b, hb, ?_⟩
  rw [← boxed_tensorR hb]
  unfold logLik at h
  cases e : tensorR b with
  | none => rw [e] at h; cases h
  | some R => rw [e] at h; cases h; exact ⟨R, rfl, fun _ _ _ => rfl⟩

/-! ## The property -/

/-- C36: whenever `log_likelihood(IntervalEvidence(low, high))` returns, its value is the logarithm of the probability of the
box under the circuit's density, up to the floor of `1e-40` per variable: never below, and above by at most
`1e-40` times the number of variables.  (`_partial`: the floor is the code's; `Aligned` as in C10/C11; conditional leaves are
not covered.) -/
theorem C36_box_probability_partial {μ : Var → Measure ℝ} [∀ v, SigmaFinite (μ v)] {c : BC} {cols : List Var}
    {lo hi : Var → Bnd} {T : ℕ → ℕ → ℕ → LogV} (h : logLikInterval c cols lo hi = .ok T) (ha : Adm μ c)
    (hac : Accepted c.circ) (hal : Aligned c.circ) {R : ℕ} (hR : tensorR c.circ = some R)
    {f ch r : ℕ} (hf : f < F c.circ) (hch : ch < C c.circ) (hr : r < R) :
    let P := boxProb μ lo hi (fscope c.circ f) fun y => expL (featAt (den c.circ) f (fun v => some (y v)) r ch)
    P ≤ 1 ∧ P.toReal ≤ expL (T f ch r) ∧ expL (T f ch r) ≤ P.toReal + (fscope c.circ f).card * 10 ^ (-40 : ℤ) := by
  obtain ⟨b, hb, -, -, hT⟩ := lik_ok h
  obtain ⟨P, hP, h0, h1, h2, h3⟩ := main eps_pos.le hb (band_eps ha) ha hac hal (repIn_of_tensorR hR (.inr hr)) f hf ch hch
  intro P'
  have hP' : P' = ENNReal.ofReal P := hP
  rw [hP', ENNReal.toReal_ofReal h0, hT]
  refine ⟨?_, h1, h2⟩
  rw [← ENNReal.ofReal_one]
  exact ENNReal.ofReal_le_ofReal (h1.trans h3)

/-- C36: when no leaf's interval probability falls below the floor, the value is exactly the logarithm of the probability of
the box. -/
theorem C36_exact {μ : Var → Measure ℝ} [∀ v, SigmaFinite (μ v)] {c : BC} {cols : List Var}
    {lo hi : Var → Bnd} {T : ℕ → ℕ → ℕ → LogV} (h : logLikInterval c cols lo hi = .ok T) (ha : Adm μ c)
    (hn : NoClamp μ lo hi c) (hac : Accepted c.circ) (hal : Aligned c.circ) {R : ℕ} (hR : tensorR c.circ = some R)
    {f ch r : ℕ} (hf : f < F c.circ) (hch : ch < C c.circ) (hr : r < R) :
    ENNReal.ofReal (expL (T f ch r)) =
      boxProb μ lo hi (fscope c.circ f) fun y => expL (featAt (den c.circ) f (fun v => some (y v)) r ch) := by
  obtain ⟨b, hb, -, -, hT⟩ := lik_ok h
  obtain ⟨P, hP, h0, h1, h2, h3⟩ := main le_rfl hb (band_zero ha hn) ha hac hal (repIn_of_tensorR hR (.inr hr)) f hf ch hch
  rw [hP, hT, le_antisymm h1 (by simpa using h2)]

/-- C36: with every bound missing the result is exactly `log 1 = 0`, as for a row of NaNs. -/
theorem C36_unbounded {μ : Var → Measure ℝ} [∀ v, SigmaFinite (μ v)] {c : BC} {cols : List Var} {T : ℕ → ℕ → ℕ → LogV}
    (h : logLikInterval c cols (fun _ => none) (fun _ => none) = .ok T) (ha : Adm μ c)
    (hac : Accepted c.circ) (hal : Aligned c.circ) {R : ℕ} (hR : tensorR c.circ = some R)
    {f ch r : ℕ} (hf : f < F c.circ) (hch : ch < C c.circ) (hr : r < R) : T f ch r = 0 := by
  obtain ⟨b, hb, -, -, hT⟩ := lik_ok h
  obtain ⟨P, hP, h0, h1, h2, h3⟩ := main eps_pos.le hb (band_eps ha) ha hac hal (repIn_of_tensorR hR (.inr hr)) f hf ch hch
  have e := C10_normalised_partial hac hal (adm_leafOk ha) hR hf hch hr fun _ => 0
  unfold boxProb at hP
  simp only [boxSet_none, Measure.restrict_univ] at hP
  rw [e] at hP
  have : (1 : ℝ) = P := by
    rw [← ENNReal.toReal_ofReal h0, ← hP]; simp
  apply expL_injective
  rw [hT, expL_zero]
  linarith

/-- What the leaf families need of the bounds: Exponential, LogNormal and Gamma want both bounds given and non-negative (torch validates
the argument of `cdf` against the support; a missing upper bound is fine), families without `cdf` accept nothing. -/
def Dist.Supports (lo hi : Bnd) : Dist → Prop
  | .expo _ => (0 : EReal) ≤ hi.getD ⊤ ∧ 0 ≤ lo.getD ⊥
  | .logNormal _ _ => (0 : EReal) ≤ hi.getD ⊤ ∧ 0 ≤ lo.getD ⊥
  | .gamma _ _ => (0 : EReal) ≤ hi.getD ⊤ ∧ 0 ≤ lo.getD ⊥
  | .noCdf _ => False
  | _ => True

/-- All leaf cells support their bounds. -/
def Supports (lo hi : Var → Bnd) : BC → Prop
  | .leaf q C R d => ∀ i (hi' : i < q.length), ∀ ch < C, ∀ r < R, (d i ch r).Supports (lo q[i]) (hi q[i])
  | .cat1 _ cs => ∀ i, Supports lo hi (cs i)
  | .cat2 _ cs => ∀ i, Supports lo hi (cs i)
  | .prod c => Supports lo hi c
  | .sum c _ _ _ => Supports lo hi c

theorem expoCdf_ok (r : ℝ) (x : EReal) : (∃ y, expoCdf r x = .ok y) ↔ 0 ≤ x := by
  induction x with
  | bot => exact ⟨fun ⟨y, h⟩ => (by cases h), fun h => (by simp at h)⟩
  | top => exact ⟨fun _ => by simp, fun _ => ⟨_, rfl⟩⟩
  | coe x =>
    change (∃ y, (if 0 ≤ x then Except.ok (1 - Real.exp (-r * x)) else Except.error Exc.valueError) = Except.ok y) ↔ _
    by_cases h : 0 ≤ x
    · simp [h]
    · simp [h]

theorem logNormalCdf_ok (m s : ℝ) (x : EReal) : (∃ y, logNormalCdf m s x = .ok y) ↔ 0 ≤ x := by
  induction x with
  | bot => exact ⟨fun ⟨y, h⟩ => (by cases h), fun h => (by simp at h)⟩
  | top => exact ⟨fun _ => by simp, fun _ => ⟨_, rfl⟩⟩
  | coe x =>
    change (∃ y, (if x < 0 then Except.error Exc.valueError else if x = 0 then Except.ok (normalCdf m s ⊥) else
        Except.ok (normalCdf m s ((Real.log x : ℝ) : EReal))) = Except.ok y) ↔ _
    by_cases h : x < 0
    · simp [h]
    · by_cases h0 : x = 0 <;> simp [h, h0, not_lt.1 h]

theorem gammaCdf_ok (a b : ℝ) (x : EReal) : (∃ y, gammaCdf a b x = .ok y) ↔ 0 ≤ x := by
  induction x with
  | bot => exact ⟨fun ⟨y, h⟩ => (by cases h), fun h => (by simp at h)⟩
  | top => exact ⟨fun _ => by simp, fun _ => ⟨_, rfl⟩⟩
  | coe x =>
    change (∃ y, (if 0 ≤ x then Except.ok (gammainc a (b * x)) else Except.error Exc.valueError) = Except.ok y) ↔ _
    by_cases h : 0 ≤ x
    · simp [h]
    · simp [h]

theorem cdfProb_ok (cdf : EReal → Except Exc ℝ) (lo hi : Bnd) :
    (∃ v, clampP <$> cdfProb cdf lo hi = .ok v) ↔ (∃ y, cdf (hi.getD ⊤) = .ok y) ∧ ∃ y, cdf (lo.getD ⊥) = .ok y := by
  unfold cdfProb
  cases e1 : cdf (hi.getD ⊤) with
  | error e => exact ⟨fun ⟨v, h⟩ => (by cases h), fun ⟨⟨_, h⟩, _⟩ => by cases h⟩
  | ok y =>
    cases e2 : cdf (lo.getD ⊥) with
    | error e => exact ⟨fun ⟨v, h⟩ => (by cases h), fun ⟨_, _, h⟩ => by cases h⟩
    | ok x => exact ⟨fun _ => ⟨⟨y, rfl⟩, x, rfl⟩, fun _ => ⟨_, rfl⟩⟩

theorem cell_ok (d : Dist) (lo hi : Bnd) : (∃ v, d.box lo hi = .ok v) ↔ d.Supports lo hi := by
  cases d with
  | expo r =>
    have := cdfProb_ok (expoCdf r) lo hi
    rw [expoCdf_ok, expoCdf_ok] at this
    exact this
  | logNormal m s =>
    have := cdfProb_ok (logNormalCdf m s) lo hi
    rw [logNormalCdf_ok, logNormalCdf_ok] at this
    exact this
  | gamma a b =>
    have := cdfProb_ok (gammaCdf a b) lo hi
    rw [gammaCdf_ok, gammaCdf_ok] at this
    exact this
  | noCdf d => exact ⟨fun ⟨v, h⟩ => (by cases h), False.elim⟩
  | _ => exact ⟨fun _ => trivial, fun _ => ⟨_, rfl⟩⟩

theorem seqFin_iff {α : Type} {n : ℕ} (g : Fin n → Except Exc α) : (∃ k, Inner.seqFin g = .ok k) ↔ ∀ i, ∃ a, g i = .ok a := by
  constructor
  · rintro ⟨k, hk⟩ i; exact ⟨_, Inner.seqFin_ok hk i⟩
  · intro h
    choose k hk using h
    exact ⟨k, Inner.seqFin_of hk⟩

theorem boxed_ok {lo hi : Var → Bnd} : ∀ {c : BC}, (∃ b, c.boxed lo hi = .ok b) ↔ Supports lo hi c
  | .leaf q C R d => by
    have e : (∃ b, (BC.leaf q C R d).boxed lo hi = .ok b) ↔ ∃ t, leafBox q C R d lo hi = .ok t := by
      constructor
      · rintro ⟨b, h⟩; obtain ⟨t, ht, -⟩ := bind_ok h; exact ⟨t, ht⟩
      · rintro ⟨t, ht⟩; exact ⟨_, by unfold BC.boxed; rw [ht]; rfl⟩
    rw [e]
    unfold leafBox Supports
    simp only [seqFin_iff, cell_ok]
    exact ⟨fun h i hi' ch hch r hr => h ⟨i, hi'⟩ ⟨ch, hch⟩ ⟨r, hr⟩, fun h i ch r => h i i.2 ch ch.2 r r.2⟩
  | .cat1 n cs => by
    have e : (∃ b, (BC.cat1 n cs).boxed lo hi = .ok b) ↔ ∃ t, Inner.seqFin (fun i => (cs i).boxed lo hi) = .ok t := by
      constructor
      · rintro ⟨b, h⟩; obtain ⟨t, ht, -⟩ := bind_ok h; exact ⟨t, ht⟩
      · rintro ⟨t, ht⟩; exact ⟨_, by unfold BC.boxed; rw [ht]; rfl⟩
    rw [e, seqFin_iff]
    exact forall_congr' fun i => boxed_ok
  | .cat2 n cs => by
    have e : (∃ b, (BC.cat2 n cs).boxed lo hi = .ok b) ↔ ∃ t, Inner.seqFin (fun i => (cs i).boxed lo hi) = .ok t := by
      constructor
      · rintro ⟨b, h⟩; obtain ⟨t, ht, -⟩ := bind_ok h; exact ⟨t, ht⟩
      · rintro ⟨t, ht⟩; exact ⟨_, by unfold BC.boxed; rw [ht]; rfl⟩
    rw [e, seqFin_iff]
    exact forall_congr' fun i => boxed_ok
  | .prod c => by
    refine Iff.trans ?_ (boxed_ok (c := c))
    constructor
    · rintro ⟨b, h⟩; obtain ⟨t, ht, -⟩ := bind_ok h; exact ⟨t, ht⟩
    · rintro ⟨t, ht⟩; exact ⟨_, by unfold BC.boxed; rw [ht]; rfl⟩
  | .sum c Co R θ => by
    refine Iff.trans ?_ (boxed_ok (c := c))
    constructor
    · rintro ⟨b, h⟩; obtain ⟨t, ht, -⟩ := bind_ok h; exact ⟨t, ht⟩
    · rintro ⟨t, ht⟩; exact ⟨_, by unfold BC.boxed; rw [ht]; rfl⟩

/-- C36: exactly when the query is answered: no pair of finite bounds with `low > high`, torch can broadcast the repetitions, and
every leaf supports its bounds. -/
theorem C36_answered_iff (c : BC) (cols : List Var) (lo hi : Var → Bnd) :
    (∃ T, logLikInterval c cols lo hi = .ok T) ↔
      (∀ v ∈ cols, ∀ a b : ℝ, lo v = some (a : EReal) → hi v = some (b : EReal) → a ≤ b) ∧
      (∃ R, tensorR c.circ = some R) ∧ Supports lo hi c := by
  constructor
  · rintro ⟨T, h⟩
    obtain ⟨b, hb, R, hR, -⟩ := lik_ok h
    refine ⟨?_, ⟨R, hR⟩, boxed_ok.1 ⟨b, hb⟩⟩
    obtain ⟨u, he, hrest⟩ := bind_ok h
    intro v hv a b' ha hb'
    by_contra hlt
    unfold mkEvidence at he
    rw [if_pos ⟨v, hv, a, b', ha, hb', not_le.1 hlt⟩] at he
    cases he
  · rintro ⟨h1, ⟨R, hR⟩, h3⟩
    obtain ⟨b, hb⟩ := boxed_ok.2 h3
    have e1 : mkEvidence cols lo hi = .ok () := by
      unfold mkEvidence
      rw [if_neg]
      rintro ⟨v, hv, a, b', ha, hb', hlt⟩
      exact absurd (h1 v hv a b' ha hb') (not_le.2 hlt)
    have e2 : logLik b (fun _ => some 0) = .ok fun f ch r => featAt (den b) f (fun _ => some 0) r ch := by
      unfold logLik; rw [boxed_tensorR hb, hR]
    exact ⟨_, by unfold logLikInterval; rw [e1]; show (c.boxed lo hi >>= _) = _; rw [hb]; exact e2⟩

/-! ## Where the promise fails, and examples -/

/-- An Exponential leaf. -/
noncomputable def exExpo : BC := .leaf [0] 1 1 fun _ _ _ => .expo 1

/-- A Gamma leaf meets the hypotheses, and answers for the box `1 ≤ x ≤ 2`. -/
theorem C36_gamma_example : Adm (fun _ => volume) (.leaf [0] 1 1 fun _ _ _ => .gamma 2 3) ∧
    Supports (fun _ => some ((1 : ℝ) : EReal)) (fun _ => some ((2 : ℝ) : EReal)) (.leaf [0] 1 1 fun _ _ _ => .gamma 2 3) := by
  refine ⟨fun i hi ch hch r hr => ⟨by norm_num, by norm_num, rfl⟩, fun i hi ch hch r hr => ⟨?_, ?_⟩⟩
  · show (0 : EReal) ≤ ((2 : ℝ) : EReal)
    exact_mod_cast (by norm_num : (0 : ℝ) ≤ 2)
  · show (0 : EReal) ≤ ((1 : ℝ) : EReal)
    exact_mod_cast (by norm_num : (0 : ℝ) ≤ 1)

/-- C36 is false for Exponential (and LogNormal) leaves: a missing lower bound means "unbounded", the box `x ≤ 1` has probability
`1 - e⁻¹ > 0`, but the query raises ValueError. -/
theorem C36_missing_lower_bound_raises :
    (∀ T, logLikInterval exExpo [0] (fun _ => none) (fun _ => some ((1 : ℝ) : EReal)) ≠ .ok T) ∧
    Adm (fun _ => volume) exExpo ∧ Accepted exExpo.circ ∧
    boxProb (fun _ => volume) (fun _ => none) (fun _ => some ((1 : ℝ) : EReal)) (fscope exExpo.circ 0)
      (fun y => expL (featAt (den exExpo.circ) 0 (fun v => some (y v)) 0 0)) = ENNReal.ofReal (1 - Real.exp (-1)) := by
  refine ⟨?_, ?_, ?_, ?_⟩
  · intro T h
    have := ((C36_answered_iff _ _ _ _).1 ⟨T, h⟩).2.2
    have := (this 0 (by simp) 0 (by simp) 0 (by simp)).2
    simp at this
  · intro i hi ch hch r hr; exact ⟨one_pos, rfl⟩
  · rfl
  · have hq : ([0] : List Var)[0]? = some 0 := rfl
    unfold exExpo
    simp only [BC.circ]
    rw [fscope_leaf hq, boxProb]
    simp only [featAt_leaf hq]
    rw [lmarginal_singleton]
    simp only [Function.update_self]
    show ∫⁻ t in boxSet none (some ((1 : ℝ) : EReal)), ENNReal.ofReal (expL (expoLL 1 t)) = _
    have hb := (lint_box_nonneg (G := fun x => 1 - Real.exp (-1 * x)) (g := fun x => expL (expoLL 1 x))
      ((expo_facts one_pos).1 0).continuousAt.continuousWithinAt
      (fun x hx => by rw [expL_expoLL one_pos hx.le]; exact (expo_facts one_pos).1 x) (fun x _ => expL_nonneg _)
      (expo_facts one_pos).2 le_rfl).2.2 1 zero_le_one
    rw [show (1 - Real.exp (-1 * 1) - (1 - Real.exp (-1 * 0)) : ℝ) = 1 - Real.exp (-1) by simp] at hb
    rw [← hb]
    have hs : boxSet none (some ((1 : ℝ) : EReal)) = Set.Iic 1 := by
      ext t; simp only [boxSet, Option.getD_none, Option.getD_some, Set.mem_ofPred_eq, bot_le, true_and, Set.mem_Iic]
      exact EReal.coe_le_coe_iff
    have hm : {t : ℝ | 0 ≤ t ∧ t ≤ 1} = Set.Icc 0 1 := rfl
    rw [hs, hm, ← lintegral_indicator measurableSet_Iic, ← lintegral_indicator measurableSet_Icc]
    congr 1
    funext t
    by_cases h0 : 0 ≤ t <;> by_cases h1 : t ≤ 1 <;> simp [Set.indicator, h0, h1, expoLL]

/-- A fair Bernoulli leaf. -/
noncomputable def exBern : BC := .leaf [0] 1 1 fun _ _ _ => .bern (1 / 2)

/-- C36 is false for impossible boxes: no value of a Bernoulli variable lies in `[1/4, 3/4]`, but the result is
`log 1e-40`, not `-inf`. -/
theorem C36_impossible_box :
    ∃ T, logLikInterval exBern [0] (fun _ => some ((1 / 4 : ℝ) : EReal)) (fun _ => some ((3 / 4 : ℝ) : EReal)) = .ok T ∧
      boxProb (fun _ => Leaves.countBelow 2) (fun _ => some ((1 / 4 : ℝ) : EReal)) (fun _ => some ((3 / 4 : ℝ) : EReal))
        (fscope exBern.circ 0) (fun y => expL (featAt (den exBern.circ) 0 (fun v => some (y v)) 0 0)) = 0 ∧
      expL (T 0 0 0) = 10 ^ (-40 : ℤ) := by
  have hans : ∃ T, logLikInterval exBern [0] (fun _ => some ((1 / 4 : ℝ) : EReal)) (fun _ => some ((3 / 4 : ℝ) : EReal)) = .ok T := by
    rw [C36_answered_iff]
    refine ⟨?_, ⟨1, rfl⟩, fun i hi ch hch r hr => trivial⟩
    intro v hv a b ha hb
    simp only [Option.some.injEq, EReal.coe_eq_coe_iff] at ha hb
    subst ha; subst hb; norm_num
  obtain ⟨T, hT⟩ := hans
  have hq : ([0] : List Var)[0]? = some 0 := rfl
  have hb0 : bernProb (1 / 2) (some ((1 / 4 : ℝ) : EReal)) (some ((3 / 4 : ℝ) : EReal)) = 0 := by
    unfold bernProb
    simp only [Option.elim_some]
    have c : ceilE ((1 / 4 : ℝ) : EReal) = ((1 : ℝ) : EReal) := by
      show ((((⌈(1/4 : ℝ)⌉ : ℤ) : ℝ) : EReal)) = _
      have : ⌈(1/4 : ℝ)⌉ = 1 := by rw [Int.ceil_eq_iff]; norm_num
      rw [this]; norm_num
    have d : floorE ((3 / 4 : ℝ) : EReal) = ((0 : ℝ) : EReal) := by
      show ((((⌊(3/4 : ℝ)⌋ : ℤ) : ℝ) : EReal)) = _
      have : ⌊(3/4 : ℝ)⌋ = 0 := by rw [Int.floor_eq_iff]; norm_num
      rw [this]; norm_num
    simp only [c, d]
    have n1 : ¬ ((((1 : ℝ) : EReal)) ≤ 0 ∧ (0 : EReal) ≤ ((0 : ℝ) : EReal)) := by
      rintro ⟨h, -⟩; exact absurd h (by norm_num)
    have n2 : ¬ ((((1 : ℝ) : EReal)) ≤ 1 ∧ (1 : EReal) ≤ ((0 : ℝ) : EReal)) := by
      rintro ⟨-, h⟩; exact absurd h (by norm_num)
    rw [if_neg n1, if_neg n2, add_zero]
  refine ⟨T, hT, ?_, ?_⟩
  · unfold exBern
    simp only [BC.circ]
    rw [fscope_leaf hq, boxProb]
    simp only [featAt_leaf hq]
    rw [lmarginal_singleton]
    simp only [Function.update_self]
    have := (bern_box (p := 1 / 2) (by norm_num) (by norm_num) le_rfl (some ((1 / 4 : ℝ) : EReal)) (some ((3 / 4 : ℝ) : EReal))).1
    rw [hb0, ENNReal.ofReal_zero] at this
    exact this
  · obtain ⟨b, hb, -, -, hT'⟩ := lik_ok hT
    rw [hT']
    obtain ⟨t, ht, hb⟩ := bind_ok hb
    cases hb
    have hcell := Inner.seqFin_ok (Inner.seqFin_ok (Inner.seqFin_ok ht ⟨0, by simp⟩) ⟨0, by simp⟩) ⟨0, by simp⟩
    have hc : Except.ok (clampP (bernProb (1 / 2) (some ((1 / 4 : ℝ) : EReal)) (some ((3 / 4 : ℝ) : EReal)))) = Except.ok
      (t ⟨0, by simp⟩ ⟨0, by simp⟩ ⟨0, by simp⟩) := hcell
    rw [hb0] at hc
    simp only [Except.ok.injEq] at hc
    rw [featAt_leaf hq]
    show expL (logL (t ⟨0, by simp⟩ ⟨0, by simp⟩ ⟨0, by simp⟩)) = _
    rw [← hc]
    unfold clampP
    rw [max_eq_right (by positivity), expL_logL (by positivity)]

/-- A Bernoulli variable times a standard Normal variable. -/
noncomputable def exBox : BC :=
  .prod (.cat1 2 ![.leaf [0] 1 1 fun _ _ _ => .bern (1 / 2), .leaf [1] 1 1 fun _ _ _ => .normal 0 1])

/-- C36: the hypotheses hold for a mixed discrete/continuous product and a one-sided box. -/
theorem C36_example : ∃ T, logLikInterval exBox [0, 1] (fun v => if v = 0 then some ((1 / 2 : ℝ) : EReal) else none)
      (fun v => if v = 0 then none else some ((0 : ℝ) : EReal)) = .ok T ∧
    Adm (fun v => if v = 0 then Leaves.countBelow 2 else volume) exBox ∧ Accepted exBox.circ ∧ Aligned exBox.circ ∧
    tensorR exBox.circ = some 1 := by
  have hans : ∃ T, logLikInterval exBox [0, 1] (fun v => if v = 0 then some ((1 / 2 : ℝ) : EReal) else none)
      (fun v => if v = 0 then none else some ((0 : ℝ) : EReal)) = .ok T := by
    rw [C36_answered_iff]
    refine ⟨?_, ⟨1, ?_⟩, ?_⟩
    · intro v hv a b ha hb
      by_cases h : v = 0 <;> simp [h] at ha hb
    · simp [exBox, BC.circ, tensorR]
    · intro i; fin_cases i <;> exact fun i hi ch hch r hr => trivial
  obtain ⟨T, hT⟩ := hans
  refine ⟨T, hT, ?_, ?_, ?_, ?_⟩
  · intro i; fin_cases i
    · intro i hi ch hch r hr
      obtain rfl : i = 0 := by simp at hi; omega
      exact ⟨by norm_num, by norm_num, 2, le_rfl, by simp⟩
    · intro i hi ch hch r hr
      obtain rfl : i = 0 := by simp at hi; omega
      exact ⟨one_pos, by simp⟩
  · refine ⟨fun i => ?_, ?_⟩
    · fin_cases i <;> rfl
    · rfl
  · intro i; fin_cases i <;> trivial
  · simp [exBox, BC.circ, tensorR]

end Interval
end Verif

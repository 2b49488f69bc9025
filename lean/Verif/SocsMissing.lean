import Verif.SocsProps

/-!
# C35: counterexample for unsorted leaves and a worked example; C53: missing values in a SOCS
-/

open MeasureTheory

namespace Verif
namespace Inner

theorem ip_prod {c d : IC} {k : Mat} (h : ip c d = .ok k) (hv : c.vars = d.vars) (hR : c.R = d.R) :
    ip (.prod c) (.prod d) = .ok fun _ i j r => ∏ f ∈ Finset.range c.F, k f i j r := by
  simp only [ip]
  rw [if_neg (by simp [hv]), if_neg (by simp [hR]), h]

theorem ip_sum {c d : IC} {k : Mat} {Co Co' R : ℕ} {w w' : ℕ → ℕ → ℕ → ℕ → ℝ} (h : ip c d = .ok k)
    (hv : c.vars = d.vars) (hF : c.F = d.F) :
    ip (.sum c Co R w) (.sum d Co' R w') = .ok fun f a b r =>
      ∑ i ∈ Finset.range c.C, ∑ j ∈ Finset.range d.C, w f i a r * k f i j r * w' f j b r := by
  simp only [ip]
  rw [if_neg (by simp [hv]), if_neg (by simp [hF]), if_neg (by simp), h]

/-- Product of two Bernoulli leaves, `P(q₀ = 1) = a` and `P(q₁ = 1) = b`. -/
def twoBern (q : List Var) (a b : ℝ) : IC := .prod (.leaf q 1 1 fun f _ _ => if f = 0 then .bern a else .bern b)

theorem bern_disjoint (t : ℝ) : dens (.bern 1) t * dens (.bern 0) t = 0 := by
  simp only [dens]
  split_ifs <;> norm_num

/-- **C35 fails** when the two circuits list the variables of a leaf in different orders: the scopes are compared as
sets, so the pair is accepted, but variable 0 of one is paired with variable 1 of the other.  The functions below have
disjoint supports, their inner product is `0`, and `1` is returned. -/
theorem C35_order_matters : ∃ (a b : IC) (k : Mat), ip a b = .ok k ∧ Wf a ∧ Wf b ∧
    Leaves (Admissible (fun _ => true) ∅) a ∧ Leaves (Admissible (fun _ => true) ∅) b ∧ a.vars = b.vars ∧
    k 0 0 0 0 = 1 ∧ intOn (refMeasure fun _ => true) a.vars (fun x => a.value x 0 0 0 * b.value x 0 0 0) = 0 := by
  have hk : ∃ k, ip (twoBern [0, 1] 1 0) (twoBern [1, 0] 1 0) = .ok k ∧ k 0 0 0 0 = 1 := by
    obtain ⟨k', hk'⟩ : ∃ k', ip (.leaf [0, 1] 1 1 fun f _ _ => if f = 0 then .bern 1 else .bern 0)
        (.leaf [1, 0] 1 1 fun f _ _ => if f = 0 then .bern 1 else .bern 0) = .ok k' ∧
        (∏ f ∈ Finset.range 2, k' f 0 0 0) = 1 := by
      simp only [ip]
      rw [if_neg (by decide), if_neg (by decide), if_neg (by decide)]
      rw [seqFin_of (k := fun f _ _ _ => 1)]
      · refine ⟨_, rfl, ?_⟩
        simp [Finset.prod_range_succ]
      · intro f
        apply seqFin_of; intro i
        apply seqFin_of; intro j
        apply seqFin_of; intro r
        fin_cases f <;> simp [ipPar]
    exact ⟨_, ip_prod hk'.1 (by decide) rfl, hk'.2⟩
  obtain ⟨k, hk, h1⟩ := hk
  refine ⟨_, _, k, hk, ?_, ?_, ?_, ?_, by decide, h1, ?_⟩
  · simp [twoBern, Wf]
  · simp [twoBern, Wf]
  · intro f hf c _ r _
    dsimp only
    split <;> simp [Admissible]
  · intro f hf c _ r _
    dsimp only
    split <;> simp [Admissible]
  · have : (fun x => (twoBern [0, 1] 1 0).value x 0 0 0 * (twoBern [1, 0] 1 0).value x 0 0 0) = fun _ => 0 := by
      funext x
      simp only [twoBern, IC.value, IC.F, List.length_cons, List.length_nil, Finset.prod_range_succ,
        Finset.prod_range_zero, one_mul, if_true, List.getD_cons_zero, List.getD_cons_succ]
      have := bern_disjoint (x 0)
      have e : ∀ a b c d : ℝ, a * b * (c * d) = (a * d) * (b * c) := fun a b c d => by ring
      rw [e]
      norm_num [this]
    rw [this]
    simp [intOn]

/-! ## A worked example -/

/-- A signed mixture over a discrete and a continuous variable:
`w₀ · [x₀ = 1] · N(x₁; 0, 1) + w₁ · [x₀ = 0] · N(x₁; 3, 1)`. -/
noncomputable def exComp (w : ℕ → ℝ) : IC :=
  .sum (.prod (.cat1 2 fun i => if i = 0 then .leaf [0] 2 1 fun _ c _ => .bern (if c = 0 then 1 else 0)
    else .leaf [1] 2 1 fun _ c _ => .normal (if c = 0 then 0 else 3) 1)) 1 1 fun _ i _ _ => w i

noncomputable def exDisc : Var → Bool := fun v => v == 0

theorem exComp_wf (w : ℕ → ℝ) : Wf (exComp w) := by
  refine ⟨⟨by omega, fun i => ?_, fun i j => ?_, fun i j => ?_, fun i j hij => ?_⟩, rfl⟩
  · fin_cases i <;> simp [Wf]
  · fin_cases i <;> fin_cases j <;> rfl
  · fin_cases i <;> fin_cases j <;> rfl
  · fin_cases i <;> fin_cases j <;> simp_all [IC.vars]

theorem exComp_sorted (w : ℕ → ℝ) : Sorted (exComp w) := by
  intro i
  fin_cases i <;> simp [Sorted]

theorem exComp_leaves (w : ℕ → ℝ) : Leaves (Admissible exDisc ∅) (exComp w) := by
  intro i
  fin_cases i
  · intro f hf c hc r hr
    simp only [List.length_singleton, Nat.lt_one_iff] at hf
    subst hf
    simp [Admissible, exDisc]
  · intro f hf c hc r hr
    simp only [List.length_singleton, Nat.lt_one_iff] at hf
    subst hf
    simp [Admissible, exDisc]

/-- The integral of a squared standard normal density. -/
noncomputable def nn : ℝ := Real.exp (-(1 / 2) * Real.log (2 * Real.pi * (1 ^ 2 + 1 ^ 2)))

theorem nn_large : 1 / 4 ≤ nn := by
  have h : Real.log (2 * Real.pi * (1 ^ 2 + 1 ^ 2)) ≤ Real.log 16 :=
    Real.log_le_log (by positivity) (by have := Real.pi_le_four; linarith)
  have h16 : Real.log 16 = 2 * Real.log 4 := by
    rw [show (16 : ℝ) = 4 ^ 2 by norm_num, Real.log_pow]; norm_num
  have : Real.exp (-(Real.log 4)) ≤ nn := Real.exp_le_exp.2 (by
    rw [h16] at h
    generalize Real.log (2 * Real.pi * (1 ^ 2 + 1 ^ 2)) = A at h ⊢
    linarith)
  rwa [Real.exp_neg, Real.exp_log (by norm_num), ← one_div] at this

theorem exComp_ip (w : ℕ → ℝ) : ∃ k, ip (exComp w) (exComp w) = .ok k ∧ k 0 0 0 0 = (w 0 ^ 2 + w 1 ^ 2) * nn := by
  -- leaves
  obtain ⟨k1, h1, v1⟩ : ∃ k, ip (.leaf [0] 2 1 fun _ c _ => .bern (if c = 0 then 1 else 0))
      (.leaf [0] 2 1 fun _ c _ => .bern (if c = 0 then 1 else 0)) = .ok k ∧
      k 0 0 0 0 = 1 ∧ k 0 0 1 0 = 0 ∧ k 0 1 0 0 = 0 ∧ k 0 1 1 0 = 1 := by
    simp only [ip]
    rw [if_neg (by decide), if_neg (by decide), if_neg (by decide)]
    rw [seqFin_of (k := fun _ i j _ => if i.val = j.val then (1 : ℝ) else 0)]
    · refine ⟨_, rfl, ?_⟩
      simp
    · intro f
      apply seqFin_of; intro i
      apply seqFin_of; intro j
      apply seqFin_of; intro r
      fin_cases i <;> fin_cases j <;> simp [ipPar]
  obtain ⟨k2, h2, v2⟩ : ∃ k, ip (.leaf [1] 2 1 fun _ c _ => .normal (if c = 0 then 0 else 3) 1)
      (.leaf [1] 2 1 fun _ c _ => .normal (if c = 0 then 0 else 3) 1) = .ok k ∧
      k 0 0 0 0 = nn ∧ k 0 1 1 0 = nn := by
    simp only [ip]
    rw [if_neg (by decide), if_neg (by decide), if_neg (by decide)]
    rw [seqFin_of (k := fun _ i j _ => Real.exp (-(1 / 2) * Real.log (2 * Real.pi * (1 ^ 2 + 1 ^ 2)) +
      -((if i.val = 0 then 0 else 3) - (if j.val = 0 then 0 else 3)) ^ 2 / (2 * (1 ^ 2 + 1 ^ 2))))]
    · refine ⟨_, rfl, ?_⟩
      simp [nn]
    · intro f
      apply seqFin_of; intro i
      apply seqFin_of; intro j
      apply seqFin_of; intro r
      rfl
  let parts : Fin 2 → IC := fun i => if i = 0 then .leaf [0] 2 1 fun _ c _ => .bern (if c = 0 then 1 else 0)
    else .leaf [1] 2 1 fun _ c _ => .normal (if c = 0 then 0 else 3) 1
  have hparts : (seqFin fun i : Fin 2 => ip (parts i) (parts (i.cast rfl))) =
      .ok fun i => if i = 0 then k1 else k2 := by
    apply seqFin_of
    intro i
    fin_cases i
    · exact h1
    · exact h2
  have hcat : ip (.cat1 2 parts) (.cat1 2 parts) = .ok fun f i j r =>
      pick (fun i : Fin 2 => if i = 0 then k1 else k2) (locate [1, 1] f).1 (locate [1, 1] f).2 i j r := by
    simp only [ip]
    rw [if_neg (by simp), if_neg (by simp), if_neg (by simp), dif_pos trivial, hparts]
    rfl
  have hF : (IC.cat1 2 parts).F = 2 := rfl
  have hC : (IC.prod (IC.cat1 2 parts)).C = 2 := rfl
  refine ⟨_, ip_sum (ip_prod hcat rfl rfl) rfl rfl, ?_⟩
  · rw [hF, hC]
    simp [Finset.sum_range_succ, Finset.prod_range_succ, locate, pick, v1, v2]
    ring

/-- The hypotheses of C35 are met by a signed mixture over a discrete and a continuous variable, and its density is
normalised. -/
theorem C35_example : ∃ V : Finset Var, V = {0, 1} ∧
    intOn (refMeasure exDisc) V (socsDensity exDisc [exComp fun i => if i = 0 then 1 else -(1 / 2), exComp fun _ => 1] V 0 0 0)
      = 1 := by
  obtain ⟨k, hk, v⟩ := exComp_ip fun i => if i = 0 then 1 else -(1 / 2)
  obtain ⟨k', hk', v'⟩ := exComp_ip fun _ => 1
  have hs : selfIps [exComp fun i => if i = 0 then 1 else -(1 / 2), exComp fun _ => 1] = .ok [k, k'] := by
    simp only [selfIps, hk, hk']
  have hvars : ∀ w, (exComp w).vars = {0, 1} := by intro w; rfl
  obtain ⟨V, h1, h2, h3, h4⟩ := C35_socs_normalised exDisc (S := ∅) (by simp [Separated]) (c := 0) (r := 0)
    (comps := [exComp fun i => if i = 0 then 1 else -(1 / 2), exComp fun _ => 1]) (ks := [k, k'])
    (by
      refine ⟨[exComp fun i => if i = 0 then 1 else -(1 / 2), exComp fun _ => 1], ?_⟩
      unfold mkSocs
      dsimp only
      rw [if_neg (by simp [hvars]), if_neg (by simp [exComp, IC.F, IC.C, IC.R])])
    hs
    (by
      intro d hd
      simp only [List.mem_cons, List.not_mem_nil, or_false] at hd
      rcases hd with rfl | rfl
      · exact ⟨exComp_wf _, exComp_sorted _, exComp_leaves _, rfl, by simp [exComp, IC.C], by simp [exComp, IC.R]⟩
      · exact ⟨exComp_wf _, exComp_sorted _, exComp_leaves _, rfl, by simp [exComp, IC.C], by simp [exComp, IC.R]⟩)
    (by
      have := nn_large
      simp only [partition, List.map_cons, List.map_nil, List.sum_cons, List.sum_nil, v, v', if_true]
      norm_num
      linarith)
  exact ⟨V, (h1 _ List.mem_cons_self).symm.trans (hvars _), h4⟩

/-! ## C53 -/

/-- The integral of `g` over the variables in `M`, the others being fixed to their values in `x`. -/
noncomputable def margAt (μ : Var → Measure ℝ) (M : Finset Var) (x : Var → ℝ) (g : (Var → ℝ) → ℝ) : ℝ :=
  intOn μ M fun z => g fun v => if v ∈ M then z v else x v

/-- **C53 fails for missing values.** One Bernoulli component with any parameter in `(0,1)`: with its only variable
missing the SOCS returns `1 / (p² + (1-p)²) > 1`, although its density integrates to one. -/
theorem C53_missing_is_wrong {p : ℝ} (h0 : 0 < p) (h1 : p < 1) :
    ∃ l, socsLL [.leaf [0] 1 1 fun _ _ _ => .bern p] (fun _ => none) 0 0 0 = .ok l ∧
      expL l = 1 / (p ^ 2 + (1 - p) ^ 2) ∧ 1 < expL l ∧
      intOn (refMeasure fun _ => true) {0}
        (socsDensity (fun _ => true) [.leaf [0] 1 1 fun _ _ _ => .bern p] {0} 0 0 0) = 1 := by
  obtain ⟨k, hk, v⟩ : ∃ k, ip (.leaf [0] 1 1 fun _ _ _ => .bern p) (.leaf [0] 1 1 fun _ _ _ => .bern p) = .ok k ∧
      k 0 0 0 0 = p * p + (1 - p) * (1 - p) := by
    simp only [ip]
    rw [if_neg (by decide), if_neg (by decide), if_neg (by decide)]
    rw [seqFin_of (k := fun _ _ _ _ => p * p + (1 - p) * (1 - p))]
    · refine ⟨_, rfl, ?_⟩
      simp
    · intro f
      apply seqFin_of; intro i
      apply seqFin_of; intro j
      apply seqFin_of; intro r
      rfl
  have hs : selfIps [.leaf [0] 1 1 fun _ _ _ => .bern p] = .ok [k] := by
    simp only [selfIps, hk]
  have hZ : partition [k] 0 0 0 = p ^ 2 + (1 - p) ^ 2 := by
    simp only [partition, List.map_cons, List.map_nil, List.sum_cons, List.sum_nil, v]
    ring
  have hge : 10 ^ (-30 : ℤ) ≤ partition [k] 0 0 0 := by
    rw [hZ]
    have : (10 : ℝ) ^ (-30 : ℤ) ≤ 1 / 2 := by norm_num
    generalize (10 : ℝ) ^ (-30 : ℤ) = tiny at this ⊢
    nlinarith [sq_nonneg (2 * p - 1)]
  obtain ⟨l, hl, e⟩ := expL_socsLL hs (fun _ => none) 0 0 0 hge
  have el : expL l = 1 / (p ^ 2 + (1 - p) ^ 2) := by
    rw [e, hZ]
    simp [IC.valueN, leafN]
  refine ⟨l, hl, el, ?_, ?_⟩
  · rw [el, lt_div_iff₀ (by positivity)]
    nlinarith
  · obtain ⟨V, a, _, _, b⟩ := C35_socs_normalised (fun _ => true) (S := ∅) (by simp [Separated]) (c := 0) (r := 0)
      ⟨[.leaf [0] 1 1 fun _ _ _ => .bern p], by
        unfold mkSocs
        dsimp only
        rw [if_neg (by simp), if_neg (by simp)]⟩ hs
      (by
        intro d hd
        simp only [List.mem_cons, List.not_mem_nil, or_false] at hd
        subst hd
        refine ⟨by simp [Wf], by simp [Sorted], fun f _ c _ r _ => ?_, rfl, Nat.one_pos, Nat.one_pos⟩
        simp [Admissible]) hge
    have : V = {0} := (a _ List.mem_cons_self).symm.trans rfl
    rwa [this] at b

/-- **C53, what is returned.** For a fully factorised component (a product of leaves over different variables) and any
pattern of missing entries, the value returned is the true marginal divided by the self inner products of the missing
leaves; so it is right exactly when these multiply to one. -/
theorem C53_factorised (disc : Var → Bool) {S : Set ℝ} (hS : Separated S) {q : List Var} {par : ℕ → ℕ → ℕ → LeafPar}
    {ks : List Mat} (hq : q.Pairwise (· < ·)) (hP : ∀ f < q.length, Admissible disc S (q.getD f 0) (par f 0 0))
    (h : selfIps [.prod (.leaf q 1 1 par)] = .ok ks) (hz : 10 ^ (-30 : ℤ) ≤ partition ks 0 0 0) (x : Row) :
    ∃ l, socsLL [.prod (.leaf q 1 1 par)] x 0 0 0 = .ok l ∧
      margAt (refMeasure disc) (q.toFinset.filter fun v => x v = none) (fun v => (x v).getD 0)
        (socsDensity disc [.prod (.leaf q 1 1 par)] q.toFinset 0 0 0) =
      expL l * ∏ f ∈ Finset.range q.length,
        if x (q.getD f 0) = none then ∫ t, dens (par f 0 0) t ^ 2 ∂refMeasure disc (q.getD f 0) else 1 := by
  have hn : q.Nodup := hq.imp (fun {a b} (h : a < b) => ne_of_lt h)
  obtain ⟨l, hl, e⟩ := expL_socsLL h x 0 0 0 hz
  refine ⟨l, hl, ?_⟩
  have hlv : Leaves (Admissible disc S) (.prod (.leaf q 1 1 par)) := by
    intro f hf c hc r hr
    have hc : c < 1 := hc
    have hr : r < 1 := hr
    obtain rfl : c = 0 := by omega
    obtain rfl : r = 0 := by omega
    exact hP f hf
  have hw : Wf (.prod (.leaf q 1 1 par)) := hn
  have hp := (partition_eq disc hS (V := q.toFinset) (f := 0) (c := 0) (r := 0) h (by
    intro d hd
    simp only [List.mem_cons, List.not_mem_nil, or_false] at hd
    subst hd
    exact ⟨hw, hq, hlv, fs_one hw rfl, by simp [IC.F], by simp [IC.C], by simp [IC.R]⟩)).1
  -- the self inner products of the leaves exist
  have hint : ∀ f < q.length, Integrable (fun t => dens (par f 0 0) t ^ 2) (refMeasure disc (q.getD f 0)) := by
    intro f hf
    have hk := selfIps_ok h
    cases hk
    rename_i k ks' hk _
    simp only [ip, ne_eq, not_true_eq_false, if_false] at hk
    split at hk
    · cases hk
    · rename_i k' hk'
      split at hk'
      · cases hk'
      · rename_i k'' hk''
        have := seqFin_ok (seqFin_ok (seqFin_ok (seqFin_ok hk'' ⟨f, hf⟩) ⟨0, Nat.one_pos⟩) ⟨0, Nat.one_pos⟩)
          ⟨0, Nat.one_pos⟩
        have := (C35_leaves disc hS _ _ _ _ (hP f hf) (hP f hf) this).1
        simpa only [← sq] using this
  set M := q.toFinset.filter fun v => x v = none with hM
  let Sf : ℕ → Finset Var := fun f => if x (q.getD f 0) = none then {q.getD f 0} else ∅
  let g : ℕ → (Var → ℝ) → ℝ := fun f z =>
    dens (par f 0 0) (if q.getD f 0 ∈ M then z (q.getD f 0) else (x (q.getD f 0)).getD 0) ^ 2
  have hmem : ∀ f < q.length, (q.getD f 0 ∈ M ↔ x (q.getD f 0) = none) := by
    intro f hf
    rw [hM, Finset.mem_filter, List.mem_toFinset, List.getD_eq_getElem _ _ hf]
    exact and_iff_right (List.getElem_mem hf)
  have hU : (Finset.range q.length).biUnion Sf = M := by
    ext v
    simp only [Finset.mem_biUnion, Finset.mem_range, Sf]
    constructor
    · rintro ⟨f, hf, hv⟩
      split_ifs at hv with hx
      · rw [Finset.mem_singleton] at hv
        subst hv
        exact (hmem f hf).2 hx
      · simp at hv
    · intro hv
      rw [hM, Finset.mem_filter, List.mem_toFinset] at hv
      obtain ⟨f, hf, rfl⟩ := List.getElem_of_mem hv.1
      refine ⟨f, hf, ?_⟩
      rw [List.getD_eq_getElem _ _ hf, if_pos hv.2]
      exact Finset.mem_singleton_self _
  have hfac : ∀ f < q.length, IntegrableOver (refMeasure disc) (Sf f) (g f) ∧ intOn (refMeasure disc) (Sf f) (g f) =
      leafN (par f 0 0) (x (q.getD f 0)) ^ 2 *
      if x (q.getD f 0) = none then ∫ t, dens (par f 0 0) t ^ 2 ∂refMeasure disc (q.getD f 0) else 1 := by
    intro f hf
    cases hx : x (q.getD f 0) with
    | none =>
      have hS : Sf f = {q.getD f 0} := by simp only [Sf, hx, if_true]
      have hg : g f = fun z => (fun t => dens (par f 0 0) t ^ 2) (z (q.getD f 0)) := by
        funext z
        simp only [g]
        rw [if_pos ((hmem f hf).2 hx)]
      rw [hS, hg]
      have := intOn_singleton (μ := refMeasure disc) (q.getD f 0) _ (hint f hf)
      simp only [leafN, if_true, one_pow, one_mul]
      exact this
    | some t =>
      have hS : Sf f = ∅ := by simp only [Sf, hx, reduceCtorEq, if_false]
      have hg : g f = fun _ => dens (par f 0 0) t ^ 2 := by
        funext z
        simp only [g]
        rw [if_neg (by rw [hmem f hf, hx]; simp), hx]
        rfl
      rw [hS, hg]
      simp only [leafN, reduceCtorEq, if_false, mul_one]
      exact ⟨integrable_empty _, intOn_empty _⟩
  have hprod := intOn_prod (μ := refMeasure disc) q.length Sf g
    (by
      intro i hi j hj hij
      simp only [Sf]
      split_ifs
      · rw [Finset.disjoint_singleton, List.getD_eq_getElem _ _ hi, List.getD_eq_getElem _ _ hj]
        exact fun e => hij ((List.Nodup.getElem_inj_iff hn).1 e)
      all_goals simp)
    (by
      intro i hi y z hyz
      simp only [g]
      by_cases hm : q.getD i 0 ∈ M
      · rw [if_pos hm, if_pos hm, hyz]
        simp only [Sf]
        rw [if_pos ((hmem i hi).1 hm)]
        exact Finset.mem_singleton_self _
      · rw [if_neg hm, if_neg hm])
    (fun i hi => (hfac i hi).1)
  have hden : (fun z : Var → ℝ => socsDensity disc [.prod (.leaf q 1 1 par)] q.toFinset 0 0 0
      fun v => if v ∈ M then z v else (x v).getD 0) =
      fun z => (∏ f ∈ Finset.range q.length, g f z) / partition ks 0 0 0 := by
    funext z
    unfold socsDensity
    rw [← hp]
    simp only [List.map_cons, List.map_nil, List.sum_cons, List.sum_nil, add_zero, IC.value, IC.F, g,
      Finset.prod_pow]
  unfold margAt
  rw [hden, e]
  have : intOn (refMeasure disc) M (fun z => (∏ f ∈ Finset.range q.length, g f z) / partition ks 0 0 0) =
      intOn (refMeasure disc) M (fun z => ∏ f ∈ Finset.range q.length, g f z) / partition ks 0 0 0 :=
    integral_div _ _
  rw [this, ← hU, hprod.2, Finset.prod_congr rfl fun f hf => (hfac f (Finset.mem_range.1 hf)).2,
    Finset.prod_mul_distrib]
  simp only [List.map_cons, List.map_nil, List.sum_cons, List.sum_nil, add_zero, IC.valueN, IC.F, Finset.prod_pow]
  ring

/-! ### `SOCS.marginalize` -/

/-- The two inputs of `mixC`: `[x₀ = 1]`, `[x₀ = 0]`; and `[x₁ = 1]`, a fair coin. -/
noncomputable def mixParts (i : Fin 2) : IC :=
  if i = 0 then .leaf [0] 2 1 fun _ c _ => .bern (if c = 0 then 1 else 0)
  else .leaf [1] 2 1 fun _ c _ => .bern (if c = 0 then 1 else 1 / 2)

/-- `½ · [x₀ = 1] · [x₁ = 1] + ½ · [x₀ = 0] · ½`. -/
noncomputable def mixC : IC := .sum (.prod (.cat1 2 mixParts)) 1 1 fun _ _ _ _ => 1 / 2

/-- What `marginalize([1])` makes of it: `½ · [x₀ = 1] + ½ · [x₀ = 0]`. -/
noncomputable def mixM : IC :=
  .sum (.leaf [0] 2 1 fun _ c _ => .bern (if c = 0 then 1 else 0)) 1 1 fun _ _ _ _ => 1 / 2

theorem mix_marg : socsMarg [1] [mixC] = .ok (some [mixM]) := by
  have h0 : margI [1] (mixParts 0) = some (.leaf [0] 2 1 fun _ c _ => .bern (if c = 0 then 1 else 0)) := by
    have hq : ([0] : List Var).filter (fun v => !([1] : List Var).contains v) = [0] := by decide
    simp only [mixParts, if_true, margI, hq]
    rfl
  have h1 : margI [1] (mixParts 1) = none := by
    simp [mixParts, margI]
  have hc : margI [1] mixC = some mixM := by
    have hl : (List.ofFn fun i : Fin 2 => margI [1] (mixParts i)) =
        [some (.leaf [0] 2 1 fun _ c _ => .bern (if c = 0 then 1 else 0)), none] := by
      rw [List.ofFn_succ, List.ofFn_succ, List.ofFn_zero]
      simp only [Fin.succ_zero_eq_one, h0, h1]
    unfold mixC
    simp only [margI, hl]
    rfl
  unfold socsMarg
  simp only [List.map_cons, List.map_nil, hc, allSome, mkSocs]
  rw [if_neg (by simp), if_neg (by simp)]

theorem mix_leaf0 : ∃ k, ip (.leaf [0] 2 1 fun _ c _ => .bern (if c = 0 then 1 else 0))
    (.leaf [0] 2 1 fun _ c _ => .bern (if c = 0 then 1 else 0)) = .ok k ∧
    k 0 0 0 0 = 1 ∧ k 0 0 1 0 = 0 ∧ k 0 1 0 0 = 0 ∧ k 0 1 1 0 = 1 := by
  simp only [ip]
  rw [if_neg (by decide), if_neg (by decide), if_neg (by decide)]
  rw [seqFin_of (k := fun _ i j _ => if i.val = j.val then (1 : ℝ) else 0)]
  · refine ⟨_, rfl, ?_⟩
    simp
  · intro f
    apply seqFin_of; intro i
    apply seqFin_of; intro j
    apply seqFin_of; intro r
    fin_cases i <;> fin_cases j <;> simp [ipPar]

theorem mix_leaf1 : ∃ k, ip (.leaf [1] 2 1 fun _ c _ => .bern (if c = 0 then 1 else 1 / 2))
    (.leaf [1] 2 1 fun _ c _ => .bern (if c = 0 then 1 else 1 / 2)) = .ok k ∧
    k 0 0 0 0 = 1 ∧ k 0 1 1 0 = 1 / 2 := by
  simp only [ip]
  rw [if_neg (by decide), if_neg (by decide), if_neg (by decide)]
  rw [seqFin_of (k := fun _ i j _ => (if i.val = 0 then 1 else 1 / 2 : ℝ) * (if j.val = 0 then 1 else 1 / 2) +
    (1 - if i.val = 0 then 1 else 1 / 2) * (1 - if j.val = 0 then 1 else 1 / 2))]
  · refine ⟨_, rfl, ?_⟩
    norm_num
  · intro f
    apply seqFin_of; intro i
    apply seqFin_of; intro j
    apply seqFin_of; intro r
    rfl

theorem mix_ip : ∃ k, ip mixC mixC = .ok k ∧ k 0 0 0 0 = 3 / 8 := by
  obtain ⟨k1, h1, v1⟩ := mix_leaf0
  obtain ⟨k2, h2, v2⟩ := mix_leaf1
  have hparts : (seqFin fun i : Fin 2 => ip (mixParts i) (mixParts (i.cast rfl))) =
      .ok fun i => if i = 0 then k1 else k2 := by
    apply seqFin_of
    intro i
    fin_cases i
    · exact h1
    · exact h2
  have hcat : ip (.cat1 2 mixParts) (.cat1 2 mixParts) = .ok fun f i j r =>
      pick (fun i : Fin 2 => if i = 0 then k1 else k2) (locate [1, 1] f).1 (locate [1, 1] f).2 i j r := by
    simp only [ip]
    rw [if_neg (by simp), if_neg (by simp), if_neg (by simp), dif_pos trivial, hparts]
    rfl
  have hF : (IC.cat1 2 mixParts).F = 2 := rfl
  have hC : (IC.prod (IC.cat1 2 mixParts)).C = 2 := rfl
  refine ⟨_, ip_sum (ip_prod hcat rfl rfl) rfl rfl, ?_⟩
  rw [hF, hC]
  simp [Finset.sum_range_succ, Finset.prod_range_succ, locate, pick, v1, v2]
  norm_num

theorem mixM_ip : ∃ k, ip mixM mixM = .ok k ∧ k 0 0 0 0 = 1 / 2 := by
  obtain ⟨k1, h1, v1⟩ := mix_leaf0
  refine ⟨_, ip_sum h1 rfl rfl, ?_⟩
  simp only [IC.C]
  simp [Finset.sum_range_succ, v1]
  norm_num

theorem mixC_value (x : Var → ℝ) : mixC.value x 0 0 0 =
    1 / 2 * (dens (.bern 1) (x 0) * dens (.bern 1) (x 1)) + 1 / 2 * (dens (.bern 0) (x 0) * dens (.bern (1 / 2)) (x 1)) := by
  have hF : (IC.cat1 2 mixParts).F = 2 := rfl
  have hC : (IC.prod (IC.cat1 2 mixParts)).C = 2 := rfl
  have hl : (List.ofFn fun i : Fin 2 => (mixParts i).F) = [1, 1] := rfl
  simp only [mixC, IC.value, hF, hC, hl]
  simp [Finset.sum_range_succ, Finset.prod_range_succ, locate, IC.pickV, mixParts, IC.value]

/-- A component all of whose variables are marginalised out disappears. -/
theorem margI_covered (M : List Var) : ∀ {c : IC}, Wf c → c.vars ⊆ M.toFinset → margI M c = none
  | .leaf q C R par, _, h => by
    have : q.filter (fun v => !M.contains v) = [] := by
      rw [List.filter_eq_nil_iff]
      intro v hv
      simpa using List.mem_toFinset.1 (h (List.mem_toFinset.2 hv))
    simp only [margI, this, List.isEmpty_nil, if_true]
  | .cat1 n cs, w, h => by
    have : ∀ i, margI M (cs i) = none := fun i => margI_covered M (w.2.1 i)
      ((Finset.subset_biUnion_of_mem (fun i : Fin n => (cs i).vars) (Finset.mem_univ i)).trans h)
    simp [margI, this, finCat, List.filterMap_eq_nil_iff.2]
  | .cat2 n cs, w, h => by
    have h' : (cs ⟨0, w.1⟩).vars ⊆ M.toFinset := by simpa [IC.vars, w.1] using h
    have : ∀ i, margI M (cs i) = none := fun i => margI_covered M (w.2.1 i) (by rw [w.2.2.2.2.1 i ⟨0, w.1⟩]; exact h')
    simp [margI, this, finCat, List.filterMap_eq_nil_iff.2]
  | .prod c, w, h => by
    simp only [margI, margI_covered M (c := c) w h]
  | .sum c _ _ _, w, h => by
    simp only [margI, margI_covered M (c := c) w.1 h]

/-- C53: marginalising every variable of a SOCS out returns `None`. -/
theorem C53_marginalize_everything (M : List Var) {comps : List IC} (hne : comps ≠ [])
    (h : ∀ c ∈ comps, Wf c ∧ c.vars ⊆ M.toFinset) : socsMarg M comps = .ok none := by
  obtain ⟨c, cs, rfl⟩ := List.exists_cons_of_ne_nil hne
  unfold socsMarg
  rw [List.map_cons, margI_covered M (h c (by simp)).1 (h c (by simp)).2]
  rfl

/-- C53: a sum over a leaf module keeps, for every surviving variable, the leaf and the weights of that variable: the
marginalised module returns at every surviving feature what the original returns there on every row, and its features are
the surviving variables in their order. -/
theorem C53_marginalize_keeps_weights (M : List Var) {q : List Var} {C R Co R' : ℕ} {par : ℕ → ℕ → ℕ → LeafPar}
    {w : ℕ → ℕ → ℕ → ℕ → ℝ} {c' : IC} (h : margI M (.sum (.leaf q C R par) Co R' w) = some c') :
    c'.F = (q.filter fun v => v ∉ M).length ∧
      ∀ f' < c'.F, ∃ f, ∃ hf : f < q.length, c'.fs f' = {q[f]} ∧ (q.filter fun v => v ∉ M)[f']? = some q[f] ∧
        ∀ x co r, c'.valueN x f' co r = (IC.sum (.leaf q C R par) Co R' w).valueN x f co r := by
  have hfl : (q.filter fun v => !M.contains v) = q.filter fun v => v ∉ M := by
    apply List.filter_congr; intro v _; simp
  have hkf : keptFeat M (.leaf q C R par) = keptPos M q := by
    unfold keptFeat keptPos
    apply List.filter_congr
    intro f _
    simp [IC.fs]
  have hmap : (keptPos M q).map (fun i => q.getD i 0) = q.filter fun v => !M.contains v := by
    unfold keptPos
    have := List.filter_map (f := fun i => q.getD i 0) (p := fun v => !M.contains v) (l := List.range q.length)
    have e : (List.range q.length).map (fun i => q.getD i 0) = q := by
      apply List.ext_getElem (by simp)
      intro i h1 h2
      simp [List.getElem?_eq_getElem h2]
    rw [e] at this
    rw [this]
    rfl
  simp only [margI] at h
  by_cases he : (q.filter fun v => !M.contains v).isEmpty
  · rw [if_pos he] at h; cases h
  · rw [if_neg he] at h
    simp only [Option.some.injEq] at h
    subst h
    refine ⟨by rw [← hfl]; rfl, fun f' hf' => ?_⟩
    have hlen : (keptPos M q).length = (q.filter fun v => !M.contains v).length := by rw [← hmap, List.length_map]
    have hf1 : f' < (keptPos M q).length := by rw [hlen]; exact hf'
    have hmem : (keptPos M q)[f'] < q.length :=
      List.mem_range.1 (List.mem_filter.1 (List.getElem_mem hf1)).1
    have hval : (q.filter fun v => !M.contains v)[f']? = some q[(keptPos M q)[f']] := by
      rw [← hmap, List.getElem?_map, List.getElem?_eq_getElem hf1]
      simp [List.getElem?_eq_getElem hmem]
    have hgd : (q.filter fun v => !M.contains v).getD f' 0 = q[(keptPos M q)[f']] := by
      rw [List.getD_eq_getElem?_getD, hval]; rfl
    refine ⟨(keptPos M q)[f'], hmem, ?_, hfl ▸ hval, fun x co r => ?_⟩
    · simp only [IC.fs, hgd]
    · simp only [IC.valueN, hkf, IC.C, hgd, List.getD_eq_getElem _ _ hf1, List.getD_eq_getElem _ _ hmem]

/-- Cases that meet the hypotheses of the last two theorems. -/
example : socsMarg [5, 3] [.leaf [3, 5] 1 1 fun _ _ _ => .bern (1 / 2)] = .ok none :=
  C53_marginalize_everything _ (by simp) (by simp [Wf, IC.vars]; decide)

example : ∃ c', margI [3] (.sum (.leaf [3, 5] 2 1 fun f c _ => .bern (1 / (f + c + 2))) 1 1 fun f i _ _ => f - i) = some c' :=
  ⟨_, rfl⟩

/-- **C53 fails for `marginalize`.** Marginalising `x₁` out of the SOCS with the single component
`½·[x₀=1]·[x₁=1] + ½·[x₀=0]·½` is accepted and gives a SOCS that returns `1/2` at `x₀ = 1`; the marginal of the original
density there is `2/3`. -/
theorem C53_marginalize_is_wrong : ∃ comps', socsMarg [1] [mixC] = .ok (some comps') ∧
    (∃ l, socsLL comps' (fun v => if v = 0 then some 1 else none) 0 0 0 = .ok l ∧ expL l = 1 / 2) ∧
    margAt (refMeasure fun _ => true) {1} (fun _ => 1)
      (socsDensity (fun _ => true) [mixC] {0, 1} 0 0 0) = 2 / 3 := by
  refine ⟨_, mix_marg, ?_, ?_⟩
  · obtain ⟨k, hk, v⟩ := mixM_ip
    have hs : selfIps [mixM] = .ok [k] := by simp only [selfIps, hk]
    have hZ : partition [k] 0 0 0 = 1 / 2 := by simp [partition, v]
    obtain ⟨l, hl, e⟩ := expL_socsLL hs (fun v => if v = 0 then some 1 else none) 0 0 0 (by rw [hZ]; norm_num)
    refine ⟨l, hl, ?_⟩
    rw [e, hZ]
    simp only [mixM, List.map_cons, List.map_nil, List.sum_cons, List.sum_nil, IC.valueN, IC.C, Finset.sum_range_succ,
      Finset.sum_range_zero, List.getD_cons_zero, if_true, leafN, dens]
    norm_num
  · obtain ⟨k, hk, v⟩ := mix_ip
    have hs : selfIps [mixC] = .ok [k] := by simp only [selfIps, hk]
    have hw : Wf mixC := by
      refine ⟨⟨by omega, fun i => ?_, fun i j => ?_, fun i j => ?_, fun i j hij => ?_⟩, rfl⟩
      · fin_cases i <;> simp [Wf, mixParts]
      · fin_cases i <;> fin_cases j <;> rfl
      · fin_cases i <;> fin_cases j <;> rfl
      · fin_cases i <;> fin_cases j <;> simp_all [IC.vars, mixParts]
    have hp := (partition_eq (fun _ => true) (S := ∅) (by simp [Separated]) (V := {0, 1}) (f := 0) (c := 0) (r := 0) hs
      (by
        intro d hd
        simp only [List.mem_cons, List.not_mem_nil, or_false] at hd
        subst hd
        refine ⟨hw, ?_, ?_, ?_, by simp [mixC, IC.F], by simp [mixC, IC.C], by simp [mixC, IC.R]⟩
        · intro i
          fin_cases i <;> simp [Sorted, mixParts]
        · intro i
          fin_cases i <;> (intro f _ c _ r _; simp [Admissible])
        · rw [fs_one hw rfl]
          rfl)).1
    have hZ : partition [k] 0 0 0 = 3 / 8 := by simp [partition, v]
    have hden : (fun z : Var → ℝ => socsDensity (fun _ => true) [mixC] {0, 1} 0 0 0
        fun v => if v ∈ ({1} : Finset Var) then z v else 1) =
        fun z => (fun t => 2 / 3 * (dens (.bern 1) t * dens (.bern 1) t)) (z 1) := by
      funext z
      unfold socsDensity
      rw [← hp, hZ]
      have d0 : dens (.bern 1) 1 = 1 := by simp [dens]
      have d1 : dens (.bern 0) 1 = 0 := by simp [dens]
      simp only [List.map_cons, List.map_nil, List.sum_cons, List.sum_nil, mixC_value, Finset.mem_singleton,
        zero_ne_one, if_false, if_true, d0, d1]
      ring
    unfold margAt
    rw [hden]
    have hb := bern_ip 1 1
    have hi : Integrable (fun t => 2 / 3 * (dens (.bern 1) t * dens (.bern 1) t)) (refMeasure (fun _ => true) 1) :=
      hb.1.const_mul _
    refine (intOn_singleton (μ := refMeasure fun _ => true) 1 _ hi).2.trans ?_
    rw [integral_const_mul]
    have : ∫ t, dens (.bern 1) t * dens (.bern 1) t ∂(refMeasure (fun _ => true) 1) = 1 := hb.2.trans (by norm_num)
    rw [this, mul_one]

end Inner
end Verif

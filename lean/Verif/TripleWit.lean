import Verif.TripleMain
import Verif.SocsMissing

/-!
# C77: examples and counterexamples for `ExpSOCS`
-/

open MeasureTheory

namespace Verif
namespace Inner

/-- A mixture of two products of one-variable leaves: `Σ_i w_i · l0_i(x₀) · l1_i(x₁)`. -/
noncomputable def duo (p0 p1 : ℕ → LeafPar) (w : ℕ → ℝ) : IC :=
  .sum (.prod (.cat1 2 fun i => if i = 0 then .leaf [0] 2 1 fun _ c _ => p0 c else .leaf [1] 2 1 fun _ c _ => p1 c)) 1 1
    fun _ i _ _ => w i

theorem duo_wf (p0 p1 : ℕ → LeafPar) (w : ℕ → ℝ) : Wf (duo p0 p1 w) := by
  refine ⟨⟨by omega, fun i => ?_, fun i j => ?_, fun i j => ?_, fun i j hij => ?_⟩, rfl⟩
  · fin_cases i <;> simp [Wf]
  · fin_cases i <;> fin_cases j <;> rfl
  · fin_cases i <;> fin_cases j <;> rfl
  · fin_cases i <;> fin_cases j <;> simp_all [IC.vars]

theorem duo_sorted (p0 p1 : ℕ → LeafPar) (w : ℕ → ℝ) : Sorted (duo p0 p1 w) := by
  intro i
  fin_cases i <;> simp [Sorted]

theorem duo_leaves {P : Var → LeafPar → Prop} {p0 p1 : ℕ → LeafPar} (h0 : ∀ c, P 0 (p0 c)) (h1 : ∀ c, P 1 (p1 c))
    (w : ℕ → ℝ) : Leaves P (duo p0 p1 w) := by
  intro i
  fin_cases i
  · intro f hf c hc r hr
    simp only [List.length_singleton, Nat.lt_one_iff] at hf
    subst hf
    exact h0 c
  · intro f hf c hc r hr
    simp only [List.length_singleton, Nat.lt_one_iff] at hf
    subst hf
    exact h1 c

theorem duo_value (p0 p1 : ℕ → LeafPar) (w : ℕ → ℝ) (x : Var → ℝ) : (duo p0 p1 w).value x 0 0 0 =
    w 0 * (dens (p0 0) (x 0) * dens (p1 0) (x 1)) + w 1 * (dens (p0 1) (x 0) * dens (p1 1) (x 1)) := by
  simp only [duo, IC.value, IC.F, IC.C]
  simp [Finset.sum_range_succ, Finset.prod_range_succ, locate, IC.pickV, IC.value, IC.F, IC.C]

theorem duo_monotone {p0 p1 : ℕ → LeafPar} {w : ℕ → ℝ} (h0 : ∀ c t, 0 ≤ dens (p0 c) t) (h1 : ∀ c t, 0 ≤ dens (p1 c) t)
    (hw : ∀ i, 0 ≤ w i) : Monotone (duo p0 p1 w) := by
  refine ⟨fun i => ?_, fun f _ i _ o _ r _ => hw i⟩
  fin_cases i
  · exact fun f _ c _ r _ t => h0 c t
  · exact fun f _ c _ r _ t => h1 c t

theorem leaf_tp {v : Var} {p p' p'' : ℕ → LeafPar} {z : ℕ → ℕ → ℕ → ℝ}
    (h : ∀ i < 2, ∀ j < 2, ∀ l < 2, tpPar (p i) (p' j) (p'' l) = .ok (z i j l)) :
    ∃ k, tp (.leaf [v] 2 1 fun _ c _ => p c) (.leaf [v] 2 1 fun _ c _ => p' c) (.leaf [v] 2 1 fun _ c _ => p'' c) = .ok k ∧
      ∀ i < 2, ∀ j < 2, ∀ l < 2, k 0 i j l 0 = z i j l := by
  unfold tp
  rw [tpChecks_of]
  rotate_left
  iterate 2 exact rfl
  iterate 2 exact ⟨rfl, rfl⟩
  dsimp only
  rw [seqFin_of (k := fun _ (i j l : Fin 2) _ => z i j l)]
  · refine ⟨_, rfl, fun i hi j hj l hl => ?_⟩
    simp [hi, hj, hl]
  · intro f
    apply seqFin_of; intro i
    apply seqFin_of; intro j
    apply seqFin_of; intro l
    apply seqFin_of; intro r
    exact h i i.2 j j.2 l l.2

theorem duo_tp {p0 p1 p0' p1' p0'' p1'' : ℕ → LeafPar} {w w' w'' : ℕ → ℝ} {z0 z1 : ℕ → ℕ → ℕ → ℝ}
    (h0 : ∀ i < 2, ∀ j < 2, ∀ l < 2, tpPar (p0 i) (p0' j) (p0'' l) = .ok (z0 i j l))
    (h1 : ∀ i < 2, ∀ j < 2, ∀ l < 2, tpPar (p1 i) (p1' j) (p1'' l) = .ok (z1 i j l)) :
    tpScalar (duo p0 p1 w) (duo p0' p1' w') (duo p0'' p1'' w'') = .ok (∑ i ∈ Finset.range 2, ∑ j ∈ Finset.range 2,
      ∑ l ∈ Finset.range 2, w i * w' j * w'' l * (z0 i j l * z1 i j l)) := by
  obtain ⟨k0, e0, v0⟩ := leaf_tp (v := 0) h0
  obtain ⟨k1, e1, v1⟩ := leaf_tp (v := 1) h1
  have hs : (seqFin fun i : Fin 2 => tp
      (if i = 0 then .leaf [0] 2 1 fun _ c _ => p0 c else .leaf [1] 2 1 fun _ c _ => p1 c)
      (if i.cast (rfl : 2 = 2) = 0 then .leaf [0] 2 1 fun _ c _ => p0' c else .leaf [1] 2 1 fun _ c _ => p1' c)
      (if i.cast (rfl : 2 = 2) = 0 then .leaf [0] 2 1 fun _ c _ => p0'' c else .leaf [1] 2 1 fun _ c _ => p1'' c)) =
      .ok fun i => if i = 0 then k0 else k1 := by
    apply seqFin_of
    intro i
    fin_cases i
    · exact e0
    · exact e1
  have hcat : tp (.cat1 2 fun i => if i = 0 then .leaf [0] 2 1 fun _ c _ => p0 c else .leaf [1] 2 1 fun _ c _ => p1 c)
      (.cat1 2 fun i => if i = 0 then .leaf [0] 2 1 fun _ c _ => p0' c else .leaf [1] 2 1 fun _ c _ => p1' c)
      (.cat1 2 fun i => if i = 0 then .leaf [0] 2 1 fun _ c _ => p0'' c else .leaf [1] 2 1 fun _ c _ => p1'' c) =
      .ok fun f i j l r => pick3 (fun i : Fin 2 => if i = 0 then k0 else k1) (locate [1, 1] f).1 (locate [1, 1] f).2 i j l r := by
    unfold tp
    rw [tpChecks_of]
    rotate_left
    iterate 2 exact rfl
    iterate 2 exact ⟨rfl, rfl⟩
    dsimp only
    rw [dif_pos (by simp), hs]
    rfl
  have hprod : tp (.prod (.cat1 2 fun i => if i = 0 then .leaf [0] 2 1 fun _ c _ => p0 c else .leaf [1] 2 1 fun _ c _ => p1 c))
      (.prod (.cat1 2 fun i => if i = 0 then .leaf [0] 2 1 fun _ c _ => p0' c else .leaf [1] 2 1 fun _ c _ => p1' c))
      (.prod (.cat1 2 fun i => if i = 0 then .leaf [0] 2 1 fun _ c _ => p0'' c else .leaf [1] 2 1 fun _ c _ => p1'' c)) =
      .ok fun _ i j l r => ∏ f ∈ Finset.range 2,
        pick3 (fun i : Fin 2 => if i = 0 then k0 else k1) (locate [1, 1] f).1 (locate [1, 1] f).2 i j l r := by
    unfold tp
    rw [tpChecks_of]
    rotate_left
    iterate 2 exact rfl
    iterate 2 exact ⟨rfl, rfl⟩
    dsimp only
    rw [hcat]
    rfl
  have hsum : tp (duo p0 p1 w) (duo p0' p1' w') (duo p0'' p1'' w'') = .ok fun _ _ _ _ r =>
      ∑ i ∈ Finset.range 2, ∑ j ∈ Finset.range 2, ∑ l ∈ Finset.range 2, w i * w' j * w'' l *
        ∏ f ∈ Finset.range 2,
          pick3 (fun i : Fin 2 => if i = 0 then k0 else k1) (locate [1, 1] f).1 (locate [1, 1] f).2 i j l r := by
    unfold duo tp
    rw [tpChecks_of]
    rotate_left
    iterate 2 exact rfl
    iterate 2 exact ⟨rfl, rfl⟩
    dsimp only
    rw [hprod]
    rfl
  unfold tpScalar
  rw [if_neg (by simp [duo, IC.F, IC.C, IC.R]), hsum]
  dsimp only
  congr 1
  refine Finset.sum_congr rfl fun i hi => Finset.sum_congr rfl fun j hj => Finset.sum_congr rfl fun l hl => ?_
  rw [← v0 i (Finset.mem_range.1 hi) j (Finset.mem_range.1 hj) l (Finset.mem_range.1 hl),
    ← v1 i (Finset.mem_range.1 hi) j (Finset.mem_range.1 hj) l (Finset.mem_range.1 hl)]
  simp [Finset.prod_range_succ, locate, pick3]

theorem dens_bern_nonneg {p : ℝ} (h0 : 0 ≤ p) (h1 : p ≤ 1) (t : ℝ) : 0 ≤ dens (.bern p) t := by
  simp only [dens]
  split_ifs <;> linarith

theorem dens_normal_nonneg {m s : ℝ} (h : 0 < s) (t : ℝ) : 0 ≤ dens (.normal m s) t := by
  simp only [dens]
  positivity

/-- The value of the triple product of three standard normal densities. -/
noncomputable def n3 : ℝ :=
  Real.exp (-Real.log (2 * Real.pi) - (Real.log 1 + Real.log 1 + Real.log 1) - 1 / 2 * Real.log (1 + 1 + 1))

theorem n3_large : 1 / 16 ≤ n3 := by
  have h1 : Real.log (2 * Real.pi) ≤ Real.log 8 := Real.log_le_log (by positivity) (by have := Real.pi_le_four; linarith)
  have h2 : Real.log (1 + 1 + 1) ≤ Real.log 4 := Real.log_le_log (by norm_num) (by norm_num)
  have e8 : Real.log 8 = 3 * Real.log 2 := by rw [show (8 : ℝ) = 2 ^ 3 by norm_num, Real.log_pow]; norm_num
  have e4 : Real.log 4 = 2 * Real.log 2 := by rw [show (4 : ℝ) = 2 ^ 2 by norm_num, Real.log_pow]; norm_num
  have e16 : Real.log 16 = 4 * Real.log 2 := by rw [show (16 : ℝ) = 2 ^ 4 by norm_num, Real.log_pow]; norm_num
  have : Real.exp (-(Real.log 16)) ≤ n3 := Real.exp_le_exp.2 (by
    rw [Real.log_one, e16]
    rw [e8] at h1
    rw [e4] at h2
    generalize Real.log (1 + 1 + 1) = A at h2 ⊢
    linarith)
  rwa [Real.exp_neg, Real.exp_log (by norm_num), ← one_div] at this

/-- `[x₀ = 1]`, `[x₀ = 0]`. -/
noncomputable def sel (c : ℕ) : LeafPar := .bern (if c = 0 then 1 else 0)

/-- `N(0,1)`, `N(3,1)`. -/
noncomputable def bump (c : ℕ) : LeafPar := .normal (if c = 0 then 0 else 3) 1

theorem example_z (w w' : ℕ → ℝ) : tpScalar (duo sel bump w) (duo sel bump w) (duo sel bump w') =
    .ok ((w 0 ^ 2 * w' 0 + w 1 ^ 2 * w' 1) * n3) := by
  have h0 : ∀ i < 2, ∀ j < 2, ∀ l < 2, tpPar (sel i) (sel j) (sel l) = .ok (if i = j ∧ i = l then (1 : ℝ) else 0) := by
    intro i hi j hj l hl
    rcases (by omega : i = 0 ∨ i = 1) with rfl | rfl <;> rcases (by omega : j = 0 ∨ j = 1) with rfl | rfl <;>
      rcases (by omega : l = 0 ∨ l = 1) with rfl | rfl <;> simp [sel, tpPar]
  have h1 : ∀ i < 2, ∀ j < 2, ∀ l < 2, ∃ z, tpPar (bump i) (bump j) (bump l) = .ok z ∧ (i = j → i = l → z = n3) := by
    intro i hi j hj l hl
    refine ⟨_, rfl, ?_⟩
    rintro rfl rfl
    have hc : clampMin (1 : ℝ) = 1 := clampMin_of_le (by norm_num)
    rw [hc]
    unfold n3
    congr 1
    norm_num
    by_cases hi0 : i = 0
    · simp [hi0]
    · simp only [hi0, if_false]
      norm_num
  choose z1 hz1 using h1
  rw [duo_tp (z1 := fun i j l => if h : i < 2 ∧ j < 2 ∧ l < 2 then z1 i h.1 j h.2.1 l h.2.2 else 0) h0
    (fun i hi j hj l hl => by rw [dif_pos ⟨hi, hj, hl⟩]; exact (hz1 i hi j hj l hl).1)]
  have e0 := (hz1 0 (by omega) 0 (by omega) 0 (by omega)).2 rfl rfl
  have e1 := (hz1 1 (by omega) 1 (by omega) 1 (by omega)).2 rfl rfl
  simp [Finset.sum_range_succ, e0, e1]
  ring

/-- The hypotheses of `C77_normalised` are met by two signed mixtures over a discrete and a continuous variable,
multiplied with a monotone mixture; the density integrates to one. -/
theorem C77_example : ∃ (m : IC) (comps : List IC) (e : Exp), comps.length = 2 ∧ m.vars = {0, 1} ∧
    mkExp m comps = .ok e ∧
    (∀ x : Var → ℝ, ∃ l, e.logLik (fun v => some (x v)) = .ok l ∧ expL l = expDensity exDisc m comps x) ∧
    intOn (refMeasure exDisc) {0, 1} (expDensity exDisc m comps) = 1 := by
  obtain ⟨w, hw⟩ : ∃ w : ℕ → ℝ, w = fun i => if i = 0 then 1 else -(1 / 2) := ⟨_, rfl⟩
  obtain ⟨comps, hcomps⟩ : ∃ comps, comps = [duo sel bump w, duo sel bump fun _ => 1] := ⟨_, rfl⟩
  obtain ⟨m, hm⟩ : ∃ m, m = duo sel bump fun _ => 1 / 2 := ⟨_, rfl⟩
  have hmv : m.vars = {0, 1} := by rw [hm]; rfl
  have hmk : mkExp m comps = .ok ⟨m, comps⟩ := by
    refine (C77_constructor _ _ _).2 ⟨rfl, by simp [hcomps], by rw [hm]; rfl, ?_⟩
    intro c hc
    rw [hcomps] at hc
    simp only [List.mem_cons, List.not_mem_nil, or_false] at hc
    rw [hm]
    rcases hc with rfl | rfl <;> exact ⟨rfl, rfl⟩
  have hP0 : ∀ c, Admissible3 exDisc 0 (sel c) := by
    intro c
    simp [Admissible3, Admissible, exDisc, sel]
  have hP1 : ∀ c, Admissible3 exDisc 1 (bump c) := by
    intro c
    refine ⟨by simp [exDisc], ?_⟩
    norm_num
  have hleaf : ∀ u, Leaves (Admissible3 exDisc) (duo sel bump u) := fun u => duo_leaves hP0 hP1 u
  have hall : ∀ d ∈ comps, ∃ u, d = duo sel bump u := by
    intro d hd
    rw [hcomps] at hd
    simp only [List.mem_cons, List.not_mem_nil, or_false] at hd
    rcases hd with rfl | rfl
    · exact ⟨_, rfl⟩
    · exact ⟨_, rfl⟩
  have hwf : ∀ d ∈ comps, Wf d ∧ Sorted d ∧ Leaves (Admissible3 exDisc) d := by
    intro d hd
    obtain ⟨u, rfl⟩ := hall d hd
    exact ⟨duo_wf _ _ _, duo_sorted _ _ _, hleaf _⟩
  have hlike : ∀ d ∈ comps, Alike d d m := by
    intro d hd
    obtain ⟨u, rfl⟩ := hall d hd
    rw [hm]
    refine ⟨rfl, rfl, rfl, rfl, fun i => ?_⟩
    fin_cases i
    · refine ⟨⟨rfl, rfl⟩, ⟨rfl, rfl⟩, fun f _ i _ j _ l _ r _ => ?_⟩
      simp [sel, kind]
    · refine ⟨⟨rfl, rfl⟩, ⟨rfl, rfl⟩, fun f _ i _ j _ l _ r _ => ?_⟩
      simp [bump, kind]
  have hz : ∃ zs, zParts m comps = .ok zs ∧ zs.sum = (5 / 8 + 1) * n3 := by
    rw [hcomps, hm]
    unfold zParts
    rw [example_z]
    unfold zParts
    rw [example_z]
    refine ⟨_, rfl, ?_⟩
    simp [hw]
    ring
  obtain ⟨zs, hzs, hsum⟩ := hz
  have hZ := (zParts_eq exDisc hzs (hm ▸ duo_wf _ _ _) (hm ▸ duo_sorted _ _ _) (hm ▸ hleaf _) hwf).1
  have hmono : Monotone m := by
    rw [hm]
    refine duo_monotone (fun c t => ?_) (fun c t => dens_normal_nonneg (by norm_num) t) (fun _ => by norm_num)
    refine dens_bern_nonneg ?_ ?_ t <;> split_ifs <;> norm_num
  have H := C77_normalised exDisc hmk (hm ▸ duo_wf _ _ _) (hm ▸ duo_sorted _ _ _) (hm ▸ hleaf _) hmono hwf hlike (by
    rw [← hZ, hsum]
    have : (10 : ℝ) ^ (-30 : ℤ) ≤ 1 / 16 := by norm_num
    generalize (10 : ℝ) ^ (-30 : ℤ) = tiny at this ⊢
    linarith [n3_large])
  refine ⟨m, comps, _, by rw [hcomps]; rfl, hmv, hmk, H.1, ?_⟩
  rw [← hmv]
  exact H.2.2.2

/-- **C77 fails for missing values.** One Bernoulli component and the same Bernoulli as monotone circuit, any parameter in
`(0,1)`: with its only variable missing the model returns `1 / (p³ + (1-p)³) > 1`, although its density integrates to
one. -/
theorem C77_missing_is_wrong {p : ℝ} (h0 : 0 < p) (h1 : p < 1) :
    ∃ (c : IC) (e : Exp), c = .leaf [0] 1 1 (fun _ _ _ => .bern p) ∧ mkExp c [c] = .ok e ∧
      (∃ l, e.logLik (fun _ => none) = .ok l ∧ expL l = 1 / (p ^ 3 + (1 - p) ^ 3) ∧ 1 < expL l) ∧
      intOn (refMeasure fun _ => true) {0} (expDensity (fun _ => true) c [c]) = 1 := by
  obtain ⟨c, hc⟩ : ∃ c : IC, c = .leaf [0] 1 1 (fun _ _ _ => .bern p) := ⟨_, rfl⟩
  have hmk : mkExp c [c] = .ok ⟨c, [c]⟩ := (C77_constructor _ _ _).2 ⟨rfl, by simp, by rw [hc]; rfl, by
    intro d hd
    rw [List.mem_singleton.1 hd, hc]
    exact ⟨rfl, rfl⟩⟩
  have hwf : Wf c := by rw [hc]; simp [Wf]
  have hso : Sorted c := by rw [hc]; simp [Sorted]
  have hle : Leaves (Admissible3 fun _ => true) c := by
    rw [hc]
    intro f _ c _ r _
    simp [Admissible3, Admissible]
  have hal : Alike c c c := by
    rw [hc]
    refine ⟨⟨rfl, rfl⟩, ⟨rfl, rfl⟩, fun f _ i _ j _ l _ r _ => ?_⟩
    simp [kind]
  have hz : zParts c [c] = .ok [(1 - p) * (1 - p) * (1 - p) + p * p * p] := by
    have : tpScalar c c c = .ok ((1 - p) * (1 - p) * (1 - p) + p * p * p) := by
      unfold tpScalar
      rw [if_neg (by rw [hc]; simp [IC.F, IC.C, IC.R]), hc]
      unfold tp
      rw [tpChecks_of]
      rotate_left
      iterate 2 exact rfl
      iterate 2 exact ⟨rfl, rfl⟩
      dsimp only
      rw [seqFin_of (k := fun _ _ _ _ _ => (1 - p) * (1 - p) * (1 - p) + p * p * p)]
      · simp
      · intro f
        apply seqFin_of; intro i
        apply seqFin_of; intro j
        apply seqFin_of; intro l
        apply seqFin_of; intro r
        rfl
    simp only [zParts, this]
  have hpos : 1 / 4 ≤ p ^ 3 + (1 - p) ^ 3 := by nlinarith [sq_nonneg (2 * p - 1)]
  have hlt : p ^ 3 + (1 - p) ^ 3 < 1 := by nlinarith [mul_pos h0 (sub_pos.2 h1)]
  have hsum : ([(1 - p) * (1 - p) * (1 - p) + p * p * p] : List ℝ).sum = p ^ 3 + (1 - p) ^ 3 := by
    rw [List.sum_singleton]; ring
  have hge : (10 : ℝ) ^ (-30 : ℤ) ≤ p ^ 3 + (1 - p) ^ 3 := by
    have : (10 : ℝ) ^ (-30 : ℤ) ≤ 1 / 4 := by norm_num
    generalize (10 : ℝ) ^ (-30 : ℤ) = tiny at this ⊢
    linarith
  have hZ := (zParts_eq (fun _ => true) hz hwf hso hle (by
    intro d hd; rw [List.mem_singleton.1 hd]; exact ⟨hwf, hso, hle⟩)).1
  refine ⟨c, _, hc, hmk, ?_, ?_⟩
  · unfold Exp.logLik Exp.logZ
    simp only [hz]
    refine ⟨_, rfl, ?_⟩
    have hv : c.valueN (fun _ => none) 0 0 0 = 1 := by rw [hc]; simp [IC.valueN, leafN]
    rw [expL_add, expL_add, expL_lse, hv, expL_logL zero_le_one]
    simp only [expL_twoLogAbs]
    rw [sum_range_getD [c] _ fun d : IC => d.valueN (fun _ => none) 0 0 0 ^ 2, hsum,
      max_eq_left (by linarith), clampMin_of_le hge]
    have : expL ((-(Real.log (p ^ 3 + (1 - p) ^ 3)) : ℝ) : LogV) = (p ^ 3 + (1 - p) ^ 3)⁻¹ := by
      change Real.exp _ = _
      rw [Real.exp_neg, Real.exp_log (by linarith)]
    rw [this]
    simp only [List.map_cons, List.map_nil, List.sum_singleton, hv]
    have e : (1 : ℝ) * 1 ^ 2 * (p ^ 3 + (1 - p) ^ 3)⁻¹ = 1 / (p ^ 3 + (1 - p) ^ 3) := by rw [one_div]; ring
    rw [e]
    refine ⟨rfl, ?_⟩
    rw [lt_div_iff₀ (by linarith), one_mul]
    exact hlt
  · have H := C77_normalised (fun _ => true) hmk hwf hso hle (by
      rw [hc]
      exact fun f _ i _ r _ t => dens_bern_nonneg h0.le h1.le t) (by
      intro d hd; rw [List.mem_singleton.1 hd]; exact ⟨hwf, hso, hle⟩) (by
      intro d hd; rw [List.mem_singleton.1 hd]; exact hal) (by rw [← hZ, hsum]; exact hge)
    have hv : c.vars = {0} := by rw [hc]; rfl
    rw [← hv]
    exact H.2.2.2

/-! ## `ExpSOCS.marginalize` -/

/-- A mixture of two leaves over `x₀`: what is left of `duo` after `marginalize([1])`. -/
noncomputable def uno (p0 : ℕ → LeafPar) (w : ℕ → ℝ) : IC := .sum (.leaf [0] 2 1 fun _ c _ => p0 c) 1 1 fun _ i _ _ => w i

theorem uno_tp {p0 p0' p0'' : ℕ → LeafPar} {w w' w'' : ℕ → ℝ} {z0 : ℕ → ℕ → ℕ → ℝ}
    (h0 : ∀ i < 2, ∀ j < 2, ∀ l < 2, tpPar (p0 i) (p0' j) (p0'' l) = .ok (z0 i j l)) :
    tpScalar (uno p0 w) (uno p0' w') (uno p0'' w'') = .ok (∑ i ∈ Finset.range 2, ∑ j ∈ Finset.range 2,
      ∑ l ∈ Finset.range 2, w i * w' j * w'' l * z0 i j l) := by
  obtain ⟨k0, e0, v0⟩ := leaf_tp (v := 0) h0
  have hsum : tp (uno p0 w) (uno p0' w') (uno p0'' w'') = .ok fun f _ _ _ r =>
      ∑ i ∈ Finset.range 2, ∑ j ∈ Finset.range 2, ∑ l ∈ Finset.range 2, w i * w' j * w'' l * k0 f i j l r := by
    unfold uno tp
    rw [tpChecks_of]
    rotate_left
    iterate 2 exact rfl
    iterate 2 exact ⟨rfl, rfl⟩
    dsimp only
    rw [e0]
    rfl
  unfold tpScalar
  rw [if_neg (by simp [uno, IC.F, IC.C, IC.R]), hsum]
  dsimp only
  congr 1
  refine Finset.sum_congr rfl fun i hi => Finset.sum_congr rfl fun j hj => Finset.sum_congr rfl fun l hl => ?_
  rw [← v0 i (Finset.mem_range.1 hi) j (Finset.mem_range.1 hj) l (Finset.mem_range.1 hl)]

theorem duo_marg (p0 p1 : ℕ → LeafPar) (w : ℕ → ℝ) : margI [1] (duo p0 p1 w) = some (uno p0 w) := by
  obtain ⟨parts, hp⟩ : ∃ parts : Fin 2 → IC, parts = fun i => if i = 0 then .leaf [0] 2 1 fun _ c _ => p0 c
    else .leaf [1] 2 1 fun _ c _ => p1 c := ⟨_, rfl⟩
  have h0 : margI [1] (parts 0) = some (.leaf [0] 2 1 fun _ c _ => p0 c) := by
    have hq : ([0] : List Var).filter (fun v => !([1] : List Var).contains v) = [0] := by decide
    simp only [hp, if_true, margI, hq]
    rfl
  have h1 : margI [1] (parts 1) = none := by
    simp [hp, margI]
  have hl : (List.ofFn fun i : Fin 2 => margI [1] (parts i)) = [some (.leaf [0] 2 1 fun _ c _ => p0 c), none] := by
    rw [List.ofFn_succ, List.ofFn_succ, List.ofFn_zero]
    simp only [Fin.succ_zero_eq_one, h0, h1]
  unfold duo
  rw [← hp]
  simp only [margI, hl]
  rfl

/-- `[x₁ = 1]`, a fair coin. -/
noncomputable def coin (c : ℕ) : LeafPar := .bern (if c = 0 then 1 else 1 / 2)

/-- A fair coin in both channels. -/
noncomputable def fair (_ : ℕ) : LeafPar := .bern (1 / 2)

/-- **C77 fails for `marginalize`.** With the uniform monotone circuit and the component
`½·[x₀=1]·[x₁=1] + ½·[x₀=0]·½`, marginalising `x₁` is accepted and gives a model that returns `1/2` at `x₀ = 1`; the
marginal of the original density there is `2/3`. -/
theorem C77_marginalize_is_wrong : ∃ (m c : IC) (e e' : Exp), mkExp m [c] = .ok e ∧ e.marg [1] = .ok (some e') ∧
    (∃ l, e'.logLik (fun v => if v = 0 then some 1 else none) = .ok l ∧ expL l = 1 / 2) ∧
    margAt (refMeasure fun _ => true) {1} (fun _ => 1) (expDensity (fun _ => true) m [c]) = 2 / 3 := by
  obtain ⟨c, hc⟩ : ∃ c, c = duo sel coin fun _ => 1 / 2 := ⟨_, rfl⟩
  obtain ⟨m, hm⟩ : ∃ m, m = duo fair fair fun _ => 1 / 2 := ⟨_, rfl⟩
  obtain ⟨c', hc'⟩ : ∃ c', c' = uno sel fun _ => 1 / 2 := ⟨_, rfl⟩
  obtain ⟨m', hm'⟩ : ∃ m', m' = uno fair fun _ => 1 / 2 := ⟨_, rfl⟩
  have hmk : mkExp m [c] = .ok ⟨m, [c]⟩ := (C77_constructor _ _ _).2 ⟨rfl, by simp, by rw [hm]; rfl, by
    intro d hd
    rw [List.mem_singleton.1 hd, hc, hm]
    exact ⟨rfl, rfl⟩⟩
  have hmk' : mkExp m' [c'] = .ok ⟨m', [c']⟩ := (C77_constructor _ _ _).2 ⟨rfl, by simp, by rw [hm']; rfl, by
    intro d hd
    rw [List.mem_singleton.1 hd, hc', hm']
    exact ⟨rfl, rfl⟩⟩
  have hmarg : (⟨m, [c]⟩ : Exp).marg [1] = .ok (some ⟨m', [c']⟩) := by
    unfold Exp.marg
    simp only [hm, hc, duo_marg, List.map_cons, List.map_nil, allSome]
    rw [← hm', ← hc', hmk']
  have hs : ∀ i < 2, ∀ j < 2, ∀ l < 2, tpPar (sel i) (sel j) (fair l) = .ok (if i = j then (1 / 2 : ℝ) else 0) := by
    intro i hi j hj l hl
    rcases (by omega : i = 0 ∨ i = 1) with rfl | rfl <;> rcases (by omega : j = 0 ∨ j = 1) with rfl | rfl <;>
      simp [sel, fair, tpPar] <;> norm_num
  have hco : ∀ i < 2, ∀ j < 2, ∀ l < 2, tpPar (coin i) (coin j) (fair l) =
      .ok (if i = 0 then (if j = 0 then (1 / 2 : ℝ) else 1 / 4) else 1 / 4) := by
    intro i hi j hj l hl
    rcases (by omega : i = 0 ∨ i = 1) with rfl | rfl <;> rcases (by omega : j = 0 ∨ j = 1) with rfl | rfl <;>
      simp [coin, fair, tpPar] <;> norm_num
  refine ⟨m, c, _, _, hmk, hmarg, ?_, ?_⟩
  · have hz : zParts m' [c'] = .ok [1 / 4] := by
      simp only [zParts, hm', hc', uno_tp hs]
      simp [Finset.sum_range_succ]
      norm_num
    unfold Exp.logLik Exp.logZ
    simp only [hz]
    refine ⟨_, rfl, ?_⟩
    have hv : m'.valueN (fun v => if v = 0 then some 1 else none) 0 0 0 = 1 / 2 := by
      rw [hm']
      simp [uno, IC.valueN, leafN, IC.C, fair, dens]
    have hv' : c'.valueN (fun v => if v = 0 then some 1 else none) 0 0 0 = 1 / 2 := by
      rw [hc']
      simp [uno, IC.valueN, leafN, IC.C, sel, dens]
    rw [expL_add, expL_add, expL_lse, hv, expL_logL (by norm_num)]
    simp only [expL_twoLogAbs]
    rw [sum_range_getD [c'] _ fun d : IC => d.valueN (fun v => if v = 0 then some 1 else none) 0 0 0 ^ 2,
      List.sum_singleton, max_eq_left (by norm_num), clampMin_of_le (by norm_num)]
    have : expL ((-(Real.log (1 / 4)) : ℝ) : LogV) = 4 := by
      change Real.exp _ = _
      rw [Real.exp_neg, Real.exp_log (by norm_num)]
      norm_num
    rw [this]
    simp only [List.map_cons, List.map_nil, List.sum_singleton, hv']
    norm_num
  · have hz : zParts m [c] = .ok [3 / 32] := by
      simp only [zParts, hm, hc, duo_tp hs hco]
      simp [Finset.sum_range_succ]
      norm_num
    have hP : ∀ v k, Admissible3 (fun _ => true) v (sel k) ∧ Admissible3 (fun _ => true) v (coin k) ∧
        Admissible3 (fun _ => true) v (fair k) := by
      intro v k
      simp [Admissible3, Admissible, sel, coin, fair]
    have hZ := (zParts_eq (fun _ => true) hz (hm ▸ duo_wf _ _ _) (hm ▸ duo_sorted _ _ _)
      (hm ▸ duo_leaves (fun k => (hP _ k).2.2) (fun k => (hP _ k).2.2) _) (by
        intro d hd
        rw [List.mem_singleton.1 hd, hc]
        exact ⟨duo_wf _ _ _, duo_sorted _ _ _, duo_leaves (fun k => (hP _ k).1) (fun k => (hP _ k).2.1) _⟩)).1
    have hden : (fun z : Var → ℝ => expDensity (fun _ => true) m [c]
        fun v => if v ∈ ({1} : Finset Var) then z v else 1) =
        fun z => (fun t => 4 / 3 * (dens (.bern (1 / 2)) t * dens (.bern 1) t * dens (.bern 1) t)) (z 1) := by
      funext z
      unfold expDensity
      rw [← hZ, hm, hc]
      have d0 : dens (.bern 1) 1 = 1 := by simp [dens]
      have d1 : dens (.bern 0) 1 = 0 := by simp [dens]
      have d2 : dens (.bern (1 / 2)) 1 = 1 / 2 := by simp [dens]
      simp only [List.map_cons, List.map_nil, List.sum_singleton, duo_value, Finset.mem_singleton, zero_ne_one,
        if_false, if_true, sel, coin, fair, one_ne_zero, d0, d1, d2]
      ring
    unfold margAt
    rw [hden]
    have hb := bern_tp (1 / 2) 1 1
    have hi : Integrable (fun t => 4 / 3 * (dens (.bern (1 / 2)) t * dens (.bern 1) t * dens (.bern 1) t))
        (refMeasure (fun _ => true) 1) := hb.1.const_mul _
    refine (intOn_singleton (μ := refMeasure fun _ => true) 1 _ hi).2.trans ?_
    rw [integral_const_mul]
    have : ∫ t, dens (.bern (1 / 2)) t * dens (.bern 1) t * dens (.bern 1) t ∂(refMeasure (fun _ => true) 1) = 1 / 2 :=
      hb.2.trans (by norm_num)
    rw [this]
    norm_num

end Inner
end Verif

import Verif.QpcSem
import Verif.IntervalProps
import Mathlib.MeasureTheory.Function.Floor
import Mathlib.Analysis.SpecialFunctions.Log.Deriv
/-
C82: the density of a `TensorizedQPC` integrates to one.
-/
namespace Verif.Qpc
open Finset Graph MeasureTheory Interval Leaves

/-- The measure on the values of a variable: Lebesgue measure, or the counting measure on the categories. -/
noncomputable def refM (cfg : Config) : Measure ℝ :=
  match cfg.leafType with
  | .normal => volume
  | .bernoulli => countBelow 2
  | _ => countBelow (cfg.numCategories.getD 0).toNat

instance (cfg : Config) : SigmaFinite (refM cfg) := by
  unfold refM
  cases cfg.leafType <;> infer_instance

theorem catIdx_nat {C c : ℕ} (h : c < C) : catIdx C (c : ℝ) = c := by
  unfold catIdx
  rw [if_pos (Nat.cast_nonneg c), Int.floor_natCast]
  omega

theorem measurable_catIdx (C : ℕ) : Measurable (catIdx C) := by
  unfold catIdx
  have h1 : Measurable fun t : ℝ => if 0 ≤ t then ⌊t⌋ else ⌈t⌉ :=
    Measurable.ite measurableSet_Ici Int.measurable_floor Int.measurable_ceil
  have h2 : Measurable fun z : ℤ => (max 0 (min z (C - 1 : ℤ))).toNat := measurable_from_top
  exact h2.comp h1

/-- Every leaf unit is a density. -/
theorem leaf_density (cfg : Config) (hc : cfg.leafType ≠ .other)
    (hcat : cfg.leafType = .categorical → ∃ c ∈ cfg.numCategories, 1 < c) (par : ℕ → ℝ) :
    (Measurable fun t => leafLL cfg par t) ∧ ∫⁻ t, ENNReal.ofReal (Real.exp (leafLL cfg par t)) ∂refM cfg = 1 := by
  unfold leafLL refM
  cases ht : cfg.leafType with
  | other => exact absurd ht hc
  | normal =>
    dsimp only
    refine ⟨by fun_prop, ?_⟩
    have hs : 0 < softplus (par 1) + 1e-6 := by
      have := softplus_nonneg (par 1)
      have : (0 : ℝ) < 1e-6 := by norm_num
      linarith
    rw [← normal_normalised (par 0) hs]
    refine lintegral_congr fun t => ?_
    unfold normalLL
    rw [expL_coe]
    congr 3
    ring
  | bernoulli =>
    dsimp only
    refine ⟨by fun_prop, ?_⟩
    rw [lintegral_countBelow, sum_range_succ, sum_range_one, ← ENNReal.ofReal_add (Real.exp_pos _).le (Real.exp_pos _).le]
    have hp : 0 < 1 + Real.exp (-par 0) := by have := Real.exp_pos (-par 0); linarith
    have e : ∀ t : ℝ, Real.exp (-((1 - t) * par 0 + Real.log (1 + Real.exp (-par 0)))) =
        Real.exp (-((1 - t) * par 0)) / (1 + Real.exp (-par 0)) := by
      intro t
      rw [neg_add, Real.exp_add, Real.exp_neg (Real.log _), Real.exp_log hp]
      rfl
    rw [e, e]
    simp only [Nat.cast_zero, Nat.cast_one, sub_zero, sub_self, one_mul, zero_mul, neg_zero, Real.exp_zero]
    rw [← add_div, add_comm, div_self hp.ne']
    simp
  | categorical =>
    dsimp only
    obtain ⟨c, hcm, hc1⟩ := hcat ht
    have hcm' : cfg.numCategories = some c := hcm
    rw [hcm', Option.getD_some]
    have hC : 0 < c.toNat := by omega
    refine ⟨?_, ?_⟩
    · have : Measurable par := measurable_from_top
      exact (this.comp (measurable_catIdx _)).sub_const _
    · rw [lintegral_countBelow]
      have hD : 0 < ∑ c ∈ range c.toNat, Real.exp (par c) :=
        sum_pos (fun _ _ => Real.exp_pos _) ⟨0, mem_range.2 hC⟩
      rw [sum_congr rfl fun k hk => by rw [catIdx_nat (mem_range.1 hk), Real.exp_sub, Real.exp_log hD],
        ← ENNReal.ofReal_sum_of_nonneg fun k _ => (div_pos (Real.exp_pos _) hD).le, ← sum_div, div_self hD.ne']
      simp

/-- Integrating over one variable. -/
theorem lmarginal_single {μ : Measure ℝ} [SigmaFinite μ] (v : Var) {f : ℝ → ENNReal} (hf : Measurable f) (x : Var → ℝ) :
    (∫⋯∫⁻_{v}, (fun y => f (y v)) ∂fun _ => μ) x = ∫⁻ t, f t ∂μ := by
  rw [lmarginal_singleton]
  simp

section
variable {μ : Measure ℝ} [SigmaFinite μ]

/-- A density over the variables `S`. -/
structure Dens (μ : Measure ℝ) (S : Finset Var) (f : (Var → ℝ) → ℝ) : Prop where
  nonneg : ∀ x, 0 ≤ f x
  meas : Measurable f
  loc : ∀ x y, (∀ v ∈ S, x v = y v) → f x = f y
  one : ∀ x, (∫⋯∫⁻_S, (fun y => ENNReal.ofReal (f y)) ∂fun _ => μ) x = 1

/-- A mixture of densities over the same variables. -/
theorem Dens.mix {S : Finset Var} {n : ℕ} {w : ℕ → ℝ} {f : ℕ → (Var → ℝ) → ℝ} (hw : ∀ i < n, 0 ≤ w i)
    (h1 : ∑ i ∈ range n, w i = 1) (hf : ∀ i < n, Dens μ S (f i)) : Dens μ S fun x => ∑ i ∈ range n, w i * f i x := by
  refine ⟨fun x => sum_nonneg fun i hi => mul_nonneg (hw i (mem_range.1 hi)) ((hf i (mem_range.1 hi)).nonneg x), ?_, ?_, ?_⟩
  · exact Finset.measurable_sum _ fun i hi => (hf i (mem_range.1 hi)).meas.const_mul _
  · intro x y h
    exact sum_congr rfl fun i hi => by rw [(hf i (mem_range.1 hi)).loc x y h]
  · intro x
    have e : (fun y => ENNReal.ofReal (∑ i ∈ range n, w i * f i y)) =
        fun y => ∑ i ∈ range n, ENNReal.ofReal (w i) * (fun z => ENNReal.ofReal (f i z)) y := by
      funext y
      rw [ENNReal.ofReal_sum_of_nonneg fun i hi => mul_nonneg (hw i (mem_range.1 hi)) ((hf i (mem_range.1 hi)).nonneg y)]
      exact sum_congr rfl fun i hi => ENNReal.ofReal_mul (hw i (mem_range.1 hi))
    rw [e, lmarginal_wsum S (range n) (fun i => ENNReal.ofReal (w i)) fun i hi =>
      (hf i (mem_range.1 hi)).meas.ennreal_ofReal]
    rw [sum_congr rfl fun i hi => by rw [(hf i (mem_range.1 hi)).one x, mul_one],
      ← ENNReal.ofReal_sum_of_nonneg fun i hi => hw i (mem_range.1 hi), h1, ENNReal.ofReal_one]

/-- A product of densities over disjoint variables. -/
theorem Dens.prod {n : ℕ} {S : ℕ → Finset Var} {f : ℕ → (Var → ℝ) → ℝ}
    (hd : ∀ i < n, ∀ j < n, i ≠ j → Disjoint (S i) (S j)) (hf : ∀ i < n, Dens μ (S i) (f i)) :
    Dens μ ((range n).biUnion S) fun x => ∏ i ∈ range n, f i x := by
  refine ⟨fun x => prod_nonneg fun i hi => (hf i (mem_range.1 hi)).nonneg x, ?_, ?_, ?_⟩
  · exact Finset.measurable_prod _ fun i hi => (hf i (mem_range.1 hi)).meas
  · intro x y h
    exact prod_congr rfl fun i hi => (hf i (mem_range.1 hi)).loc x y fun v hv => h v (mem_biUnion.2 ⟨i, hi, hv⟩)
  · intro x
    have e : (fun y => ENNReal.ofReal (∏ i ∈ range n, f i y)) =
        fun y => ∏ i ∈ range n, (fun z => ENNReal.ofReal (f i z)) y := by
      funext y
      exact ENNReal.ofReal_prod_of_nonneg fun i hi => (hf i (mem_range.1 hi)).nonneg y
    rw [e, lmarginal_prod n S (fun i z => ENNReal.ofReal (f i z)) hd (fun i hi => (hf i hi).meas.ennreal_ofReal)
      fun i hi x y h => by dsimp only; rw [(hf i hi).loc x y h]]
    exact prod_eq_one fun i hi => (hf i (mem_range.1 hi)).one x

theorem Dens.mul {S T : Finset Var} (h : Disjoint S T) {f f' : (Var → ℝ) → ℝ} (hf : Dens μ S f) (hf' : Dens μ T f') :
    Dens μ (S ∪ T) fun x => f x * f' x := by
  refine ⟨fun x => mul_nonneg (hf.nonneg x) (hf'.nonneg x), hf.meas.mul hf'.meas, ?_, ?_⟩
  · intro x y hxy
    rw [hf.loc x y fun v hv => hxy v (mem_union_left _ hv), hf'.loc x y fun v hv => hxy v (mem_union_right _ hv)]
  · intro x
    have e : (fun y => ENNReal.ofReal (f y * f' y)) = fun y => ENNReal.ofReal (f y) * ENNReal.ofReal (f' y) := by
      funext y
      exact ENNReal.ofReal_mul (hf.nonneg y)
    rw [e, lmarginal_mul h hf.meas.ennreal_ofReal hf'.meas.ennreal_ofReal (fun x y hxy => by rw [hf.loc x y hxy])
      (fun x y hxy => by rw [hf'.loc x y hxy]), hf.one, hf'.one, mul_one]

end

/-- The variables of a region. -/
def vars (g : RG) (r : ℕ) : Finset Var := (g.scope r).query.toFinset

theorem vars_partition {g : RG} {r : ℕ} {p : List ℕ} (h : ValidPartition g r p) :
    vars g r = (range p.length).biUnion (fun i => vars g (p.getD i 0)) ∧
      ∀ i < p.length, ∀ j < p.length, i ≠ j → Disjoint (vars g (p.getD i 0)) (vars g (p.getD j 0)) := by
  obtain ⟨_, hd, hc⟩ := h
  constructor
  · ext v
    unfold vars
    simp only [List.mem_toFinset, mem_biUnion, mem_range, hc v]
    constructor
    · rintro ⟨k, hk, hv⟩
      obtain ⟨i, hi, rfl⟩ := List.getElem_of_mem hk
      exact ⟨i, hi, by rw [List.getD_eq_getElem _ _ hi]; exact hv⟩
    · rintro ⟨i, hi, hv⟩
      rw [List.getD_eq_getElem _ _ hi] at hv
      exact ⟨_, List.getElem_mem _, hv⟩
  · have key : ∀ i j, i < j → ∀ (hj : j < p.length), Disjoint (vars g (p.getD i 0)) (vars g (p.getD j 0)) := by
      intro i j hij hj
      rw [List.getD_eq_getElem _ _ (by omega : i < p.length), List.getD_eq_getElem _ _ hj]
      unfold vars
      rw [Finset.disjoint_left]
      intro v hv hv'
      exact hd i j (by omega) hj hij v (List.mem_toFinset.1 hv) (List.mem_toFinset.1 hv')
    intro i hi j hj hij
    rcases Nat.lt_or_gt_of_ne hij with h | h
    · exact key i j h hj
    · exact (key j i h hi).symm

/-- The value of a partition is a density over the variables of the region. -/
theorem part_dens {μ : Measure ℝ} [SigmaFinite μ] {g : RG} {r : ℕ} {p : List ℕ} (h : ValidPartition g r p) {t : Bool}
    {K : ℕ} {W : ℕ → ℕ → ℝ} (hW : WOk t K p.length W) (ht : t = true → p.length = 2) {V : ℕ → ℕ → (Var → ℝ) → ℝ}
    (hV : ∀ c ∈ p, ∀ k < K, Dens μ (vars g c) (V c k)) :
    Dens μ (vars g r) fun x => partVal t K W p fun c k => V c k x := by
  obtain ⟨hu, hd⟩ := vars_partition h
  have hm : ∀ i < p.length, p.getD i 0 ∈ p := fun i hi => by
    rw [List.getD_eq_getElem _ _ hi]; exact List.getElem_mem _
  unfold WOk at hW
  unfold partVal
  cases t with
  | false =>
    simp only [Bool.false_eq_true, if_false] at hW ⊢
    rw [hu]
    exact Dens.prod hd fun i hi => Dens.mix (hW i hi).1 (hW i hi).2 fun k hk => hV _ (hm i hi) k hk
  | true =>
    simp only [if_true] at hW ⊢
    have h2 := ht rfl
    have hdis := hd 0 (by omega) 1 (by omega) (by omega)
    have hu' : vars g r = vars g (p.getD 0 0) ∪ vars g (p.getD 1 0) := by
      rw [hu, h2]
      ext v
      simp only [mem_biUnion, mem_range, mem_union]
      constructor
      · rintro ⟨i, hi, hv⟩
        have : i = 0 ∨ i = 1 := by omega
        rcases this with e | e <;> subst e
        · exact .inl hv
        · exact .inr hv
      · rintro (hv | hv)
        · exact ⟨0, by omega, hv⟩
        · exact ⟨1, by omega, hv⟩
    -- one sum over the pairs
    have hpair : ∀ F : ℕ → ℕ → ℝ, ∑ i ∈ range K, ∑ j ∈ range K, F i j = ∑ q ∈ range (K * K), F (q / K) (q % K) := by
      intro F
      rw [← Finset.sum_product']
      refine Finset.sum_nbij' (fun a => a.1 * K + a.2) (fun q => (q / K, q % K)) ?_ ?_ ?_ ?_ ?_
      · rintro ⟨a, b⟩ h
        simp only [mem_product, mem_range] at h ⊢
        nlinarith [h.1, h.2]
      · intro q h
        simp only [mem_product, mem_range] at h ⊢
        have hK : 0 < K := Nat.pos_of_ne_zero fun e => by subst e; omega
        exact ⟨Nat.div_lt_of_lt_mul h, Nat.mod_lt _ hK⟩
      · rintro ⟨a, b⟩ h
        simp only [mem_product, mem_range] at h ⊢
        have hK : 0 < K := by omega
        rw [Nat.mul_comm a K, Nat.mul_add_div hK, Nat.mul_add_mod, Nat.div_eq_of_lt h.2, Nat.mod_eq_of_lt h.2, Nat.add_zero]
      · intro q _
        exact Nat.div_add_mod' q K
      · rintro ⟨a, b⟩ h
        simp only [mem_product, mem_range] at h ⊢
        have hK : 0 < K := by omega
        rw [Nat.mul_comm a K, Nat.mul_add_div hK, Nat.mul_add_mod, Nat.div_eq_of_lt h.2, Nat.mod_eq_of_lt h.2, Nat.add_zero]
    rw [hu']
    have e : (fun x => ∑ i ∈ range K, ∑ j ∈ range K, W i j * V (p.getD 0 0) i x * V (p.getD 1 0) j x) =
        fun x => ∑ q ∈ range (K * K), W (q / K) (q % K) * (V (p.getD 0 0) (q / K) x * V (p.getD 1 0) (q % K) x) := by
      funext x
      rw [hpair]
      exact sum_congr rfl fun q _ => by ring
    rw [e]
    have hlt : ∀ q < K * K, q / K < K ∧ q % K < K := by
      intro q hq
      have hK : 0 < K := by
        rcases Nat.eq_zero_or_pos K with h | h
        · subst h; omega
        · exact h
      exact ⟨Nat.div_lt_of_lt_mul hq, Nat.mod_lt _ hK⟩
    refine Dens.mix (f := fun q x => V (p.getD 0 0) (q / K) x * V (p.getD 1 0) (q % K) x)
      (fun q hq => hW.1 _ (hlt q hq).1 _ (hlt q hq).2) (by rw [← hpair]; exact hW.2) fun q hq => ?_
    exact Dens.mul hdis (hV _ (hm 0 (by omega)) _ (hlt q hq).1) (hV _ (hm 1 (by omega)) _ (hlt q hq).2)

/-- **C82, density.** Under the hypotheses of `C82_semantics` the exponential of the log-likelihood is a probability
density over the variables of the root region: it depends on no other variable and integrates (or sums) to one. -/
theorem C82_density {ρ : Rule} {cfg : Config} {g : RG} {U : Finset ℕ} {root fuel : ℕ} (hP : Proper g U root fuel)
    (hK : 0 < ρ.K) (hρ : ρ.Pos) {m : Model} (hm : construct ρ cfg g fuel root = .ok m) (θ : Params)
    (h1 : cfg.numClasses = 1) (hroot : g.parts root ≠ [] ∨ ρ.K = 1) :
    ∃ ll : (Var → ℝ) → ℝ, (∀ x, logLik m θ x = .ok (ll x)) ∧ Measurable ll ∧
      (∀ x y, (∀ v ∈ (g.scope root).query, x v = y v) → ll x = ll y) ∧
      ∀ x, (∫⋯∫⁻_((g.scope root).query.toFinset), (fun y => ENNReal.ofReal (Real.exp (ll y))) ∂fun _ => refM cfg) x = 1 := by
  obtain ⟨V, hgt, pos, hH, hleaf, hreg, hll⟩ := C82_semantics hP hK hρ hm θ h1 hroot
  obtain ⟨_, _, _, _, _, _, _, _, _, hq1, hlt, _, hcat⟩ := construct_inv hP hm
  have hVd : ∀ n r, Reach g.children root r → hgt r ≤ n → ∀ u, Dens (refM cfg) (vars g r) (V r u) ∧ ∀ x, 0 < V r u x := by
    intro n
    induction n with
    | zero =>
      intro r hr hle u
      have hl : g.parts r = [] := by
        by_contra hne
        obtain ⟨c, _, e⟩ := ((hH r hr).2 hne).2
        omega
      obtain ⟨_, _, hv⟩ := hleaf r ⟨hr, hl⟩
      obtain ⟨d1, d2⟩ := leaf_density cfg hlt hcat (θ.leaf (pos r) (ρ.pt u))
      have hvar : vars g r = {varOf g r} := by
        obtain ⟨a, ha⟩ := List.length_eq_one_iff.1 (hq1 r ⟨hr, hl⟩)
        unfold vars varOf
        rw [ha]
        rfl
      have hfun : V r u = fun x => Real.exp (leafLL cfg (θ.leaf (pos r) (ρ.pt u)) (x (varOf g r))) := funext fun x => hv u x
      rw [hvar, hfun]
      refine ⟨⟨fun x => (Real.exp_pos _).le, (Real.measurable_exp.comp (d1.comp (measurable_pi_apply _))), ?_, ?_⟩,
        fun x => Real.exp_pos _⟩
      · intro x y h
        rw [h _ (mem_singleton_self _)]
      · intro x
        rw [lmarginal_single (μ := refM cfg) (varOf g r)
          (f := fun t => ENNReal.ofReal (Real.exp (leafLL cfg (θ.leaf (pos r) (ρ.pt u)) t)))
          (Real.measurable_exp.comp d1).ennreal_ofReal]
        exact d2
    | succ n ih =>
      intro r hr hle u
      by_cases hl : g.parts r = []
      · exact ih r hr (by have := (hH r hr).1 hl; omega) u
      · obtain ⟨t, ht, mm, W, w1, w2, w3, w4⟩ := hreg r hr hl u
        have hfun : V r u = fun x => ∑ j ∈ range (g.parts r).length,
            mm j * partVal t ρ.K (W j) ((g.parts r).getD j []) fun c k => V c k x := funext fun x => w4 x
        have hjm : ∀ j < (g.parts r).length, (g.parts r).getD j [] ∈ g.parts r := fun j hj => by
          rw [List.getD_eq_getElem _ _ hj]; exact List.getElem_mem _
        have hch : ∀ j < (g.parts r).length, ∀ c ∈ (g.parts r).getD j [], Reach g.children root c ∧ hgt c ≤ n := by
          intro j hj c hc
          have hcc : c ∈ g.children r := List.mem_flatten.2 ⟨_, hjm j hj, hc⟩
          have := ((hH r hr).2 hl).1 c hcc
          exact ⟨Relation.ReflTransGen.tail hr hcc, by omega⟩
        have hD : Dens (refM cfg) (vars g r) (V r u) := by
          rw [hfun]
          refine Dens.mix (fun j _ => w1 j) w2 fun j hj => ?_
          exact part_dens (hP.valid r _ (hjm j hj)) (w3 j hj) (fun h => (ht.1 h).2 r hr rfl _ (hjm j hj))
            fun c hc k _ => (ih c (hch j hj c hc).1 (hch j hj c hc).2 k).1
        refine ⟨hD, fun x => ?_⟩
        -- some weight is positive, and its partition has a positive value
        obtain ⟨j, hj, hpos⟩ : ∃ j ∈ range (g.parts r).length, 0 < mm j := by
          by_contra hno
          push Not at hno
          have := Finset.sum_nonpos hno
          rw [w2] at this
          linarith
        have hpp : ∀ j < (g.parts r).length, 0 < partVal t ρ.K (W j) ((g.parts r).getD j []) fun c k => V c k x := by
          intro j hj
          have hVp : ∀ c ∈ (g.parts r).getD j [], ∀ k, 0 < V c k x := fun c hc k =>
            (ih c (hch j hj c hc).1 (hch j hj c hc).2 k).2 x
          have hm' : ∀ i < ((g.parts r).getD j []).length, ((g.parts r).getD j []).getD i 0 ∈ (g.parts r).getD j [] :=
            fun i hi => by rw [List.getD_eq_getElem _ _ hi]; exact List.getElem_mem _
          have hw := w3 j hj
          unfold WOk at hw
          unfold partVal
          cases ht' : t with
          | false =>
            rw [ht'] at hw
            simp only [Bool.false_eq_true, if_false] at hw ⊢
            refine prod_pos fun i hi => ?_
            obtain ⟨k, hk, hwk⟩ : ∃ k ∈ range ρ.K, 0 < W j i k := by
              by_contra hno
              push Not at hno
              have := Finset.sum_nonpos hno
              rw [(hw i (mem_range.1 hi)).2] at this
              linarith
            exact sum_pos' (fun k hk => mul_nonneg ((hw i (mem_range.1 hi)).1 k (mem_range.1 hk))
              (hVp _ (hm' i (mem_range.1 hi)) k).le) ⟨k, hk, mul_pos hwk (hVp _ (hm' i (mem_range.1 hi)) k)⟩
          | true =>
            have hlen : ((g.parts r).getD j []).length = 2 := (ht.1 ht').2 r hr rfl _ (hjm j hj)
            rw [ht'] at hw
            simp only [if_true] at hw ⊢
            have ha : ∀ k, 0 < V (((g.parts r).getD j []).getD 0 0) k x := hVp _ (hm' 0 (by omega))
            have hb : ∀ k, 0 < V (((g.parts r).getD j []).getD 1 0) k x := hVp _ (hm' 1 (by omega))
            obtain ⟨i, hi, hwi⟩ : ∃ i ∈ range ρ.K, 0 < ∑ k ∈ range ρ.K, W j i k := by
              by_contra hno
              push Not at hno
              have := Finset.sum_nonpos hno
              rw [hw.2] at this
              linarith
            obtain ⟨k, hk, hwk⟩ : ∃ k ∈ range ρ.K, 0 < W j i k := by
              by_contra hno
              push Not at hno
              have := Finset.sum_nonpos hno
              linarith
            have hnn : ∀ i ∈ range ρ.K, ∀ k ∈ range ρ.K, 0 ≤ W j i k * V (((g.parts r).getD j []).getD 0 0) i x *
                V (((g.parts r).getD j []).getD 1 0) k x := fun i hi k hk =>
              mul_nonneg (mul_nonneg (hw.1 i (mem_range.1 hi) k (mem_range.1 hk)) (ha i).le) (hb k).le
            exact sum_pos' (fun i hi => sum_nonneg (hnn i hi)) ⟨i, hi, sum_pos' (hnn i hi)
              ⟨k, hk, mul_pos (mul_pos hwk (ha i)) (hb k)⟩⟩
        rw [w4 x]
        exact sum_pos' (fun j hj => mul_nonneg (w1 j) (hpp j (mem_range.1 hj)).le)
          ⟨j, hj, mul_pos hpos (hpp j (mem_range.1 hj))⟩
  obtain ⟨hD, hpos⟩ := hVd (hgt root) root Relation.ReflTransGen.refl le_rfl 0
  refine ⟨fun x => Real.log (V root 0 x), hll, Real.measurable_log.comp hD.meas, ?_, ?_⟩
  · intro x y h
    dsimp only
    rw [hD.loc x y fun v hv => h v (List.mem_toFinset.1 hv)]
  · intro x
    have := hD.one x
    unfold vars at this
    rw [← this]
    congr 1
    funext y
    rw [Real.exp_log (hpos y)]

/-- **C82, out-of-support values.** Categorical leaves clamp: every value, also a negative, fractional or too large one,
is scored as the category it is truncated and clamped to, so impossible rows get the likelihood of possible ones. -/
theorem C82_out_of_support {ρ : Rule} {cfg : Config} {g : RG} {fuel root : ℕ} {m : Model}
    (hm : construct ρ cfg g fuel root = .ok m) (hc : cfg.leafType = .categorical) (θ : Params) (x : Var → ℝ) :
    logLik m θ x = logLik m θ fun v => (catIdx (cfg.numCategories.getD 0).toNat (x v) : ℝ) := by
  have hmc : m.cfg = cfg := by
    unfold construct at hm
    repeat' split at hm
    all_goals first
      | simp at hm; done
      | skip
    all_goals
      dsimp only at hm
      repeat' split at hm
      all_goals simp at hm
      all_goals first
        | (subst hm; rfl)
        | skip
  have hll : ∀ par t, leafLL cfg par t = leafLL cfg par (catIdx (cfg.numCategories.getD 0).toNat t : ℝ) := by
    intro par t
    unfold leafLL
    rw [hc]
    dsimp only
    congr 2
    by_cases hC : 0 < (cfg.numCategories.getD 0).toNat
    · refine (catIdx_nat ?_).symm
      unfold catIdx
      omega
    · have h0 : (cfg.numCategories.getD 0).toNat = 0 := by omega
      rw [h0]
      have : ∀ t, catIdx 0 t = 0 := fun t => by unfold catIdx; simp
      rw [this, this]
  have hlayer : leafLayer m θ x = leafLayer m θ fun v => (catIdx (cfg.numCategories.getD 0).toNat (x v) : ℝ) := by
    unfold leafLayer
    rw [hmc]
    congr 1
    refine List.map_congr_left fun vi _ => funext fun k => hll _ _
  unfold logLik
  rw [hlayer]

end Verif.Qpc

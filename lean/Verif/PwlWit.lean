import Verif.PwlLeaf

/-!
# C72: counterexamples and an example
-/

namespace Verif.Pwl.Wit

open Finset MeasureTheory

/-! ## Discrete features -/

theorem fits_gap : Fits (.discrete [0, 10]) [0, 10] := by
  refine ⟨by simp, by simp, Or.inr ⟨0, by simp, ?_, ?_⟩⟩ <;> norm_num

theorem count_gap : count [0, 10] 2 (breaksD [0, 10]) 0 = 1 ∧ count [0, 10] 2 (breaksD [0, 10]) 1 = 1 := by
  constructor <;> norm_num [count, InBin, breaksD, List.countP_cons]

/-- **C72 (finding: values with gaps).** Values 0 and 10 that occur equally often get densities that differ by a factor
ten and sum to 2/11 instead of one: widths between values are used as bin widths. -/
theorem C72_gap_wrong : ∃ c, cell 0 (.discrete [0, 10]) [0, 10] = .ok c ∧
    ∀ P, c.len ≤ P → dens P c 0 + dens P c 10 = 2 / 11 ∧ dens P c 10 = 10 * dens P c 0 := by
  obtain ⟨c, hc, hg, -, -, hlen, hx, hy⟩ := cell_discrete (le_refl (0 : ℝ)) fits_gap
  refine ⟨c, hc, fun P hP => ?_⟩
  have hlen' : c.len = 4 := hlen
  have e0 : (0 : ℝ) = c.x 1 := by rw [hx]; simp [pointsD]
  have e1 : (10 : ℝ) = c.x 2 := by rw [hx]; simp [pointsD]
  have d0 : dens P c 0 = c.y 1 := by
    have := hg.dens_point hP (i := 1) (by omega); rwa [← e0] at this
  have d1 : dens P c 10 = c.y 2 := by
    have := hg.dens_point hP (i := 2) (by omega); rwa [← e1] at this
  obtain ⟨c0, c1⟩ := count_gap
  have ht : total [0, 10] 2 (breaksD [0, 10]) = 2 := by
    unfold total; rw [sum_range_succ, sum_range_one, c0, c1]
  have r : ∀ i, smooth 0 2 2 (rawDensity [0, 10] 2 (breaksD [0, 10])).1 i
      = count [0, 10] 2 (breaksD [0, 10]) i / (2 * (breaksD [0, 10] (i + 1) - breaksD [0, 10] i)) := by
    intro i
    simp [smooth, rawDensity, histDensity, ht]
  have r0 : smooth 0 2 2 (rawDensity [0, 10] 2 (breaksD [0, 10])).1 0 = 1 / 20 := by
    rw [r, c0]; norm_num [breaksD]
  have r1 : smooth 0 2 2 (rawDensity [0, 10] 2 (breaksD [0, 10])).1 1 = 1 / 2 := by
    rw [r, c1]; norm_num [breaksD]
  have hA : auc 4 (pointsD [0, 10]) (withTails 2 (smooth 0 2 2 (rawDensity [0, 10] 2 (breaksD [0, 10])).1)) = 121 / 40 := by
    simp only [auc, trap, sum_range_succ, sum_range_zero, withTails, r0, r1, pointsD]
    norm_num [r0, r1]
  have y1 := hy 0 (by simp)
  have y2 := hy 1 (by simp)
  simp only [List.length_cons, List.length_nil, Nat.zero_add, Nat.reduceAdd] at y1 y2
  rw [hA, r0] at y1
  rw [hA, r1] at y2
  rw [d0, d1, y1, y2]
  norm_num

theorem fits_two : Fits (.discrete [1, 2]) [2] := by
  refine ⟨by simp, by simp, Or.inr ⟨2, by simp, ?_, ?_⟩⟩ <;> norm_num

theorem unit_two : ∀ i, i + 1 < ([1, 2] : List ℝ).length → ([1, 2] : List ℝ).getD (i + 1) 0 = ([1, 2] : List ℝ).getD i 0 + 1 := by
  intro i hi
  have : i = 0 := by simp at hi; omega
  subst this
  norm_num

/-- **C72 (finding: sampling a discrete feature returns the class number).** A leaf over the values 1 and 2 whose data are
all 2: the density of 2 is one and that of 1 is zero and every mode is 2, yet sampling always returns 1. -/
theorem C72_discrete_sample_wrong : ∃ c, cell 0 (.discrete [1, 2]) [2] = .ok c ∧
    (∀ P, c.len ≤ P → dens P c 1 = 0 ∧ dens P c 2 = 1) ∧ (∀ m, IsMode c m → m = 2) ∧
    discreteProb c 1 = 1 ∧ discreteProb c 2 = 0 := by
  classical
  obtain ⟨c, hc, hlen, hP⟩ := C72_discrete_pmf (le_refl (0 : ℝ)) (vs := [1, 2]) (data := [2]) (by simp) unit_two (by simp)
    (by simp)
  have hlen' : c.len = 4 := hlen
  have hd : ∀ P, c.len ≤ P → dens P c 1 = 0 ∧ dens P c 2 = 1 := by
    intro P hp
    obtain ⟨h1, -⟩ := hP P hp
    have a := h1 0 (by simp)
    have b := h1 1 (by simp)
    norm_num at a b
    exact ⟨a, b⟩
  obtain ⟨c', h1, hg, hA, -, -, hx, -⟩ := cell_discrete (le_refl (0 : ℝ)) fits_two
  rw [hc] at h1
  injection h1 with h1
  subst h1
  obtain ⟨da, db⟩ := hd 4 (by omega)
  have x1 : c.x 1 = 1 := by rw [hx]; simp [pointsD]
  have x2 : c.x 2 = 2 := by rw [hx]; simp [pointsD]
  have y1 : c.y 1 = 0 := by have := hg.dens_point (P := 4) (by omega) (i := 1) (by omega); rw [x1, da] at this; exact this.symm
  have y2 : c.y 2 = 1 := by have := hg.dens_point (P := 4) (by omega) (i := 2) (by omega); rw [x2, db] at this; exact this.symm
  have y0 := hg.first
  have y3 : c.y 3 = 0 := by have := hg.last; rwa [hlen'] at this
  refine ⟨c, hc, hd, ?_, ?_, ?_⟩
  · rintro m ⟨i, hi, hmax, rfl⟩
    have h2 := hmax 2 (by omega)
    rw [y2] at h2
    rcases (by omega : i = 0 ∨ i = 1 ∨ i = 2 ∨ i = 3) with rfl | rfl | rfl | rfl
    · rw [y0] at h2; linarith
    · rw [y1] at h2; linarith
    · exact x2
    · rw [y3] at h2; linarith
  · unfold discreteProb classProb
    rw [hlen']
    simp only [Nat.reduceSub, sum_range_succ, sum_range_zero, Nat.zero_add, Nat.reduceAdd, y1, y2]
    norm_num
  · unfold discreteProb classProb
    rw [hlen']
    simp only [Nat.reduceSub, sum_range_succ, sum_range_zero, Nat.zero_add, Nat.reduceAdd, y1, y2]
    norm_num

/-- **C72 (finding: data outside the domain).** If no data point lies between the first value and one past the last, the
log-likelihood is NaN everywhere between one below the first value and one past the last; no error is raised. -/
theorem C72_out_of_domain_nan {α : ℝ} {vs data : List ℝ} (hv : vs ≠ []) (hs : vs.Pairwise (· < ·)) (hne : data ≠ [])
    (hd : ∀ v ∈ data, ¬ (vs.getD 0 0 ≤ v ∧ v ≤ vs.getLastD 0 + 1)) :
    ∃ c, cell α (.discrete vs) data = .ok c ∧
      ∀ P q, vs.getD 0 0 - 1 < q → q ≤ vs.getLastD 0 + 1 → logProb P c q = none := by
  classical
  have hl : 1 ≤ vs.length := List.length_pos_of_ne_nil hv
  obtain ⟨e0, e1⟩ := breaksD_ends hv
  have ht : total data vs.length (breaksD vs) = 0 := by
    rw [total_eq hl (breaksD_inc hs), List.countP_eq_zero]
    intro v hv'
    rw [e0, e1]
    simpa using hd v hv'
  have hn : (rawDensity data vs.length (breaksD vs)).2 = true := by
    unfold rawDensity histDensity
    rw [if_neg (by simpa using hne), if_pos ht]
  obtain ⟨c, hc⟩ := (cell_ok_iff α (.discrete vs) data).2 hv
  refine ⟨c, hc, ?_⟩
  intro P q h0 h1
  unfold cell at hc
  dsimp only at hc
  rw [if_neg (by omega)] at hc
  injection hc with hc
  have hx : c.x = pointsD vs := by rw [← hc]; rfl
  have hlen : c.len = vs.length + 2 := by rw [← hc]; rfl
  have hnan : c.nan = true := by rw [← hc]; exact hn
  unfold logProb
  rw [if_pos]
  refine ⟨hnan, ?_, ?_⟩
  · rw [hx]; simpa [pointsD] using h0
  · rw [hx, hlen]
    have : pointsD vs (vs.length + 2 - 1) = vs.getLastD 0 + 1 := by
      unfold pointsD
      rw [if_neg (by omega), if_neg (by omega)]
    rw [this]; exact h1

/-! ## Continuous features -/

/-- A single data point 0: one bin from -1/2 to 1/2. -/
theorem edges_zero : breaksC none none [0] = .ok ((-1 / 2, 1 / 2), 1) := by
  have hq : ∀ p, quantile [0] p = 0 := by intro p; simp [quantile]
  have hw : autoWidth [0] = 0 := by simp [autoWidth, fdWidth, hq, sturgesWidth, maxL, minL]
  have ho : outerEdges [0] none = .ok (-1 / 2, 1 / 2) := by
    unfold outerEdges
    simp [minL, maxL]
    norm_num
  unfold breaksC binEdges
  rw [if_neg (by simp), ho]
  simp only [bind, Except.bind]
  have : numBins (clip [0] none ((-1 / 2 : ℝ), (1 / 2 : ℝ))) (-1 / 2, 1 / 2) = 1 := by
    unfold numBins
    simp [clip, hw]
  rw [this]

/-- **C72 (finding: the sampler does not follow the density).** Fitted to the single data point 0, the density is a
triangle around 0.  A quarter of the way through its support the density has mass 1/8 below, but the sampler falls below
with probability more than 1/5. -/
theorem C72_sampler_wrong : ∃ c, cell 0 (.continuous none none) [0] = .ok c ∧ ∃ t,
    (∀ P, c.len ≤ P → ∫ q in c.x 0..t, dens P c q = 1 / 8) ∧
    1 / 5 < (volume {u : ℝ | u ∈ Set.Ico (0 : ℝ) 1 ∧ draw c u < t}).toReal := by
  obtain ⟨e, c, he, hc, hg, hA, -, hlen, hx, hy⟩ :=
    cell_continuous (le_refl (0 : ℝ)) (lo := none) (hi := none) (data := [0]) (Or.inl (by simp))
  rw [edges_zero] at he
  injection he with he
  subst he
  dsimp only at hlen hx hy
  have hlen' : c.len = 3 := hlen
  obtain ⟨w, hw⟩ : ∃ w : ℝ, w = 1 / 2 + 1 / 10 ^ 8 := ⟨_, rfl⟩
  have hwpos : 0 < w := by rw [hw]; positivity
  have x0 : c.x 0 = -w := by rw [hx, hw]; norm_num [pointsC, linspace]
  have x1 : c.x 1 = 0 := by rw [hx]; norm_num [pointsC, linspace]
  have x2 : c.x 2 = w := by rw [hx, hw]; norm_num [pointsC, linspace]
  have y0 : c.y 0 = 0 := hg.first
  have y2 : c.y 2 = 0 := by have := hg.last; rwa [hlen'] at this
  have y1 : c.y 1 = 1 / w := by
    have h := hA
    rw [hlen'] at h
    simp only [auc, trap, Nat.reduceSub, sum_range_succ, sum_range_zero, Nat.zero_add, Nat.reduceAdd, x0, x1, x2, y0, y2] at h
    have : c.y 1 * w = 1 := by rw [← h]; ring
    exact (eq_div_iff hwpos.ne').2 this
  refine ⟨c, hc, -w / 2, ?_, ?_⟩
  · intro P hP
    have heq : Set.EqOn (fun q => (q + w) * (1 / w / w)) (dens P c) (Set.uIcc (c.x 0) (-w / 2)) := by
      intro q hq
      rw [Set.uIcc_of_le (by rw [x0]; linarith)] at hq
      have := hg.dens_seg hP (i := 0) (by omega) hq.1 (by rw [Nat.zero_add, x1]; linarith [hq.2])
      rw [this, Nat.zero_add, x0, x1, y0, y1]
      simp
    rw [← intervalIntegral.integral_congr heq]
    have hder : ∀ q ∈ Set.uIcc (c.x 0) (-w / 2),
        HasDerivAt (fun q => (q + w) ^ 2 / 2 * (1 / w / w)) ((q + w) * (1 / w / w)) q := by
      intro q _
      have h2 := ((((hasDerivAt_id q).add_const w).pow 2).div_const 2).mul_const (1 / w / w)
      refine h2.congr_deriv ?_
      simp
    rw [intervalIntegral.integral_eq_sub_of_hasDerivAt hder (Continuous.intervalIntegrable (by fun_prop) _ _), x0]
    field_simp
    ring
  · have hcum : cdf c 1 = 1 / 2 / big := by
      rw [Good.cdf_eq hA]
      unfold cum
      rw [sum_range_one]
      unfold trap
      rw [Nat.zero_add, x0, x1, y0, y1]
      congr 1
      field_simp
      ring
    have hc0 := Good.cdf_zero hA
    have hbig : 49 / 100 < 1 / 2 / big := by unfold big; norm_num
    have hbig1 : 1 / 2 / big < 1 := by unfold big; norm_num
    have hsub : Set.Ico (0 : ℝ) (1 / 2 / big / 2) ⊆ {u : ℝ | u ∈ Set.Ico (0 : ℝ) 1 ∧ draw c u < -w / 2} := by
      intro u hu
      have hu1 : u < cdf c 1 := by rw [hcum]; linarith [hu.2, hu.1]
      have hi := hg.index_mid hA (i := 0) (by omega) (by rw [hc0]; exact hu.1) hu1
      obtain ⟨hd, -, -⟩ := hg.draw_in hA (by linarith [hu.2]) (by omega) hi (by rw [hc0]; exact hu.1) (Or.inl hu1)
      refine ⟨⟨hu.1, by linarith [hu.2]⟩, ?_⟩
      rw [hd, Nat.zero_add, hc0, x0, x1, hcum]
      have hden : 0 < 1 / 2 / big - 0 + 1 / 10 ^ 8 := by
        have : (0 : ℝ) < 1 / 10 ^ 8 := by positivity
        linarith
      have : (u - 0) / (1 / 2 / big - 0 + 1 / 10 ^ 8) < 1 / 2 := by
        rw [div_lt_iff₀ hden]
        have : (0 : ℝ) < 1 / 10 ^ 8 := by positivity
        linarith [hu.2]
      nlinarith
    have hfin : volume {u : ℝ | u ∈ Set.Ico (0 : ℝ) 1 ∧ draw c u < -w / 2} ≠ ⊤ := by
      refine ne_top_of_le_ne_top ?_ (measure_mono (t := Set.Ico (0 : ℝ) 1) fun u hu => hu.1)
      rw [Real.volume_Ico]
      exact ENNReal.ofReal_ne_top
    have hle := ENNReal.toReal_mono hfin (measure_mono hsub)
    rw [Real.volume_Ico, ENNReal.toReal_ofReal (by linarith)] at hle
    linarith

/-- **C72 (finding: a bound of 0).** An empty cluster of a continuous feature is spread over the bounds of its domain, but
an upper bound of 0 is read as 1: on the domain from -1 to 0 the value 1/2 gets positive density. -/
theorem C72_zero_bound_wrong : ∃ c, cell 0 (.continuous (some (-1)) (some 0)) [] = .ok c ∧ ∀ P, c.len ≤ P → 0 < dens P c (1 / 2) := by
  have hb : breaksC (some (-1)) (some 0) [] = .ok ((-1, 1), 10) := by simp [breaksC, pyOr]
  obtain ⟨e, c, he, hc, hg, hA, -, hlen, hx, hy⟩ :=
    cell_continuous (le_refl (0 : ℝ)) (lo := some (-1)) (hi := some 0) (data := []) (Or.inr (by simp [pyOr]))
  rw [hb] at he
  injection he with he
  subst he
  dsimp only at hlen hx hy
  refine ⟨c, hc, fun P hP => ?_⟩
  have hval : ∀ i < 10, c.y (i + 1) = (1 / 10 : ℝ) / auc (10 + 2) (pointsC 10 (linspace (-1, 1) 10))
      (withTails 10 (smooth 0 0 10 (rawDensity [] 10 (linspace (-1, 1) 10)).1)) := by
    intro i hi
    rw [hy i hi]
    congr 1
    simp [smooth, rawDensity]
  have hinc : Inc 10 (linspace ((-1 : ℝ), (1 : ℝ)) 10) := fun i _ => linspace_lt (by norm_num) (by norm_num) i
  obtain ⟨-, r2, r3⟩ := raw_pos (by norm_num) hinc (data := []) (Or.inl rfl)
  obtain ⟨s1, s2⟩ := smooth_pos (le_refl (0 : ℝ)) (n := 0) (by norm_num) r2 r3
  have hpos := auc_pos (pointsC_inc (by norm_num) hinc) s1 s2
  have hx8 : c.x 8 = 1 / 2 := by rw [hx]; norm_num [pointsC, linspace]
  have := hg.dens_point hP (i := 8) (by omega)
  rw [hx8, hval 7 (by norm_num)] at this
  rw [this]
  exact div_pos (by norm_num) hpos

/-! ## A failed second initialisation -/

/-- **C72 (finding: a failed `initialize` changes the leaf).** Initialise a leaf over two discrete features; a second
`initialize` fails because the second domain has no data type.  The leaf still counts as initialised with the first curves,
but the domains are the new ones: sampling the first feature now treats its curve as continuous. -/
theorem C72_failed_initialize_mixes :
    ∃ (cfg : Config) (rows : List (ℕ → ℝ)) (c : Curve),
      let d1 : List Domain := [.discrete [0, 1], .discrete [0, 1]]
      let d2 : List Domain := [.continuous none none, .other]
      let st1 := fitLeaf cfg State.fresh 2 rows d1 (fun _ _ => 0)
      let st2 := fitLeaf cfg st1.1 2 rows d2 (fun _ _ => 0)
      st1.2 = none ∧ st2.2 ≠ none ∧
        sampleAction st1.1 false 0 0 0 = .ok (some (.disc c)) ∧ sampleAction st2.1 false 0 0 0 = .ok (some (.cont c)) := by
  refine ⟨⟨[0, 1], 1, 1, 0⟩, [fun _ => 0], cellD 0 (.discrete [0, 1]) (column 1 (fun _ => 0) [fun _ => 0] 0 0), ?_⟩
  obtain ⟨B, hfit⟩ : ∃ B, fitAll ⟨[0, 1], 1, 1, 0⟩ [fun _ => (0 : ℝ)] [.discrete [0, 1], .discrete [0, 1]] (fun _ _ => 0)
      = .ok [[[cellD 0 (.discrete [0, 1]) (column 1 (fun _ => 0) [fun _ => 0] 0 0), B]]] :=
    ⟨cellD 0 (.discrete [0, 1]) (column 1 (fun _ => 0) [fun _ => 0] 0 1), fitAll_ok (by
      intro f hf
      have hf' : f = 0 ∨ f = 1 := by simp at hf; omega
      rcases hf' with rfl | rfl <;> simp [Supported])⟩
  have h1 : (fitLeaf ⟨[0, 1], 1, 1, 0⟩ State.fresh 2 [fun _ => (0 : ℝ)] [.discrete [0, 1], .discrete [0, 1]]
      (fun _ _ => 0)) = (⟨some [[[cellD 0 (.discrete [0, 1]) (column 1 (fun _ => 0) [fun _ => 0] 0 0), B]]],
        some [.discrete [0, 1], .discrete [0, 1]], none⟩, none) := by
    unfold fitLeaf
    rw [if_neg (by simp), if_neg (by simp), hfit]
  have h2 : ∃ e, fitAll ⟨[0, 1], 1, 1, 0⟩ [fun _ => (0 : ℝ)] [.continuous none none, .other] (fun _ _ => 0) = .error e := by
    cases hh : fitAll ⟨[0, 1], 1, 1, 0⟩ [fun _ => (0 : ℝ)] [.continuous none none, .other] (fun _ _ => 0) with
    | error e => exact ⟨e, rfl⟩
    | ok cs =>
      have := (C72_accepts_iff ⟨[0, 1], 1, 1, 0⟩ State.fresh 2 [fun _ => (0 : ℝ)] [.continuous none none, .other]
        (fun _ _ => 0)).1 (by
          unfold fitLeaf
          rw [if_neg (by simp), if_neg (by simp), hh])
      exact absurd (this.2.2 (by simp) (by simp) .other (by simp)) (by simp [Supported])
  obtain ⟨e, h2⟩ := h2
  dsimp only
  rw [h1]
  refine ⟨rfl, ?_, ?_, ?_⟩
  · unfold fitLeaf
    rw [if_neg (by simp), if_neg (by simp), h2]
    simp
  · rfl
  · unfold fitLeaf
    rw [if_neg (by simp), if_neg (by simp), h2]
    rfl

/-! ## An example -/

/-- Two variables (columns 3 and 5), two channels, one repetition, `alpha = 1/2`: a discrete feature with values 0, 1, 2
and a continuous one, four rows in two clusters. -/
noncomputable def cfg : Config := ⟨[3, 5], 2, 1, 1 / 2⟩

noncomputable def rows : List (ℕ → ℝ) := [![0, 3] ∘ Fin.ofNat 2, ![1, 4] ∘ Fin.ofNat 2, ![2, 8] ∘ Fin.ofNat 2, ![2, 9] ∘ Fin.ofNat 2]

noncomputable def doms : List Domain := [.discrete [0, 1, 2], .continuous none none]

/-- Rows 0 and 1 are in cluster 0, rows 2 and 3 in cluster 1. -/
def cl (_ i : ℕ) : ℕ := i / 2

theorem example_fits : ∀ r < cfg.R, ∀ l < cfg.L, ∀ f < cfg.query.length,
    Fits (doms.getD f .other) (column cfg.L (cl r) rows l f) := by
  intro r hr l hl f hf
  have hl' : l = 0 ∨ l = 1 := by have : l < 2 := hl; omega
  have hf' : f = 0 ∨ f = 1 := by have : f < 2 := hf; omega
  rcases hl' with rfl | rfl <;> rcases hf' with rfl | rfl
  · refine ⟨by simp, by simp, Or.inr ⟨0, ?_, by norm_num, by norm_num⟩⟩
    simp [column, cfg, rows, cl, List.zipIdx_cons]
  · exact Or.inl (by simp [column, cfg, rows, cl, List.zipIdx_cons])
  · refine ⟨by simp, by simp, Or.inr ⟨2, ?_, by norm_num, by norm_num⟩⟩
    simp [column, cfg, rows, cl, List.zipIdx_cons]
  · exact Or.inl (by simp [column, cfg, rows, cl, List.zipIdx_cons])

/-- The hypotheses of `C72_fit` and `C72_log_likelihood` hold of a leaf with two features, two channels and smoothing. -/
theorem C72_example : ∃ cs, fitLeaf cfg State.fresh 2 rows doms cl = (⟨some cs, some doms, none⟩, none) := by
  obtain ⟨cs, h, -⟩ := C72_fit (cfg := cfg) (by norm_num [cfg]) State.fresh (doms := doms) rfl example_fits
  exact ⟨cs, h⟩

end Verif.Pwl.Wit

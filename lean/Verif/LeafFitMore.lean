import Verif.LeafFitProps

/-!
# C58: the other leaf families, and what bias correction does
-/

namespace Verif
namespace LeafFit

theorem log_le_of_pos {x : ℝ} (h : 0 < x) : Real.log x ≤ x - 1 := Real.log_le_sub_one_of_pos h

/-! ## Poisson -/

/-- **C58, Poisson.** The fitted rate is the weighted mean and maximises the weighted likelihood. -/
theorem C58_poisson {ignore : Bool} {F C R : ℕ} {rows : List Row} {f c r : ℕ} (hu : Usable F C R rows f c r)
    (hx : ∀ z ∈ used F f c r rows, ∃ k : ℕ, z.1 = k) (hpos : 0 < wsum id (used F f c r rows)) {b : Fl}
    (hb : fit poissonEst ignore F C R rows f c r = .ok b) :
    ∃ rate, b = .fin rate ∧ 0 < rate ∧
      ∀ q, 0 < q → wlik (used F f c r rows) (poisPmf q) ≤ wlik (used F f c r rows) (poisPmf rate) := by
  have hnn : ∀ q, 0 < q → ∀ x, 0 ≤ poisPmf q x := fun q hq x => by unfold poisPmf; positivity
  refine fit_max hu hb (fun x => ∃ k : ℕ, x = k) hx poisPmf (fun q => 0 < q) (fun q hq x _ => hnn q hq x)
    (fun l => 0 < wsum id l) (fun b θ => b = .fin θ) (fun κ hκ h => by rw [wsum_scale]; exact mul_pos hκ h) hpos ?_
  intro l hw hW hD hS
  set m := wsum id l / nTot l with hm
  have hm0 : 0 < m := div_pos hS hW
  have hmW : wsum id l = m * nTot l := by rw [hm]; field_simp
  refine ⟨m, ?_, hm0, fun q hq => ?_⟩
  · unfold poissonEst; rw [fdiv_pos_den hW, edgeLb_pos hm0]
  · refine wlik_le (t := fun x => Real.log (q / m) * id x + (m - q)) hw (fun z _ => hnn _ hm0 _) (fun z _ => hnn _ hq _) ?_ ?_
    · intro z hz _
      obtain ⟨k, e⟩ := hD z hz
      unfold poisPmf
      rw [e, Nat.floor_natCast, id]
      apply le_of_eq
      have h1 : Real.exp (Real.log (q / m) * (k : ℝ) + (m - q)) = (q / m) ^ k * Real.exp m * Real.exp (-q) := by
        rw [Real.exp_add, mul_comm (Real.log _), Real.exp_nat_mul, Real.exp_log (div_pos hq hm0), mul_assoc, ← Real.exp_add]
        congr 2
      have := Real.exp_pos m
      have h5 : m ^ k * (q / m) ^ k = q ^ k := by
        rw [← mul_pow]; congr 1; clear_value m; field_simp
      have h6 : Real.exp (-m) * Real.exp m = 1 := by rw [← Real.exp_add]; simp
      rw [h1]
      calc _ = (m ^ k * (q / m) ^ k) * (Real.exp (-m) * Real.exp m) * Real.exp (-q) / (Nat.factorial k : ℝ) := by
            rw [h5, h6]; ring
        _ = _ := by ring
    · rw [wsum_add (fun x => Real.log (q / m) * id x), wsum_smul, wsum_const, hmW]
      have := log_le_of_pos (div_pos hq hm0)
      have h2 : m * (q / m) = q := by field_simp
      nlinarith [mul_le_mul_of_nonneg_left this hm0.le]

/-! ## Exponential -/

/-- **C58, Exponential.** Without bias correction the fitted rate maximises the weighted likelihood. -/
theorem C58_exponential {ignore : Bool} {F C R : ℕ} {rows : List Row} {f c r : ℕ} (hu : Usable F C R rows f c r)
    (hpos : 0 < wsum id (used F f c r rows)) {b : Fl}
    (hb : fit (exponentialEst false) ignore F C R rows f c r = .ok b) :
    ∃ rate, b = .fin rate ∧ 0 < rate ∧
      ∀ q, 0 < q → wlik (used F f c r rows) (expPdf q) ≤ wlik (used F f c r rows) (expPdf rate) := by
  have hnn : ∀ q, 0 < q → ∀ x, 0 ≤ expPdf q x := fun q hq x => by unfold expPdf; positivity
  refine fit_max hu hb (fun _ => True) (fun _ _ => trivial) expPdf (fun q => 0 < q) (fun q hq x _ => hnn q hq x)
    (fun l => 0 < wsum id l) (fun b θ => b = .fin θ) (fun κ hκ h => by rw [wsum_scale]; exact mul_pos hκ h) hpos ?_
  intro l hw hW _ hS
  set m := nTot l / wsum id l with hm
  have hm0 : 0 < m := div_pos hW hS
  have hmW : nTot l = m * wsum id l := by rw [hm]; field_simp
  refine ⟨m, ?_, hm0, fun q hq => ?_⟩
  · unfold exponentialEst; simp only [Bool.false_eq_true, if_false, sub_zero]; rw [fdiv_pos_den hS, edgeLb_pos hm0]
  · refine wlik_le (t := fun x => (m - q) * id x + Real.log (q / m)) hw (fun z _ => hnn _ hm0 _) (fun z _ => hnn _ hq _) ?_ ?_
    · intro z _ _
      unfold expPdf
      apply le_of_eq
      rw [Real.exp_add, Real.exp_log (div_pos hq hm0), id]
      have h1 : m * Real.exp (-(m * z.1)) * (Real.exp ((m - q) * z.1) * (q / m)) =
          q * (Real.exp (-(m * z.1)) * Real.exp ((m - q) * z.1)) := by field_simp
      rw [h1, ← Real.exp_add]
      congr 2; ring
    · rw [wsum_add (fun x => (m - q) * id x), wsum_smul, wsum_const, hmW]
      have := log_le_of_pos (div_pos hq hm0)
      have h2 : m * (q / m) = q := by field_simp
      have h3 := mul_le_mul_of_nonneg_left this (mul_pos hm0 hS).le
      nlinarith

/-! ## Families built from two outcomes -/

theorem two_outcomes {a b q : ℝ} (ha : 0 < a) (hb : 0 < b) :
    a * (q / (a / (a + b)) - 1) + b * ((1 - q) / (1 - a / (a + b)) - 1) = 0 := by
  have h1 : (1 - a / (a + b)) = b / (a + b) := by field_simp; ring
  rw [h1]
  field_simp
  ring

theorem pow_le_exp {p q : ℝ} (hp : 0 < p) (hq : 0 ≤ q) (k : ℕ) : q ^ k ≤ p ^ k * Real.exp (k * (q / p - 1)) := by
  rw [Real.exp_nat_mul, ← mul_pow]
  exact pow_le_pow_left₀ hq (le_mul_exp_sub_one hp) k

/-- **C58, Geometric.** Without bias correction the fitted parameter maximises the weighted likelihood over `(0, 1]`. -/
theorem C58_geometric {ignore : Bool} {F C R : ℕ} {rows : List Row} {f c r : ℕ} (hu : Usable F C R rows f c r)
    (hx : ∀ z ∈ used F f c r rows, ∃ k : ℕ, z.1 = k) {b : Fl}
    (hb : fit (geometricEst false) ignore F C R rows f c r = .ok b) :
    ∃ p, b = .fin p ∧ (0 < p ∧ p ≤ 1) ∧
      ∀ q, 0 < q ∧ q ≤ 1 → wlik (used F f c r rows) (geomPmf q) ≤ wlik (used F f c r rows) (geomPmf p) := by
  have hnn : ∀ q, (0 < q ∧ q ≤ 1) → ∀ x, 0 ≤ geomPmf q x := fun q hq x => by
    unfold geomPmf; exact mul_nonneg hq.1.le (pow_nonneg (by linarith [hq.2]) _)
  refine fit_max hu hb (fun x => ∃ k : ℕ, x = k) hx geomPmf (fun q => 0 < q ∧ q ≤ 1) (fun q hq x _ => hnn q hq x)
    (fun _ => True) (fun b θ => b = .fin θ) (fun _ _ _ => trivial) trivial ?_
  intro l hw hW hD _
  have hx0 : ∀ z ∈ l, 0 ≤ id z.1 := fun z hz => by obtain ⟨k, e⟩ := hD z hz; simp [e]
  have hS := wsum_nonneg hw hx0
  set S := wsum id l with hSdef
  set p := nTot l / (S + nTot l) with hp
  have hden : 0 < S + nTot l := by linarith
  have hp0 : 0 < p := div_pos hW hden
  have hp1 : p ≤ 1 := (div_le_one hden).2 (by linarith)
  refine ⟨p, ?_, ⟨hp0, hp1⟩, fun q hq => ?_⟩
  · unfold geometricEst
    rw [fdiv_pos_den hden]
    simp only [Bool.false_eq_true, if_false]
    exact edgeLb_pos hp0
  · rcases hS.eq_or_lt with h0 | h0
    · have hp1' : p = 1 := by rw [hp, ← h0, zero_add, div_self hW.ne']
      have hz := wsum_pos_mem hw hx0 h0.symm
      refine wlik_le (t := fun _ => 0) hw (fun z _ => hnn _ ⟨hp0, hp1⟩ _) (fun z _ => hnn _ hq _) ?_ (by rw [wsum_const]; simp)
      intro z hzl hzw
      have : z.1 = 0 := hz z hzl hzw
      simp [geomPmf, this, hp1', hq.2]
    · have hp1' : 0 < 1 - p := by
        rw [hp, sub_pos, div_lt_one hden]; linarith
      refine wlik_le (t := fun x => ((1 - q) / (1 - p) - 1) * id x + (q / p - 1)) hw (fun z _ => hnn _ ⟨hp0, hp1⟩ _)
        (fun z _ => hnn _ hq _) ?_ ?_
      · intro z hzl _
        obtain ⟨k, e⟩ := hD z hzl
        unfold geomPmf
        rw [e, Nat.floor_natCast, id, Real.exp_add]
        have h1 := le_mul_exp_sub_one (q := q) hp0
        have h2 := pow_le_exp (q := 1 - q) hp1' (by linarith [hq.2]) k
        calc q * (1 - q) ^ k ≤ (p * Real.exp (q / p - 1)) * ((1 - p) ^ k * Real.exp (k * ((1 - q) / (1 - p) - 1))) := by
              apply mul_le_mul h1 h2 (pow_nonneg (by linarith [hq.2]) _)
              have := Real.exp_pos (q / p - 1); positivity
          _ = _ := by rw [mul_comm (k : ℝ)]; ring
      · rw [wsum_add (fun x => ((1 - q) / (1 - p) - 1) * id x), wsum_smul, wsum_const, ← hSdef]
        have := two_outcomes (q := q) hW h0
        rw [hp, add_comm S]
        linarith

/-- **C58, Binomial.** With `n ≥ 1` trials, when the data are neither all `0` nor all `n`, the fitted parameter
maximises the weighted likelihood over `[0, 1]`. -/
theorem C58_binomial {ignore : Bool} {F C R n : ℕ} {rows : List Row} {f c r : ℕ} (hn : 0 < n)
    (hu : Usable F C R rows f c r)
    (hx : ∀ z ∈ used F f c r rows, ∃ k ≤ n, z.1 = (k : ℕ)) (hpos : 0 < wsum id (used F f c r rows))
    (hlt : wsum id (used F f c r rows) < n * nTot (used F f c r rows)) {b : Fl}
    (hb : fit (binomialEst n) ignore F C R rows f c r = .ok b) :
    ∃ p, b = .fin p ∧ (0 ≤ p ∧ p ≤ 1) ∧
      ∀ q, 0 ≤ q ∧ q ≤ 1 → wlik (used F f c r rows) (binPmf n q) ≤ wlik (used F f c r rows) (binPmf n p) := by
  have hnn : ∀ q, (0 ≤ q ∧ q ≤ 1) → ∀ x, 0 ≤ binPmf n q x := fun q hq x => by
    unfold binPmf
    exact mul_nonneg (mul_nonneg (by positivity) (pow_nonneg hq.1 _)) (pow_nonneg (by linarith [hq.2]) _)
  refine fit_max hu hb (fun x => ∃ k ≤ n, x = (k : ℕ)) hx (binPmf n) (fun q => 0 ≤ q ∧ q ≤ 1) (fun q hq x _ => hnn q hq x)
    (fun l => 0 < wsum id l ∧ wsum id l < n * nTot l) (fun b θ => b = .fin θ)
    (fun κ hκ h => by
      rw [wsum_scale, nTot_scale]
      refine ⟨mul_pos hκ h.1, ?_⟩
      have := mul_lt_mul_of_pos_left h.2 hκ
      linarith) ⟨hpos, hlt⟩ ?_
  intro l hw hW hD hS
  set S := wsum id l with hSdef
  have hN : (0 : ℝ) < n := by exact_mod_cast hn
  have hb0 : 0 < n * nTot l - S := by linarith [hS.2]
  set p := S / (n * nTot l) with hp
  have hp0 : 0 < p := div_pos hS.1 (by positivity)
  have hp1 : p < 1 := (div_lt_one (by positivity)).2 hS.2
  have hp1' : 0 < 1 - p := by linarith
  refine ⟨p, ?_, ⟨hp0.le, hp1.le⟩, fun q hq => ?_⟩
  · have e1 : (l.map fun z => (z.1, z.2 / nTot l)) = l.map fun z => (z.1, z.2 * (nTot l)⁻¹) := by
      simp [div_eq_mul_inv]
    unfold binomialEst
    simp only [e1, wsum_scale, nTot_scale]
    rw [inv_mul_cancel₀ hW.ne', one_mul, fdiv_pos_den hN]
    have e2 : (nTot l)⁻¹ * wsum id l / n = p := by rw [hp, ← hSdef]; field_simp
    rw [e2]
    unfold edgeLbUb
    rw [edgeLb_pos hp0]
    simp [not_le.2 hp1]
  · refine wlik_le (t := fun x => (q / p - 1 - ((1 - q) / (1 - p) - 1)) * id x + n * ((1 - q) / (1 - p) - 1)) hw
      (fun z _ => hnn _ ⟨hp0.le, hp1.le⟩ _) (fun z _ => hnn _ hq _) ?_ ?_
    · intro z hzl _
      obtain ⟨k, hk, e⟩ := hD z hzl
      unfold binPmf
      rw [e, Nat.floor_natCast, id]
      have h1 := pow_le_exp hp0 hq.1 k
      have h2 := pow_le_exp (q := 1 - q) hp1' (by linarith [hq.2]) (n - k)
      have h3 : (q / p - 1 - ((1 - q) / (1 - p) - 1)) * (k : ℝ) + n * ((1 - q) / (1 - p) - 1) =
          k * (q / p - 1) + ((n - k : ℕ) : ℝ) * ((1 - q) / (1 - p) - 1) := by
        rw [Nat.cast_sub hk]; ring
      rw [h3, Real.exp_add]
      calc _ = (n.choose k : ℝ) * (q ^ k * (1 - q) ^ (n - k)) := by ring
        _ ≤ (n.choose k : ℝ) * ((p ^ k * Real.exp (k * (q / p - 1))) *
            ((1 - p) ^ (n - k) * Real.exp (((n - k : ℕ) : ℝ) * ((1 - q) / (1 - p) - 1)))) := by
            apply mul_le_mul_of_nonneg_left _ (by positivity)
            apply mul_le_mul h1 h2 (pow_nonneg (by linarith [hq.2]) _)
            have := Real.exp_pos (k * (q / p - 1)); positivity
        _ = _ := by ring
    · rw [wsum_add (fun x => (q / p - 1 - ((1 - q) / (1 - p) - 1)) * id x), wsum_smul, wsum_const, ← hSdef]
      have := two_outcomes (q := q) hS.1 hb0
      rw [add_sub_cancel, ← hp] at this
      nlinarith

/-- **C58, NegativeBinomial.** Without bias correction, when some weighted count is positive, the fitted parameter
maximises the weighted likelihood over `[0, 1)`. -/
theorem C58_negative_binomial {ignore : Bool} {F C R n : ℕ} {rows : List Row} {f c r : ℕ} (hn : 0 < n)
    (hu : Usable F C R rows f c r)
    (hx : ∀ z ∈ used F f c r rows, ∃ k : ℕ, z.1 = k) (hpos : 0 < wsum id (used F f c r rows)) {b : Fl}
    (hb : fit (negBinomialEst n false) ignore F C R rows f c r = .ok b) :
    ∃ p, b = .fin p ∧ (0 ≤ p ∧ p < 1) ∧
      ∀ q, 0 ≤ q ∧ q < 1 → wlik (used F f c r rows) (negBinPmf n q) ≤ wlik (used F f c r rows) (negBinPmf n p) := by
  have hnn : ∀ q, (0 ≤ q ∧ q < 1) → ∀ x, 0 ≤ negBinPmf n q x := fun q hq x => by
    unfold negBinPmf
    exact mul_nonneg (mul_nonneg (by positivity) (pow_nonneg (by linarith [hq.2]) _)) (pow_nonneg hq.1 _)
  refine fit_max hu hb (fun x => ∃ k : ℕ, x = k) hx (negBinPmf n) (fun q => 0 ≤ q ∧ q < 1) (fun q hq x _ => hnn q hq x)
    (fun l => 0 < wsum id l) (fun b θ => b = .fin θ)
    (fun κ hκ h => by rw [wsum_scale]; exact mul_pos hκ h) hpos ?_
  intro l hw hW hD hS
  set S := wsum id l with hSdef
  have hN : (0 : ℝ) < n := by exact_mod_cast hn
  have hA : 0 < nTot l * n := by positivity
  have hden : 0 < S + nTot l * n := by linarith
  set p := S / (S + nTot l * n) with hp
  have hp0 : 0 < p := div_pos hS hden
  have hp1 : p < 1 := (div_lt_one hden).2 (by linarith)
  have hp1' : 0 < 1 - p := by linarith
  refine ⟨p, ?_, ⟨hp0.le, hp1⟩, fun q hq => ?_⟩
  · unfold negBinomialEst
    simp only [Bool.false_eq_true, if_false, sub_zero]
    rw [← hSdef, fdiv_pos_den hden]
    have e2 : 1 - nTot l * n / (S + nTot l * n) = p := by rw [hp]; field_simp; ring
    dsimp only
    rw [e2]
    unfold edgeLbUb
    rw [edgeLb_pos hp0]
    simp [not_le.2 hp1]
  · refine wlik_le (t := fun x => (q / p - 1) * id x + n * ((1 - q) / (1 - p) - 1)) hw
      (fun z _ => hnn _ ⟨hp0.le, hp1⟩ _) (fun z _ => hnn _ hq _) ?_ ?_
    · intro z hzl _
      obtain ⟨k, e⟩ := hD z hzl
      unfold negBinPmf
      rw [e, Nat.floor_natCast, id]
      have h1 := pow_le_exp hp0 hq.1 k
      have h2 := pow_le_exp (q := 1 - q) hp1' (by linarith [hq.2]) n
      rw [Real.exp_add, mul_comm _ (k : ℝ)]
      calc _ = ((n + k - 1).choose k : ℝ) * (q ^ k * (1 - q) ^ n) := by ring
        _ ≤ ((n + k - 1).choose k : ℝ) * ((p ^ k * Real.exp (k * (q / p - 1))) *
            ((1 - p) ^ n * Real.exp (n * ((1 - q) / (1 - p) - 1)))) := by
            apply mul_le_mul_of_nonneg_left _ (by positivity)
            apply mul_le_mul h1 h2 (pow_nonneg (by linarith [hq.2]) _)
            have := Real.exp_pos (k * (q / p - 1)); positivity
        _ = _ := by ring
    · rw [wsum_add (fun x => (q / p - 1) * id x), wsum_smul, wsum_const, ← hSdef]
      have := two_outcomes (q := q) hS hA
      rw [← hp] at this
      nlinarith

/-! ## Normal and LogNormal -/

theorem normPdf_pos {m s x : ℝ} (hs : 0 < s) : 0 < normPdf m s x := by unfold normPdf; positivity

theorem wsum_sq {l : List (ℝ × ℝ)} (hW : 0 < nTot l) (a : ℝ) :
    wsum (fun x => (x - a) ^ 2) l = wsum (fun x => (x - wmean l) ^ 2) l + nTot l * (wmean l - a) ^ 2 := by
  have h1 : (fun x : ℝ => (x - a) ^ 2) =
      fun x => (x - wmean l) ^ 2 + (2 * (wmean l - a) * id x + ((wmean l - a) ^ 2 - 2 * (wmean l - a) * wmean l)) := by
    funext x; simp only [id]; ring
  rw [h1, wsum_add (fun x => (x - wmean l) ^ 2), wsum_add (fun x => 2 * (wmean l - a) * id x), wsum_smul, wsum_const]
  have : wsum id l = wmean l * nTot l := by unfold wmean; field_simp
  rw [this]; ring

theorem normal_core {l : List (ℝ × ℝ)} (hw : ∀ z ∈ l, 0 ≤ z.2) (hW : 0 < nTot l)
    (hV : 0 < wsum (fun x => (x - wmean l) ^ 2) l) :
    ∃ s, normalEst false l = (wmean l, .fin s) ∧ 0 < s ∧ s ^ 2 = wsum (fun x => (x - wmean l) ^ 2) l / nTot l ∧
      ∀ m' s', 0 < s' → wlik l (normPdf m' s') ≤ wlik l (normPdf (wmean l) s) := by
  set V := wsum (fun x => (x - wmean l) ^ 2) l with hVdef
  have hv : 0 < V / nTot l := div_pos hV hW
  set s := Real.sqrt (V / nTot l) with hs
  have hs0 : 0 < s := Real.sqrt_pos.2 hv
  have hs2 : s ^ 2 = V / nTot l := Real.sq_sqrt hv.le
  refine ⟨s, ?_, hs0, hs2, fun m' s' hs' => ?_⟩
  · unfold normalEst
    simp only [Bool.false_eq_true, if_false, sub_zero]
    rw [← hVdef, fdiv_pos_den hW]
    simp only [fsqrt, not_lt.2 hv.le, if_false]
    rw [← hs, edgeLb_pos hs0]
  · refine wlik_le (t := fun x => 1 / (2 * s ^ 2) * (x - wmean l) ^ 2 +
        (-(1 / (2 * s' ^ 2)) * (x - m') ^ 2 + Real.log (s / s'))) hw
      (fun z _ => (normPdf_pos hs0).le) (fun z _ => (normPdf_pos hs').le) ?_ ?_
    · intro z _ _
      apply le_of_eq
      unfold normPdf
      have h2 : 0 < Real.sqrt (2 * Real.pi) := Real.sqrt_pos.2 (by positivity)
      rw [Real.exp_add, Real.exp_add, Real.exp_log (div_pos hs0 hs')]
      have h3 : Real.exp (-(z.1 - wmean l) ^ 2 / (2 * s ^ 2)) * Real.exp (1 / (2 * s ^ 2) * (z.1 - wmean l) ^ 2) = 1 := by
        rw [← Real.exp_add, show -(z.1 - wmean l) ^ 2 / (2 * s ^ 2) + 1 / (2 * s ^ 2) * (z.1 - wmean l) ^ 2 = 0 by ring,
          Real.exp_zero]
      have h4 : Real.exp (-(1 / (2 * s' ^ 2)) * (z.1 - m') ^ 2) = Real.exp (-(z.1 - m') ^ 2 / (2 * s' ^ 2)) := by
        congr 1; ring
      rw [h4]
      generalize Real.exp (-(z.1 - m') ^ 2 / (2 * s' ^ 2)) = E0
      revert h3
      generalize Real.exp (-(z.1 - wmean l) ^ 2 / (2 * s ^ 2)) = E1
      generalize Real.exp (1 / (2 * s ^ 2) * (z.1 - wmean l) ^ 2) = E2
      intro h3
      have h6 : 1 / (s * Real.sqrt (2 * Real.pi)) * E1 * (E2 * (E0 * (s / s'))) =
          1 / (s * Real.sqrt (2 * Real.pi)) * (E1 * E2) * (E0 * (s / s')) := by ring
      rw [h6, h3]
      clear_value s
      field_simp
    · rw [wsum_add (fun x => 1 / (2 * s ^ 2) * (x - wmean l) ^ 2), wsum_smul,
        wsum_add (fun x => -(1 / (2 * s' ^ 2)) * (x - m') ^ 2), wsum_smul, wsum_const, wsum_sq hW m', ← hVdef]
      have hVs : V = s ^ 2 * nTot l := by rw [hs2]; field_simp
      rw [hVs]
      have hr : 0 < s ^ 2 / s' ^ 2 := by positivity
      have hlog := log_le_of_pos hr
      have hl2 : Real.log (s ^ 2 / s' ^ 2) = 2 * Real.log (s / s') := by
        rw [← div_pow, Real.log_pow]; norm_num
      rw [hl2] at hlog
      have e1 : 1 / (2 * s ^ 2) * (s ^ 2 * nTot l) = nTot l / 2 := by field_simp
      have e2 : -(1 / (2 * s' ^ 2)) * (s ^ 2 * nTot l + nTot l * (wmean l - m') ^ 2) =
          -(s ^ 2 / s' ^ 2) * nTot l / 2 - 1 / (2 * s' ^ 2) * (nTot l * (wmean l - m') ^ 2) := by field_simp; ring
      rw [e1, e2]
      have h5 : 0 ≤ 1 / (2 * s' ^ 2) * (nTot l * (wmean l - m') ^ 2) := by positivity
      nlinarith

/-- The weighted sum of squared deviations, for the user's weights. -/
noncomputable def devSq (l : List (ℝ × ℝ)) : ℝ := wsum (fun x => (x - wmean l) ^ 2) l

theorem wmean_scale {κ : ℝ} (hκ : κ ≠ 0) (l : List (ℝ × ℝ)) : wmean (l.map fun z => (z.1, z.2 * κ)) = wmean l := by
  unfold wmean; rw [wsum_scale, nTot_scale, mul_div_mul_left _ _ hκ]

theorem devSq_scale {κ : ℝ} (hκ : κ ≠ 0) (l : List (ℝ × ℝ)) : devSq (l.map fun z => (z.1, z.2 * κ)) = κ * devSq l := by
  unfold devSq; rw [wsum_scale, wmean_scale hκ]

/-- **C58, Normal.** Without bias correction the fitted location and scale are the weighted mean and the square root of
the weighted mean squared deviation, and maximise the weighted likelihood over all locations and positive scales. -/
theorem C58_normal {ignore : Bool} {F C R : ℕ} {rows : List Row} {f c r : ℕ} (hu : Usable F C R rows f c r)
    (hV : 0 < devSq (used F f c r rows)) {b : ℝ × Fl}
    (hb : fit (normalEst false) ignore F C R rows f c r = .ok b) :
    ∃ s, b = (wmean (used F f c r rows), .fin s) ∧ 0 < s ∧
      s ^ 2 = devSq (used F f c r rows) / nTot (used F f c r rows) ∧
      ∀ m' s', 0 < s' → wlik (used F f c r rows) (normPdf m' s') ≤
        wlik (used F f c r rows) (normPdf (wmean (used F f c r rows)) s) := by
  obtain ⟨P, hP, rfl⟩ := fit_ok hb
  obtain ⟨κ, hκ, hc, hw, hW, -⟩ := hu.scaled
  rw [hc _ _ hP]
  obtain ⟨s, h1, h2, h3, h4⟩ := normal_core hw hW
    (by have := devSq_scale hκ.ne' (used F f c r rows); unfold devSq at this; rw [this]; exact mul_pos hκ hV)
  rw [wmean_scale hκ.ne'] at h1 h4
  refine ⟨s, h1, h2, ?_, fun m' s' hs' => ?_⟩
  · rw [h3, nTot_scale]
    have := devSq_scale hκ.ne' (used F f c r rows)
    unfold devSq at this ⊢
    rw [this, mul_div_mul_left _ _ hκ.ne']
  · exact lift_le1 hκ (fun z _ => (normPdf_pos h2).le) (fun z _ => (normPdf_pos hs').le) (h4 m' s' hs')

/-- The logarithms of the observations. -/
noncomputable def logs (l : List (ℝ × ℝ)) : List (ℝ × ℝ) := l.map fun z => (Real.log z.1, z.2)

theorem wlik_logs {m s : ℝ} (hs : 0 < s) {l : List (ℝ × ℝ)} (hx : ∀ z ∈ l, 0 < z.1) :
    wlik l (logNormPdf m s) = wlik (logs l) (normPdf m s) * wlik l (fun x => x⁻¹) := by
  induction l with
  | nil => simp [wlik, logs]
  | cons z l ih =>
    have e : logs (z :: l) = (Real.log z.1, z.2) :: logs l := rfl
    rw [e, wlik_cons, wlik_cons, wlik_cons, ih fun y hy => hx y (by simp [hy])]
    have h1 := hx z (by simp)
    have h2 : logNormPdf m s z.1 ^ z.2 = normPdf m s (Real.log z.1) ^ z.2 * (z.1⁻¹) ^ z.2 := by
      unfold logNormPdf
      rw [div_eq_mul_inv, Real.mul_rpow (normPdf_pos hs).le (inv_pos.2 h1).le]
    rw [h2]; ring

/-- **C58, LogNormal.** The same for positive data. -/
theorem C58_log_normal {ignore : Bool} {F C R : ℕ} {rows : List Row} {f c r : ℕ} (hu : Usable F C R rows f c r)
    (hx : ∀ z ∈ used F f c r rows, 0 < z.1) (hV : 0 < devSq (logs (used F f c r rows))) {b : ℝ × Fl}
    (hb : fit (logNormalEst false) ignore F C R rows f c r = .ok b) :
    ∃ s, b = (wmean (logs (used F f c r rows)), .fin s) ∧ 0 < s ∧
      ∀ m' s', 0 < s' → wlik (used F f c r rows) (logNormPdf m' s') ≤
        wlik (used F f c r rows) (logNormPdf (wmean (logs (used F f c r rows))) s) := by
  obtain ⟨P, hP, rfl⟩ := fit_ok hb
  obtain ⟨κ, hκ, hc, hw, hW, -⟩ := hu.scaled
  rw [hc _ _ hP]
  set l := used F f c r rows
  have e : ((l.map fun z => (z.1, z.2 * κ)).map fun z => (Real.log z.1, z.2)) =
      (logs l).map fun z => (z.1, z.2 * κ) := by simp [logs, List.map_map, Function.comp_def]
  have hw' : ∀ z ∈ (logs l).map (fun z => (z.1, z.2 * κ)), 0 ≤ z.2 := by
    rw [← e]
    intro z hz
    obtain ⟨y, hy, rfl⟩ := List.mem_map.1 hz
    exact hw y hy
  have hn : nTot (logs l) = nTot l := by simp [nTot, logs, List.map_map, Function.comp_def]
  have hW' : 0 < nTot ((logs l).map fun z => (z.1, z.2 * κ)) := by
    rw [nTot_scale, hn]; exact mul_pos hκ hu.pos
  obtain ⟨s, h1, h2, -, h4⟩ := normal_core hw' hW'
    (by have := devSq_scale hκ.ne' (logs l); unfold devSq at this; rw [this]; exact mul_pos hκ hV)
  rw [wmean_scale hκ.ne'] at h1 h4
  refine ⟨s, ?_, h2, fun m' s' hs' => ?_⟩
  · unfold logNormalEst; rw [e]; exact h1
  · rw [wlik_logs hs' hx, wlik_logs h2 hx]
    apply mul_le_mul_of_nonneg_right _ (wlik_nonneg fun z hz => (inv_pos.2 (hx z hz)).le)
    exact lift_le1 hκ (fun z _ => (normPdf_pos h2).le) (fun z _ => (normPdf_pos hs').le) (h4 m' s' hs')

/-! ## Laplace -/

theorem lapPdf_pos {m b x : ℝ} (hb : 0 < b) : 0 < lapPdf m b x := by unfold lapPdf; positivity

open Classical in
theorem abs_up (l : List (ℝ × ℝ)) {m a : ℝ} (h : m ≤ a) :
    (a - m) * (2 * (l.filter fun z => decide (z.1 ≤ m)).length - l.length) ≤
      (l.map fun z => |z.1 - a| - |z.1 - m|).sum := by
  induction l with
  | nil => simp
  | cons z l ih =>
    rw [List.map_cons, List.sum_cons]
    by_cases hz : z.1 ≤ m
    · rw [List.filter_cons_of_pos (by simpa using hz)]
      have h1 : |z.1 - a| - |z.1 - m| = a - m := by
        rw [abs_of_nonpos (by linarith), abs_of_nonpos (by linarith)]; ring
      rw [h1]
      push_cast [List.length_cons]
      linarith
    · rw [List.filter_cons_of_neg (by simpa using hz)]
      have h1 : -(a - m) ≤ |z.1 - a| - |z.1 - m| := by
        have := abs_sub_abs_le_abs_sub (z.1 - m) (z.1 - a)
        have h3 : |z.1 - m - (z.1 - a)| = a - m := by
          rw [show z.1 - m - (z.1 - a) = a - m by ring, abs_of_nonneg (by linarith)]
        linarith
      push_cast [List.length_cons]
      linarith

open Classical in
theorem abs_down (l : List (ℝ × ℝ)) {m a : ℝ} (h : a ≤ m) :
    (m - a) * (l.length - 2 * (l.filter fun z => decide (z.1 < m)).length) ≤
      (l.map fun z => |z.1 - a| - |z.1 - m|).sum := by
  induction l with
  | nil => simp
  | cons z l ih =>
    rw [List.map_cons, List.sum_cons]
    by_cases hz : z.1 < m
    · rw [List.filter_cons_of_pos (by simpa using hz)]
      have h1 : -(m - a) ≤ |z.1 - a| - |z.1 - m| := by
        have := abs_sub_abs_le_abs_sub (z.1 - m) (z.1 - a)
        have h3 : |z.1 - m - (z.1 - a)| = m - a := by
          rw [show z.1 - m - (z.1 - a) = -(m - a) by ring, abs_neg, abs_of_nonneg (by linarith)]
        linarith
      push_cast [List.length_cons]
      linarith
    · rw [List.filter_cons_of_neg (by simpa using hz)]
      push Not at hz
      have h1 : |z.1 - a| - |z.1 - m| = m - a := by
        rw [abs_of_nonneg (by linarith), abs_of_nonneg (by linarith)]; ring
      rw [h1]
      push_cast [List.length_cons]
      linarith

/-- A median minimises the sum of absolute deviations. -/
theorem median_optimal {l : List (ℝ × ℝ)} {m : ℝ} (h : IsMedian l m) (a : ℝ) :
    (l.map fun z => |z.1 - m|).sum ≤ (l.map fun z => |z.1 - a|).sum := by
  classical
  have hd : ∀ l : List (ℝ × ℝ), (l.map fun z => |z.1 - a| - |z.1 - m|).sum =
      (l.map fun z => |z.1 - a|).sum - (l.map fun z => |z.1 - m|).sum := by
    intro l
    induction l with
    | nil => simp
    | cons z l ih => simp only [List.map_cons, List.sum_cons, ih]; ring
  obtain ⟨h1, h2⟩ := h
  rcases le_total m a with ha | ha
  · have h3 := abs_up l ha
    rw [hd] at h3
    have h4 : l.length ≤ 2 * (l.filter fun z => decide (z.1 ≤ m)).length := by omega
    have h5 : (0 : ℝ) ≤ 2 * ((l.filter fun z => decide (z.1 ≤ m)).length : ℝ) - l.length := by
      have : (l.length : ℝ) ≤ 2 * ((l.filter fun z => decide (z.1 ≤ m)).length : ℝ) := by exact_mod_cast h4
      linarith
    have := mul_nonneg (sub_nonneg.2 ha) h5
    linarith
  · have h3 := abs_down l ha
    rw [hd] at h3
    have h4 : 2 * (l.filter fun z => decide (z.1 < m)).length ≤ l.length := by omega
    have h5 : (0 : ℝ) ≤ l.length - 2 * ((l.filter fun z => decide (z.1 < m)).length : ℝ) := by
      have : 2 * ((l.filter fun z => decide (z.1 < m)).length : ℝ) ≤ l.length := by exact_mod_cast h4
      linarith
    have := mul_nonneg (sub_nonneg.2 ha) h5
    linarith

theorem wsum_const_weight {w : ℝ} {l : List (ℝ × ℝ)} (h : ∀ z ∈ l, z.2 = w) (g : ℝ → ℝ) :
    wsum g l = w * (l.map fun z => g z.1).sum := by
  induction l with
  | nil => simp [wsum]
  | cons z l ih =>
    rw [wsum_cons, ih fun y hy => h y (by simp [hy]), h z (by simp), List.map_cons, List.sum_cons]; ring

/-- The weighted sum of absolute deviations from `m`. -/
noncomputable def devAbs (m : ℝ) (l : List (ℝ × ℝ)) : ℝ := wsum (fun x => |x - m|) l

/-- **C58, Laplace.** When all rows have the same weight, the median and the fitted scale maximise the likelihood over
all locations and positive scales. -/
theorem C58_laplace {ignore : Bool} {F C R : ℕ} {rows : List Row} {f c r : ℕ} (hu : Usable F C R rows f c r)
    {w : ℝ} (hw1 : ∀ z ∈ used F f c r rows, z.2 = w) {m : ℝ} (hm : IsMedian (used F f c r rows) m)
    (hV : 0 < devAbs m (used F f c r rows)) {b : Fl}
    (hb : fit (laplaceScaleEst m) ignore F C R rows f c r = .ok b) :
    ∃ s, b = .fin s ∧ 0 < s ∧
      ∀ m' s', 0 < s' → wlik (used F f c r rows) (lapPdf m' s') ≤ wlik (used F f c r rows) (lapPdf m s) := by
  obtain ⟨P, hP, rfl⟩ := fit_ok hb
  obtain ⟨κ, hκ, hc, hw, hW, -⟩ := hu.scaled
  rw [hc _ _ hP]
  have hmed : ∀ a, wsum (fun x => |x - m|) (used F f c r rows) ≤ wsum (fun x => |x - a|) (used F f c r rows) := by
    intro a
    rw [wsum_const_weight hw1, wsum_const_weight hw1]
    apply mul_le_mul_of_nonneg_left (median_optimal hm a)
    by_contra hneg
    push Not at hneg
    have hp := hu.pos
    have h0 := nTot_nonneg hu.used_w
    cases hl : used F f c r rows with
    | nil => rw [hl] at hp; simp [nTot] at hp
    | cons z l =>
      have h1 := hw1 z (by rw [hl]; simp)
      have h2 := hu.used_w z (by rw [hl]; simp)
      linarith
  set l := (used F f c r rows).map fun z => (z.1, z.2 * κ) with hl
  have hA : wsum (fun x => |x - m|) l = κ * devAbs m (used F f c r rows) := by rw [hl, wsum_scale]; rfl
  have hA0 : 0 < wsum (fun x => |x - m|) l := by rw [hA]; exact mul_pos hκ hV
  set s := wsum (fun x => |x - m|) l / nTot l with hs
  have hs0 : 0 < s := div_pos hA0 hW
  have hsW : wsum (fun x => |x - m|) l = s * nTot l := by rw [hs]; field_simp
  refine ⟨s, ?_, hs0, fun m' s' hs' => ?_⟩
  · unfold laplaceScaleEst; rw [fdiv_pos_den hW, edgeLb_pos hs0]
  · apply lift_le1 hκ (fun z _ => (lapPdf_pos hs0).le) (fun z _ => (lapPdf_pos hs').le)
    rw [← hl]
    refine wlik_le (t := fun x => 1 / s * |x - m| + (-(1 / s') * |x - m'| + Real.log (s / s'))) hw
      (fun z _ => (lapPdf_pos hs0).le) (fun z _ => (lapPdf_pos hs').le) ?_ ?_
    · intro z _ _
      apply le_of_eq
      unfold lapPdf
      rw [Real.exp_add, Real.exp_add, Real.exp_log (div_pos hs0 hs')]
      have h3 : Real.exp (-|z.1 - m| / s) * Real.exp (1 / s * |z.1 - m|) = 1 := by
        rw [← Real.exp_add, show -|z.1 - m| / s + 1 / s * |z.1 - m| = 0 by ring, Real.exp_zero]
      have h4 : Real.exp (-(1 / s') * |z.1 - m'|) = Real.exp (-|z.1 - m'| / s') := by congr 1; ring
      rw [h4]
      generalize Real.exp (-|z.1 - m'| / s') = E0
      revert h3
      generalize Real.exp (-|z.1 - m| / s) = E1
      generalize Real.exp (1 / s * |z.1 - m|) = E2
      intro h3
      have h6 : 1 / (2 * s) * E1 * (E2 * (E0 * (s / s'))) = 1 / (2 * s) * (E1 * E2) * (E0 * (s / s')) := by ring
      rw [h6, h3]
      clear_value s
      field_simp
    · rw [wsum_add (fun x => 1 / s * |x - m|), wsum_smul, wsum_add (fun x => -(1 / s') * |x - m'|), wsum_smul,
        wsum_const, hsW]
      have h1 : s * nTot l ≤ wsum (fun x => |x - m'|) l := by
        rw [← hsW, hl, wsum_scale, wsum_scale]
        exact mul_le_mul_of_nonneg_left (hmed m') hκ.le
      have hlog := log_le_of_pos (div_pos hs0 hs')
      have e1 : 1 / s * (s * nTot l) = nTot l := by clear_value s; field_simp
      have h2 : 1 / s' * (s * nTot l) ≤ 1 / s' * wsum (fun x => |x - m'|) l :=
        mul_le_mul_of_nonneg_left h1 (by positivity)
      have e2 : 1 / s' * (s * nTot l) = s / s' * nTot l := by ring
      rw [e1]
      nlinarith

/-! ## Bias correction with the default weights -/

/-- `weights=None`: every row has weight one everywhere. -/
def Default (rows : List Row) : Prop := ∀ row ∈ rows, row.w = defaultW

theorem totalW_default (F C R : ℕ) {rows : List Row} (h : Default rows) :
    totalW F C R rows = rows.length * ((F * C * R : ℕ) : ℝ) := by
  unfold totalW
  have : (rows.map fun row => ∑ f ∈ Finset.range F, ∑ c ∈ Finset.range C, ∑ r ∈ Finset.range R, row.w f c r) =
      rows.map fun _ => ((F * C * R : ℕ) : ℝ) := by
    apply List.map_congr_left
    intro row hrow
    rw [h row hrow]
    simp [defaultW]
    ring
  rw [this]
  simp

theorem nTot_const {w : ℝ} {l : List (ℝ × ℝ)} (h : ∀ z ∈ l, z.2 = w) : nTot l = l.length * w := by
  induction l with
  | nil => simp [nTot]
  | cons z l ih => rw [nTot_cons, ih fun y hy => h y (by simp [hy]), h z (by simp)]; push_cast [List.length_cons]; ring

/-- **C58, what the bias correction divides by.**  With the default weights and `N` complete rows a Normal leaf with `F`
features, `C` channels and `R` repetitions gets, for the sum of squared deviations `SS > 0`, the variance
`SS / (N - F·C·R)` when `N > F·C·R`, an infinite scale when `N = F·C·R`, and the scale `1e-8` when `N < F·C·R`.
(The corrected estimate is `SS / (N - 1)`; the two agree only for `F·C·R = 1`.) -/
theorem C58_bias_denominator {ignore : Bool} {F C R : ℕ} {rows : List Row} {f c r : ℕ}
    (hf : f < F) (hc : c < C) (hr : r < R) (hdef : Default rows)
    (hV : 0 < devSq (used F f c r rows)) {b : ℝ × Fl}
    (hb : fit (normalEst true) ignore F C R rows f c r = .ok b) :
    let N := (used F f c r rows).length
    b.1 = wmean (used F f c r rows) ∧
      (F * C * R < N → ∃ s, b.2 = .fin s ∧ 0 < s ∧ s ^ 2 = devSq (used F f c r rows) / ((N : ℝ) - (F * C * R : ℕ))) ∧
      (N = F * C * R → b.2 = .pinf) ∧
      (N < F * C * R → b.2 = .fin eps) := by
  intro N
  have hlen : (rows.filter (complete F)).length = N := by simp [N, used, cell]
  have hdef' : Default (rows.filter (complete F)) := fun row hrow => hdef row (List.mem_filter.1 hrow).1
  have hone : ∀ z ∈ used F f c r rows, z.2 = 1 := by
    intro z hz
    unfold used cell at hz
    obtain ⟨row, hrow, rfl⟩ := List.mem_map.1 hz
    show row.w f c r = 1
    rw [hdef' row hrow]; rfl
  have hne : used F f c r rows ≠ [] := by
    intro h; rw [h] at hV; simp [devSq, wsum] at hV
  have hNpos : 0 < N := List.length_pos_iff.2 hne
  have hT := totalW_default F C R hdef'
  rw [hlen] at hT
  have hFCR : 0 < F * C * R := Nat.mul_pos (Nat.mul_pos (by omega) (by omega)) (by omega)
  have hFCR' : (0 : ℝ) < (F * C * R : ℕ) := by exact_mod_cast hFCR
  have hN' : (0 : ℝ) < N := by exact_mod_cast hNpos
  have hκ : factor F C R rows = 1 / (F * C * R : ℕ) := by
    unfold factor; rw [hT, hlen]; field_simp
  obtain ⟨P, hP, rfl⟩ := fit_ok hb
  have hκ0 : factor F C R rows ≠ 0 := by rw [hκ]; positivity
  rw [cell_prepare hP]
  unfold normalEst
  have hds := devSq_scale hκ0 (used F f c r rows)
  unfold devSq at hds
  rw [hds, nTot_scale, nTot_const hone, wmean_scale hκ0, hκ]
  simp only [if_true, mul_one]
  refine ⟨trivial, fun h => ?_, fun h => ?_, fun h => ?_⟩
  · have h1 : ((F * C * R : ℕ) : ℝ) < N := by exact_mod_cast h
    have h2 : 0 < 1 / ((F * C * R : ℕ) : ℝ) * ((used F f c r rows).length : ℝ) - 1 := by
      rw [sub_pos, one_div, inv_mul_eq_div, one_lt_div hFCR']; exact h1
    have hq : 1 / ((F * C * R : ℕ) : ℝ) * wsum (fun x => (x - wmean (used F f c r rows)) ^ 2) (used F f c r rows) /
        (1 / ((F * C * R : ℕ) : ℝ) * ((used F f c r rows).length : ℝ) - 1) =
        devSq (used F f c r rows) / ((N : ℝ) - (F * C * R : ℕ)) := by
      have h3 : (N : ℝ) - (F * C * R : ℕ) ≠ 0 := by linarith
      have e : 1 / ((F * C * R : ℕ) : ℝ) * ((used F f c r rows).length : ℝ) - 1 =
          ((N : ℝ) - (F * C * R : ℕ)) / (F * C * R : ℕ) := by
        show 1 / ((F * C * R : ℕ) : ℝ) * (N : ℝ) - 1 = _
        field_simp
      rw [e]
      unfold devSq
      field_simp
    have hpos : 0 < devSq (used F f c r rows) / ((N : ℝ) - (F * C * R : ℕ)) := div_pos hV (by linarith)
    refine ⟨Real.sqrt (devSq (used F f c r rows) / ((N : ℝ) - (F * C * R : ℕ))), ?_, Real.sqrt_pos.2 hpos,
      Real.sq_sqrt hpos.le⟩
    rw [fdiv_pos_den h2, hq]
    simp only [fsqrt, not_lt.2 hpos.le, if_false]
    exact edgeLb_pos (Real.sqrt_pos.2 hpos)
  · have h1 : 1 / ((F * C * R : ℕ) : ℝ) * ((used F f c r rows).length : ℝ) - 1 = 0 := by
      show 1 / ((F * C * R : ℕ) : ℝ) * (N : ℝ) - 1 = 0
      rw [h]; field_simp; simp
    rw [h1]
    have h2 : 0 < 1 / ((F * C * R : ℕ) : ℝ) * wsum (fun x => (x - wmean (used F f c r rows)) ^ 2) (used F f c r rows) :=
      mul_pos (by positivity) hV
    simp only [fdiv, ne_eq, not_true_eq_false, if_false, h2.ne', h2, if_true, fsqrt, edgeLb]
  · have h1 : (N : ℝ) < ((F * C * R : ℕ) : ℝ) := by exact_mod_cast h
    have h2 : 1 / ((F * C * R : ℕ) : ℝ) * ((used F f c r rows).length : ℝ) - 1 < 0 := by
      show 1 / ((F * C * R : ℕ) : ℝ) * (N : ℝ) - 1 < 0
      rw [sub_neg, one_div, inv_mul_eq_div, div_lt_one hFCR']; exact h1
    have h3 : 1 / ((F * C * R : ℕ) : ℝ) * wsum (fun x => (x - wmean (used F f c r rows)) ^ 2) (used F f c r rows) /
        (1 / ((F * C * R : ℕ) : ℝ) * ((used F f c r rows).length : ℝ) - 1) < 0 :=
      div_neg_of_pos_of_neg (mul_pos (by positivity) hV) h2
    simp only [fdiv, ne_eq, h2.ne, not_false_eq_true, if_true, fsqrt, h3, edgeLb]

/-! ## Concrete cases -/

/-- A row with one value. -/
def row1 (x w : ℝ) : Row := ⟨fun _ => some x, fun _ _ _ => w⟩

/-- Two rows `0`, `2`, two channels: the "corrected" scale is infinite (the right one is `√2`). -/
theorem C58_bias_two_channels :
    fit (normalEst true) false 1 2 1 [row1 0 1, row1 2 1] 0 0 0 = .ok (1, .pinf) := by
  have hu : used 1 0 0 0 [row1 0 1, row1 2 1] = [(0, 1), (2, 1)] := by
    simp [used, cell, complete, row1]
  have hm : wmean [((0 : ℝ), (1 : ℝ)), (2, 1)] = 1 := by norm_num [wmean, wsum, nTot]
  have hp : ∃ P, prepare false 1 2 1 [row1 0 1, row1 2 1] = .ok P := by
    refine ⟨rescale 1 2 1 [row1 0 1, row1 2 1], ?_⟩
    unfold prepare
    rw [if_neg, if_pos] <;> simp [allNan, complete, row1]
  obtain ⟨P, hP⟩ := hp
  have hb : fit (normalEst true) false 1 2 1 [row1 0 1, row1 2 1] 0 0 0 = .ok (normalEst true (cell 0 0 0 P)) := by
    unfold fit; rw [hP]
  have hd : Default [row1 0 1, row1 2 1] := by
    intro row hrow
    simp only [List.mem_cons, List.not_mem_nil, or_false] at hrow
    rcases hrow with rfl | rfl <;> rfl
  obtain ⟨h1, -, h2, -⟩ := C58_bias_denominator (F := 1) (C := 2) (R := 1) (f := 0) (c := 0) (r := 0) (by norm_num)
    (by norm_num) (by norm_num) hd (by rw [hu]; norm_num [devSq, hm, wsum]) hb
  rw [hb]
  congr 1
  rw [hu, hm] at h1
  exact Prod.ext h1 (h2 (by rw [hu]; rfl))

/-- Laplace ignores the weights when it picks the location: with values `0, 0, 1` of weights `1, 1, 10` it returns
location `0` and scale `5/6`, although location `1` with scale `1/6` has a higher weighted likelihood. -/
theorem C58_laplace_weights_ignored :
    let rows := [row1 0 1, row1 0 1, row1 1 10]
    IsMedian (used 1 0 0 0 rows) 0 ∧ fit (laplaceScaleEst 0) false 1 1 1 rows 0 0 0 = .ok (.fin (5 / 6)) ∧
      wlik (used 1 0 0 0 rows) (lapPdf 0 (5 / 6)) < wlik (used 1 0 0 0 rows) (lapPdf 1 (1 / 6)) := by
  intro rows
  have hu : used 1 0 0 0 rows = [(0, 1), (0, 1), (1, 10)] := by
    simp [rows, used, cell, complete, row1]
  refine ⟨?_, ?_, ?_⟩
  · rw [hu]; unfold IsMedian
    norm_num [List.filter_cons]
  · unfold fit prepare
    have h1 : allNan 1 rows = false := by simp [rows, allNan, row1]
    have h2 : rows.all (complete 1) = true := by simp [rows, complete, row1]
    rw [h1, h2]
    simp only [Bool.false_eq_true, if_false, if_true]
    congr 1
    have h3 : cell 0 0 0 (rescale 1 1 1 rows) = [(0, 1 / 4), (0, 1 / 4), (1, 5 / 2)] := by
      norm_num [cell, rescale, rows, row1, totalW]
    rw [h3]
    unfold laplaceScaleEst
    rw [fdiv_pos_den (by norm_num [nTot])]
    norm_num [wsum, nTot, edgeLb]
  · rw [hu]
    have e1 : wlik [((0 : ℝ), (1 : ℝ)), (0, 1), (1, 10)] (lapPdf 0 (5 / 6)) = (3 / 5) ^ 12 * Real.exp (-12) := by
      have h10 : ∀ x : ℝ, x ^ (10 : ℝ) = x ^ 10 := fun x => by
        have := Real.rpow_natCast x 10; exact_mod_cast this
      simp only [wlik, lapPdf, List.map_cons, List.map_nil, List.prod_cons, List.prod_nil, Real.rpow_one, h10]
      norm_num [mul_pow]
      rw [← Real.exp_nat_mul]
      norm_num
      ring
    have e2 : wlik [((0 : ℝ), (1 : ℝ)), (0, 1), (1, 10)] (lapPdf 1 (1 / 6)) = 3 ^ 12 * Real.exp (-12) := by
      have h10 : ∀ x : ℝ, x ^ (10 : ℝ) = x ^ 10 := fun x => by
        have := Real.rpow_natCast x 10; exact_mod_cast this
      have h6 : Real.exp (-12) = Real.exp (-6) * Real.exp (-6) := by rw [← Real.exp_add]; norm_num
      simp only [wlik, lapPdf, List.map_cons, List.map_nil, List.prod_cons, List.prod_nil, Real.rpow_one, h10]
      norm_num
      rw [h6]
      ring
    rw [e1, e2]
    have := Real.exp_pos (-12)
    norm_num
    nlinarith

/-- Non-vacuity: three rows, one of them with NaN, a leaf with two channels: the hypotheses of the theorems above hold,
and the Bernoulli estimate is `1/2`. -/
theorem C48_example :
    let rows : List Row := [row1 0 1, ⟨fun _ => none, fun _ _ _ => 1⟩, row1 1 1]
    Usable 1 2 1 rows 0 1 0 ∧ (∀ z ∈ used 1 0 1 0 rows, z.1 = 0 ∨ z.1 = 1) ∧
      (∃ b, fit bernoulliEst true 1 2 1 rows 0 1 0 = .ok b) ∧
      (∀ b, fit bernoulliEst true 1 2 1 rows 0 1 0 = .ok b → b = .fin (1 / 2)) ∧
      ∀ b, fit bernoulliEst false 1 2 1 rows 0 1 0 ≠ .ok b := by
  intro rows
  have hu : used 1 0 1 0 rows = [(0, 1), (1, 1)] := by
    simp [rows, used, cell, complete, row1]
  have h1 : Usable 1 2 1 rows 0 1 0 := by
    refine ⟨?_, by norm_num, by norm_num, by norm_num, by rw [hu]; norm_num [nTot]⟩
    intro row hrow f c r
    simp only [rows, List.mem_cons, List.not_mem_nil, or_false] at hrow
    rcases hrow with rfl | rfl | rfl <;> norm_num [row1]
  have h2 : ∀ z ∈ used 1 0 1 0 rows, z.1 = 0 ∨ z.1 = 1 := by
    rw [hu]; intro z hz
    simp only [List.mem_cons, List.not_mem_nil, or_false] at hz
    rcases hz with rfl | rfl <;> simp
  refine ⟨h1, h2, ?_, ?_, ?_⟩
  · rw [C48_raises_iff]
    exact ⟨⟨row1 0 1, by simp [rows], 0, by norm_num, by simp [row1]⟩, .inl rfl⟩
  · intro b hb
    obtain ⟨p, rfl, -, -, h3, -⟩ := C48_bernoulli h1 h2 hb
    have := (h3 (by rw [hu]; norm_num [wsum])).1
    rw [this, hu]
    norm_num [wsum, nTot]
  · intro b hb
    have := (C48_raises_iff bernoulliEst false 1 2 1 rows 0 1 0).1 ⟨b, hb⟩
    rcases this.2 with h | h
    · cases h
    · exact h ⟨fun _ => none, fun _ _ _ => 1⟩ (by simp [rows]) 0 (by norm_num) rfl

/-- Non-vacuity of the C58 theorems: rows `1` (weight 1) and `3` (weight 2). -/
theorem C58_example :
    let rows : List Row := [row1 1 1, row1 3 2]
    Usable 1 1 1 rows 0 0 0 ∧ (∀ z ∈ used 1 0 0 0 rows, ∃ k ≤ 5, z.1 = (k : ℕ)) ∧
      0 < wsum id (used 1 0 0 0 rows) ∧ wsum id (used 1 0 0 0 rows) < (5 : ℕ) * nTot (used 1 0 0 0 rows) ∧
      0 < devSq (used 1 0 0 0 rows) ∧
      (∀ {β : Type} (est : List (ℝ × ℝ) → β), ∃ b, fit est false 1 1 1 rows 0 0 0 = .ok b) ∧
      (∀ b, fit poissonEst false 1 1 1 rows 0 0 0 = .ok b → b = .fin (7 / 3)) := by
  intro rows
  have hu : used 1 0 0 0 rows = [(1, 1), (3, 2)] := by
    simp [rows, used, cell, complete, row1]
  have hm : wmean [((1 : ℝ), (1 : ℝ)), (3, 2)] = 7 / 3 := by norm_num [wmean, wsum, nTot]
  have h0 : allNan 1 rows = false := by simp [rows, allNan, row1]
  have h0' : rows.all (complete 1) = true := by simp [rows, complete, row1]
  refine ⟨⟨?_, by norm_num, by norm_num, by norm_num, by rw [hu]; norm_num [nTot]⟩, ?_, ?_, ?_, ?_, ?_, ?_⟩
  · intro row hrow f c r
    simp only [rows, List.mem_cons, List.not_mem_nil, or_false] at hrow
    rcases hrow with rfl | rfl <;> norm_num [row1]
  · rw [hu]; intro z hz
    simp only [List.mem_cons, List.not_mem_nil, or_false] at hz
    rcases hz with rfl | rfl
    · exact ⟨1, by norm_num, by norm_num⟩
    · exact ⟨3, by norm_num, by norm_num⟩
  · rw [hu]; norm_num [wsum]
  · rw [hu]; norm_num [wsum, nTot]
  · rw [hu]; norm_num [devSq, hm, wsum]
  · intro β est
    unfold fit prepare
    rw [h0, h0']
    exact ⟨_, rfl⟩
  · intro b hb
    unfold fit prepare at hb
    rw [h0, h0'] at hb
    simp only [Bool.false_eq_true, if_false, if_true, Except.ok.injEq] at hb
    have h3 : cell 0 0 0 (rescale 1 1 1 rows) = [(1, 2 / 3), (3, 4 / 3)] := by
      norm_num [cell, rescale, rows, row1, totalW]
    rw [h3] at hb
    rw [← hb]
    unfold poissonEst
    rw [fdiv_pos_den (by norm_num [nTot])]
    norm_num [wsum, nTot, edgeLb]

end LeafFit
end Verif

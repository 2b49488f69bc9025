import Verif.MeasuresLaws

/-!
# C59: weight of evidence; witnesses for C40
-/

open MeasureTheory

namespace Verif
namespace Measures

open Circ

/-! ## Numbers -/

theorem clamp_mem {eps : ℝ} (_h0 : 0 < eps) (h1 : eps < 1 / 2) (p : ℝ) : eps ≤ clamp eps p ∧ clamp eps p ≤ 1 - eps := by
  unfold clamp
  exact ⟨le_min (le_max_right _ _) (by linarith), min_le_right _ _⟩

theorem clamp_eq {eps p : ℝ} (h0 : eps ≤ p) (h1 : p ≤ 1 - eps) : clamp eps p = p := by
  unfold clamp; rw [max_eq_left h0, min_eq_left h1]

theorem clamp_mono {eps p q : ℝ} (h : p ≤ q) : clamp eps p ≤ clamp eps q := by
  unfold clamp; exact min_le_min_right _ (max_le_max_right _ h)

theorem logit_lt {p q : ℝ} (h0 : 0 < p) (h1 : q < 1) (h : p < q) : logit p < logit q := by
  unfold logit
  have : p < 1 := h.trans h1
  apply Real.log_lt_log (by have := sub_pos.2 this; positivity)
  rw [div_lt_div_iff₀ (sub_pos.2 this) (sub_pos.2 h1)]
  nlinarith

theorem logit_le {p q : ℝ} (h0 : 0 < p) (h1 : q < 1) (h : p ≤ q) : logit p ≤ logit q := by
  rcases h.eq_or_lt with rfl | h
  · exact le_rfl
  · exact (logit_lt h0 h1 h).le

theorem laplace_lt {n k : ℕ} (hn : 1 ≤ n) {p q : ℝ} (h : p < q) : laplace n k p < laplace n k q := by
  unfold laplace
  have : (0 : ℝ) < n := by exact_mod_cast hn
  have hk : (0 : ℝ) ≤ k := Nat.cast_nonneg _
  gcongr

theorem laplace_mem {n k : ℕ} (hn : 1 ≤ n) (hk : 2 ≤ k) {p : ℝ} (h0 : 0 ≤ p) (h1 : p ≤ 1) :
    1 / ((n : ℝ) + k) ≤ laplace n k p ∧ laplace n k p ≤ 1 - 1 / ((n : ℝ) + k) := by
  unfold laplace
  have hn' : (1 : ℝ) ≤ n := by exact_mod_cast hn
  have hk' : (2 : ℝ) ≤ k := by exact_mod_cast hk
  have hs : (0 : ℝ) < n + k := by linarith
  constructor
  · rw [div_le_div_iff_of_pos_right hs]; nlinarith
  · rw [le_sub_iff_add_le, ← add_div, div_le_one hs]; nlinarith

/-! ## Weight of evidence -/

/-- What the WoE of two conditional probabilities is. -/
noncomputable def woeOf (n k : ℕ) (eps p1 p2 : ℝ) : ℝ := logit (clamp eps (laplace n k p1)) - logit (clamp eps (laplace n k p2))

/-- C59: the weight of evidence is the difference of the log-odds of the Laplace-corrected conditional probabilities; NaN if either
evidence has probability zero; `n < 1` raises. -/
theorem C59_value {μ : Var → Measure ℝ} {m : MC} {R : ℕ} (h : Ok μ m R) {chA rpA : Agg}
    (hc : chA.Known m.circ.C) (hr : rpA.Known R) {d : ℕ} (hd : ∀ v ∈ m.circ.scope.query, v < d) {y : Var}
    (hy0 : 0 ≤ y) {k : ℕ} (hk : HasSize m y k) (t : ℝ) (e1 e2 : Row) (n : ℕ) (eps : ℝ) (ko : Option ℕ) (hko : ko = none ∨ ko = some k) :
    (n < 1 → woe m chA rpA d y t e1 e2 n ko eps = .error .invalidParameter) ∧
    (1 ≤ n → P m R chA rpA (Function.update e1 y none) ≠ 0 → P m R chA rpA (Function.update e2 y none) ≠ 0 →
      woe m chA rpA d y t e1 e2 n ko eps = .ok (some (woeOf n k eps
        (P m R chA rpA (Function.update e1 y (some t)) / P m R chA rpA (Function.update e1 y none))
        (P m R chA rpA (Function.update e2 y (some t)) / P m R chA rpA (Function.update e2 y none))))) ∧
    (1 ≤ n → P m R chA rpA (Function.update e1 y none) = 0 ∨ P m R chA rpA (Function.update e2 y none) = 0 →
      woe m chA rpA d y t e1 e2 n ko eps = .ok none) := by
  have hyd := hd y (hk.mem_scope h)
  have hcard : cardOf m y ko = .ok k := by
    rcases hko with rfl | rfl
    · have hmk : Scope.mk? [y] [] = .ok ⟨[y], []⟩ :=
        (Scope.mk?_ok_iff _ _ _).2 ⟨rfl, ⟨by simpa using hy0, by simp, by simp, by simp, by simp, by simp⟩⟩
      obtain ⟨dom, hi, hs⟩ := (C40_domains m [y]).1 (by simpa using ⟨k, hk⟩)
      unfold cardOf
      rw [hmk]
      simp only [bind, Except.bind, hi, pure, Except.pure]
      rw [(hs y (by simp)).unique hk]
    · rfl
  refine ⟨fun hn => ?_, fun hn h1 h2 => ?_, fun hn h12 => ?_⟩
  · unfold woe; rw [if_pos hn]; rfl
  · unfold woe
    rw [if_neg (by omega), hcard, C40_conditional_probability h hc hr hd hy0 hyd, C40_conditional_probability h hc hr hd hy0 hyd,
      if_neg h1, if_neg h2]
    rfl
  · unfold woe
    rw [if_neg (by omega), hcard, C40_conditional_probability h hc hr hd hy0 hyd, C40_conditional_probability h hc hr hd hy0 hyd]
    rcases h12 with h1 | h2
    · rw [if_pos h1]; rfl
    · rw [if_pos h2]
      split_ifs <;> rfl

/-- C59: laws of the weight of evidence, for conditional probabilities in [0,1] and `0 < eps < 1/2`: swapping the two evidences
changes the sign; equal probabilities give zero; it has the sign of `p1 - p2` (weakly); it is bounded by twice `logit (1 - eps)`. -/
theorem C59_laws {n k : ℕ} (hn : 1 ≤ n) {eps : ℝ} (h0 : 0 < eps) (h1 : eps < 1 / 2) (p1 p2 : ℝ) :
    woeOf n k eps p2 p1 = - woeOf n k eps p1 p2 ∧ woeOf n k eps p1 p1 = 0 ∧
      (p2 ≤ p1 → 0 ≤ woeOf n k eps p1 p2) ∧ |woeOf n k eps p1 p2| ≤ 2 * logit (1 - eps) := by
  have lap : ∀ {p q : ℝ}, p ≤ q → laplace n k p ≤ laplace n k q := by
    intro p q h
    rcases h.eq_or_lt with rfl | h
    · exact le_rfl
    · exact (laplace_lt hn h).le
  refine ⟨by unfold woeOf; ring, by unfold woeOf; ring, fun h => ?_, ?_⟩
  · unfold woeOf
    have a := clamp_mem h0 h1 (laplace n k p2)
    have b := clamp_mem h0 h1 (laplace n k p1)
    have := logit_le (h0.trans_le a.1) (by linarith) (clamp_mono (eps := eps) (lap h))
    linarith
  · have bound : ∀ p, - logit (1 - eps) ≤ logit (clamp eps p) ∧ logit (clamp eps p) ≤ logit (1 - eps) := by
      intro p
      have a := clamp_mem h0 h1 p
      have e : logit eps = - logit (1 - eps) := by
        unfold logit
        rw [← Real.log_inv, inv_div]; congr 2; ring
      exact ⟨by rw [← e]; exact logit_le h0 (by linarith) a.1, logit_le (h0.trans_le a.1) (by linarith) a.2⟩
    unfold woeOf
    have a := bound (laplace n k p1)
    have b := bound (laplace n k p2)
    rw [abs_le]
    constructor <;> linarith

/-- C59: as long as `eps ≤ 1/(n+k)` and the target has at least two values, clamping does nothing: the weight of evidence is the
difference of the Laplace-corrected log-odds, and it is positive exactly when the evidence raises the probability. -/
theorem C59_exact {n k : ℕ} (hn : 1 ≤ n) (hk : 2 ≤ k) {eps : ℝ} (heps : eps ≤ 1 / ((n : ℝ) + k)) {p1 p2 : ℝ}
    (h1 : 0 ≤ p1 ∧ p1 ≤ 1) (h2 : 0 ≤ p2 ∧ p2 ≤ 1) :
    woeOf n k eps p1 p2 = Real.log ((p1 * n + 1) / ((1 - p1) * n + (k - 1)))
        - Real.log ((p2 * n + 1) / ((1 - p2) * n + (k - 1))) ∧
      (0 < woeOf n k eps p1 p2 ↔ p2 < p1) := by
  have hn' : (1 : ℝ) ≤ n := by exact_mod_cast hn
  have hk' : (2 : ℝ) ≤ k := by exact_mod_cast hk
  have hs : (0 : ℝ) < n + k := by linarith
  have cl : ∀ {p : ℝ}, 0 ≤ p ∧ p ≤ 1 → clamp eps (laplace n k p) = laplace n k p := by
    intro p hp
    have := laplace_mem hn hk hp.1 hp.2
    exact clamp_eq (heps.trans this.1) (by linarith [this.2])
  have lo : ∀ {p : ℝ}, 0 ≤ p ∧ p ≤ 1 → logit (laplace n k p) = Real.log ((p * n + 1) / ((1 - p) * n + (k - 1))) := by
    intro p hp
    unfold logit laplace
    congr 1
    have : (0 : ℝ) < (1 - p) * n + (k - 1) := by nlinarith [mul_nonneg (sub_nonneg.2 hp.2) (zero_le_one.trans hn')]
    rw [div_eq_div_iff]
    · field_simp; ring
    · rw [sub_ne_zero]
      intro he
      rw [eq_div_iff hs.ne'] at he
      nlinarith
    · exact this.ne'
  have pos : ∀ {p : ℝ}, 0 ≤ p ∧ p ≤ 1 → 0 < laplace n k p ∧ laplace n k p < 1 := by
    intro p hp
    have := laplace_mem hn hk hp.1 hp.2
    have h3 : 0 < 1 / ((n : ℝ) + k) := by positivity
    exact ⟨h3.trans_le this.1, by linarith [this.2]⟩
  unfold woeOf
  rw [cl h1, cl h2]
  refine ⟨by rw [lo h1, lo h2], ⟨fun hpos => ?_, fun hlt => ?_⟩⟩
  · by_contra hle
    rcases (not_lt.1 hle).eq_or_lt with he | hlt
    · rw [he] at hpos; simp at hpos
    · have := logit_lt (pos h1).1 (pos h2).2 (laplace_lt (k := k) hn hlt)
      linarith
  · have := logit_lt (pos h2).1 (pos h1).2 (laplace_lt (k := k) hn hlt)
    linarith

/-! ## Leave-one-out -/

/-- The table `weight_of_evidence_leave_one_out` returns: for every column other than `y` that is observed in *some* row the WoE of
dropping that column, in every row; unobserved columns and `y` stay NaN. -/
theorem C59_leave_one_out {m : MC} {chA rpA : Agg} {d : ℕ} {y : Var} (hy0 : 0 ≤ y) (hyd : y < d) (t : ℝ) (rows : List Row)
    (n : ℕ) (ko : Option ℕ) (eps : ℝ) (W : Row → ℕ → Option ℝ)
    (hW : ∀ x ∈ rows, ∀ j < d, woe m chA rpA d y t (Function.update x y (some t))
      (Function.update (Function.update x y (some t)) (j : Int) none) n ko eps = .ok (W x j)) :
    ∃ out : List Row, leaveOneOut m chA rpA d y t rows n ko eps = .ok out ∧ out.length = rows.length ∧
      ∀ i (hi : i < rows.length) (ho : i < out.length), out[i] y = none ∧
        ∀ j < d, (j : Int) ≠ y → out[i] j = if (∃ x ∈ rows, x j ≠ none) then W rows[i] j else none := by
  have step : ∀ c ≤ d, ∃ out : List Row,
      (List.range c).foldlM (fun out (j : ℕ) =>
        if (j : Int) = y then .ok out
        else if rows.all (fun x => (x j).isNone) then .ok out
        else do
          let ws ← rows.mapM fun x =>
            let base := Function.update x y (some t)
            woe m chA rpA d y t base (Function.update base (j : Int) none) n ko eps
          return List.zipWith (fun o w => Function.update o (j : Int) w) out ws)
        (rows.map fun x => Function.update x y none) = (.ok out : Except Exc (List Row)) ∧ out.length = rows.length ∧
      ∀ i (hi : i < rows.length) (ho : i < out.length), out[i] y = none ∧
        ∀ j : ℕ, (j : Int) ≠ y → out[i] j = if j < c then (if (∃ x ∈ rows, x j ≠ none) then W rows[i] j else none)
          else rows[i] j := by
    intro c hc
    induction c with
    | zero =>
      refine ⟨_, rfl, by simp, fun i hi ho => ⟨by simp, fun j hj => ?_⟩⟩
      simp [Function.update_of_ne hj]
    | succ c ih =>
      obtain ⟨out, ho, hl, hout⟩ := ih (by omega)
      rw [List.range_succ, List.foldlM_append, ho]
      simp only [List.foldlM_cons, List.foldlM_nil, bind, Except.bind]
      by_cases hcy : (c : Int) = y
      · rw [if_pos hcy]
        refine ⟨out, rfl, hl, fun i hi ho => ⟨(hout i hi ho).1, fun j hj => ?_⟩⟩
        rw [(hout i hi ho).2 j hj]
        have : j ≠ c := fun h => hj (h ▸ hcy)
        by_cases hjc : j < c
        · rw [if_pos hjc, if_pos (show j < c + 1 by omega)]
        · rw [if_neg hjc, if_neg (show ¬ j < c + 1 by omega)]
      · rw [if_neg hcy]
        by_cases hall : (rows.all fun x => (x c).isNone) = true
        · rw [if_pos hall]
          refine ⟨out, rfl, hl, fun i hi ho => ⟨(hout i hi ho).1, fun j hj => ?_⟩⟩
          rw [(hout i hi ho).2 j hj]
          rw [List.all_eq_true] at hall
          by_cases hjc : j < c
          · rw [if_pos hjc, if_pos (show j < c + 1 by omega)]
          · rw [if_neg hjc]
            by_cases hje : j = c
            · subst hje
              rw [if_pos (show j < j + 1 by omega), if_neg]
              · simpa using hall _ (List.getElem_mem hi)
              · rintro ⟨x, hx, hne⟩
                exact hne (by simpa using hall x hx)
            · rw [if_neg (show ¬ j < c + 1 by omega)]
        · rw [if_neg hall]
          have hm : (rows.mapM fun x => woe m chA rpA d y t (Function.update x y (some t))
              (Function.update (Function.update x y (some t)) (c : Int) none) n ko eps) = .ok (rows.map fun x => W x c) := by
            have : ∀ l : List Row, (∀ x ∈ l, x ∈ rows) → (l.mapM fun x => woe m chA rpA d y t (Function.update x y (some t))
              (Function.update (Function.update x y (some t)) (c : Int) none) n ko eps) = .ok (l.map fun x => W x c) := by
              intro l hlr
              induction l with
              | nil => rfl
              | cons x l ihl =>
                rw [List.mapM_cons, hW x (hlr x (by simp)) c (by omega), ihl fun z hz => hlr z (by simp [hz])]; rfl
            exact this rows fun _ h => h
          rw [hm]
          refine ⟨_, rfl, by simp [hl], fun i hi ho => ?_⟩
          have hio : i < out.length := by rw [hl]; exact hi
          simp only [List.getElem_zipWith, List.getElem_map]
          refine ⟨?_, fun j hj => ?_⟩
          · rw [Function.update_of_ne (fun h => hcy h.symm)]; exact (hout i hi hio).1
          · by_cases hje : j = c
            · subst hje
              rw [Function.update_self, if_pos (show j < j + 1 by omega), if_pos]
              simp only [List.all_eq_true, not_forall] at hall
              obtain ⟨x, hx, hne⟩ := hall
              exact ⟨x, hx, by simpa using hne⟩
            · rw [Function.update_of_ne (by exact_mod_cast hje), (hout i hi hio).2 j hj]
              by_cases hjc : j < c
              · rw [if_pos hjc, if_pos (show j < c + 1 by omega)]
              · rw [if_neg hjc, if_neg (show ¬ j < c + 1 by omega)]
  obtain ⟨out, ho, hl, hout⟩ := step d le_rfl
  refine ⟨out, ?_, hl, fun i hi ho => ⟨(hout i hi ho).1, fun j hj hjy => ?_⟩⟩
  · unfold leaveOneOut
    rw [if_neg (not_or.2 ⟨not_le.2 hyd, not_lt.2 hy0⟩)]
    exact ho
  · rw [(hout i hi ho).2 j hjy, if_pos hj]

/-- C59 (violated): the documentation promises NaN where the entry is missing; in a batch in which another row has that entry the cell is
`0` instead. -/
theorem C59_missing_cell_is_zero {μ : Var → Measure ℝ} {m : MC} {R : ℕ} (h : Ok μ m R) {chA rpA : Agg}
    (hc : chA.Known m.circ.C) (hr : rpA.Known R) {d : ℕ} (hd : ∀ v ∈ m.circ.scope.query, v < d) {y : Var}
    (hy0 : 0 ≤ y) {k : ℕ} (hk : HasSize m y k) (t : ℝ) {n : ℕ} (hn : 1 ≤ n) (eps : ℝ) {x : Row} {j : Var} (hjy : j ≠ y)
    (hj : x j = none) (hpos : P m R chA rpA (Function.update x y none) ≠ 0) :
    woe m chA rpA d y t (Function.update x y (some t)) (Function.update (Function.update x y (some t)) j none) n none eps
      = .ok (some 0) := by
  have e : Function.update (Function.update x y (some t)) j none = Function.update x y (some t) := by
    rw [Function.update_eq_iff]
    refine ⟨by rw [Function.update_of_ne hjy, hj], fun _ _ => rfl⟩
  rw [e]
  have := (C59_value h hc hr hd hy0 hk t (Function.update x y (some t)) (Function.update x y (some t)) n eps none (.inl rfl)).2.1 hn
    (by simpa using hpos) (by simpa using hpos)
  rw [this]
  simp [woeOf]

end Measures
end Verif

import Verif.PwlProps
import Mathlib.Tactic.GCongr

/-!
# C72: bin edges, histograms and the fitted curve
-/

namespace Verif.Pwl

open Finset

/-! ## Bin edges -/

theorem foldr_min_le (l : List ℝ) (v : ℝ) : l.foldr min v ≤ v ∧ ∀ w ∈ l, l.foldr min v ≤ w := by
  induction l with
  | nil => simp
  | cons a l ih =>
    simp only [List.foldr_cons, List.mem_cons, forall_eq_or_imp]
    exact ⟨(min_le_right _ _).trans ih.1, min_le_left _ _, fun w hw => (min_le_right _ _).trans (ih.2 w hw)⟩

theorem le_foldr_max (l : List ℝ) (v : ℝ) : v ≤ l.foldr max v ∧ ∀ w ∈ l, w ≤ l.foldr max v := by
  induction l with
  | nil => simp
  | cons a l ih =>
    simp only [List.foldr_cons, List.mem_cons, forall_eq_or_imp]
    exact ⟨ih.1.trans (le_max_right _ _), le_max_left _ _, fun w hw => (ih.2 w hw).trans (le_max_right _ _)⟩

theorem minL_le {a : List ℝ} {v : ℝ} (hv : v ∈ a) : minL a ≤ v := by
  cases a with
  | nil => simp at hv
  | cons w l =>
    rcases List.mem_cons.1 hv with rfl | hv
    · exact (foldr_min_le l _).1
    · exact (foldr_min_le l w).2 v hv

theorem le_maxL {a : List ℝ} {v : ℝ} (hv : v ∈ a) : v ≤ maxL a := by
  cases a with
  | nil => simp at hv
  | cons w l =>
    rcases List.mem_cons.1 hv with rfl | hv
    · exact (le_foldr_max l _).1
    · exact (le_foldr_max l w).2 v hv

theorem outer_spec {a : List ℝ} {rb : Option (ℝ × ℝ)} {e : ℝ × ℝ} (h : outerEdges a rb = .ok e) :
    e.1 < e.2 ∧ (rb = none → ∀ v ∈ a, e.1 ≤ v ∧ v ≤ e.2) ∧
      (rb = none → minL a < maxL a → e = (minL a, maxL a)) ∧
      (∀ lo hi, rb = some (lo, hi) → lo < hi → e = (lo, hi)) := by
  have widen : ∀ p : ℝ × ℝ, p.1 ≤ p.2 → ∀ q : ℝ × ℝ,
      q = (open Classical in if p.1 = p.2 then ((p.1 - 1 / 2, p.2 + 1 / 2) : ℝ × ℝ) else p) →
      q.1 < q.2 ∧ q.1 ≤ p.1 ∧ p.2 ≤ q.2 ∧ (p.1 < p.2 → q = p) := by
    intro p hp q hq
    by_cases he : p.1 = p.2
    · rw [if_pos he] at hq
      subst hq
      refine ⟨?_, ?_, ?_, fun hlt => absurd he hlt.ne⟩ <;> simp <;> linarith
    · rw [if_neg he] at hq
      subst hq
      exact ⟨lt_of_le_of_ne hp he, le_rfl, le_rfl, fun _ => rfl⟩
  unfold outerEdges at h
  cases rb with
  | some p =>
    obtain ⟨lo, hi⟩ := p
    dsimp only at h
    by_cases hlt : hi < lo
    · rw [if_pos hlt] at h; cases h
    · rw [if_neg hlt] at h
      injection h with h
      obtain ⟨h1, h2, h3, h4⟩ := widen (lo, hi) (not_lt.1 hlt) e h.symm
      refine ⟨h1, by simp, by simp, ?_⟩
      intro lo' hi' heq hlt'
      injection heq with heq
      obtain ⟨rfl, rfl⟩ := Prod.mk.inj heq
      exact h4 hlt'
  | none =>
    dsimp only at h
    by_cases ha : a = []
    · rw [if_pos ha] at h
      injection h with h
      obtain ⟨h1, h2, h3, h4⟩ := widen (0, 1) (by norm_num) e h.symm
      refine ⟨h1, fun _ => by simp [ha], ?_, by simp⟩
      intro _ hlt
      rw [ha] at hlt
      simp [minL, maxL] at hlt
    · rw [if_neg ha] at h
      injection h with h
      have hle : minL a ≤ maxL a := by
        obtain ⟨v, hv⟩ := List.exists_mem_of_ne_nil a ha
        exact (minL_le hv).trans (le_maxL hv)
      obtain ⟨h1, h2, h3, h4⟩ := widen (minL a, maxL a) hle e h.symm
      exact ⟨h1, fun _ v hv => ⟨h2.trans (minL_le hv), (le_maxL hv).trans h3⟩, fun _ hlt => h4 hlt, by simp⟩

theorem numBins_pos (a : List ℝ) {e : ℝ × ℝ} (he : e.1 < e.2) : 1 ≤ numBins a e := by
  unfold numBins
  by_cases ha : a = []
  · rw [if_pos ha]
  · rw [if_neg ha]
    by_cases hw : 0 < autoWidth a
    · rw [if_pos hw]
      exact Nat.one_le_ceil_iff.2 (div_pos (sub_pos.2 he) hw)
    · rw [if_neg hw]

theorem linspace_zero (e : ℝ × ℝ) (n : ℕ) : linspace e n 0 = e.1 := by simp [linspace]

theorem linspace_last (e : ℝ × ℝ) {n : ℕ} (hn : 1 ≤ n) : linspace e n n = e.2 := by
  have : (n : ℝ) ≠ 0 := by positivity
  unfold linspace
  field_simp
  ring

theorem linspace_step (e : ℝ × ℝ) (n i : ℕ) : linspace e n (i + 1) - linspace e n i = (e.2 - e.1) / n := by
  unfold linspace
  push_cast
  ring

theorem linspace_lt {e : ℝ × ℝ} (he : e.1 < e.2) {n : ℕ} (hn : 1 ≤ n) (i : ℕ) : linspace e n i < linspace e n (i + 1) := by
  have : 0 < (e.2 - e.1) / n := div_pos (sub_pos.2 he) (by positivity)
  linarith [linspace_step e n i]

/-! ## Histograms -/

/-- Increasing breaks. -/
def Inc (nb : ℕ) (b : ℕ → ℝ) : Prop := ∀ i < nb, b i < b (i + 1)

theorem Inc.le {nb : ℕ} {b : ℕ → ℝ} (h : Inc nb b) {i j : ℕ} (hij : i ≤ j) (hj : j ≤ nb) : b i ≤ b j := by
  induction j, hij using Nat.le_induction with
  | base => exact le_rfl
  | succ j hj' ih => exact (ih (by omega)).trans (h j (by omega)).le

theorem bin_exists {nb : ℕ} {b : ℕ → ℝ} (hnb : 1 ≤ nb) {v : ℝ} (h0 : b 0 ≤ v) (h1 : v ≤ b nb) :
    ∃ i < nb, InBin nb b i v := by
  classical
  rcases h1.eq_or_lt with rfl | h1
  · by_cases hb : b (nb - 1) ≤ b nb
    · exact ⟨nb - 1, by omega, hb, Or.inr ⟨by omega, le_rfl⟩⟩
    · push Not at hb
      have hex : ∃ j, b nb < b j := ⟨nb - 1, hb⟩
      have hmin := Nat.find_spec hex
      have hle : Nat.find hex ≤ nb - 1 := Nat.find_min' hex hb
      have hne : Nat.find hex ≠ 0 := by intro hz; rw [hz] at hmin; linarith
      have := Nat.find_min hex (m := Nat.find hex - 1) (by omega)
      refine ⟨Nat.find hex - 1, by omega, not_lt.1 this, Or.inl ?_⟩
      rw [Nat.sub_add_cancel (by omega)]
      exact hmin
  · have hex : ∃ j, v < b j := ⟨nb, h1⟩
    have hmin := Nat.find_spec hex
    have hle : Nat.find hex ≤ nb := Nat.find_min' hex h1
    have hne : Nat.find hex ≠ 0 := by intro hz; rw [hz] at hmin; linarith
    have := Nat.find_min hex (m := Nat.find hex - 1) (by omega)
    refine ⟨Nat.find hex - 1, by omega, not_lt.1 this, Or.inl ?_⟩
    rw [Nat.sub_add_cancel (by omega)]
    exact hmin

theorem bin_unique {nb : ℕ} {b : ℕ → ℝ} (h : Inc nb b) {v : ℝ} {i j : ℕ} (hi : i < nb) (hj : j < nb)
    (h1 : InBin nb b i v) (h2 : InBin nb b j v) : i = j := by
  have key : ∀ {i j : ℕ}, i < nb → j < nb → InBin nb b i v → InBin nb b j v → ¬ i < j := by
    intro i j hi hj h1 h2 hlt
    have := h.le (i := i + 1) (j := j) (by omega) (by omega)
    rcases h1.2 with h3 | ⟨h3, -⟩
    · linarith [h2.1]
    · omega
  have := key hi hj h1 h2
  have := key hj hi h2 h1
  omega

open Classical in
theorem total_eq {nb : ℕ} {b : ℕ → ℝ} (hnb : 1 ≤ nb) (h : Inc nb b) (data : List ℝ) :
    total data nb b = data.countP fun v => b 0 ≤ v ∧ v ≤ b nb := by
  unfold total count
  induction data with
  | nil => simp
  | cons v data ih =>
    simp only [List.countP_cons, sum_add_distrib, ih]
    congr 1
    by_cases hv : b 0 ≤ v ∧ v ≤ b nb
    · obtain ⟨i, hi, hb⟩ := bin_exists hnb hv.1 hv.2
      rw [sum_eq_single i]
      · simp [hb, hv]
      · intro j hj hne
        have : ¬ InBin nb b j v := fun hc => hne (bin_unique h (mem_range.1 hj) hi hc hb)
        simp [this]
      · intro hc; exact absurd (mem_range.2 hi) hc
    · rw [sum_eq_zero]
      · simp [hv]
      · intro j hj
        have hj := mem_range.1 hj
        have : ¬ InBin nb b j v := by
          intro hc
          apply hv
          refine ⟨(h.le (i := 0) (j := j) (by omega) (by omega)).trans hc.1, ?_⟩
          rcases hc.2 with h3 | ⟨-, h3⟩
          · exact h3.le.trans (h.le (by omega) le_rfl)
          · exact h3
        simp [this]

theorem total_all {nb : ℕ} {b : ℕ → ℝ} (hnb : 1 ≤ nb) (h : Inc nb b) {data : List ℝ}
    (hd : ∀ v ∈ data, b 0 ≤ v ∧ v ≤ b nb) : total data nb b = data.length := by
  classical
  rw [total_eq hnb h, List.countP_eq_length]
  intro v hv
  simpa using hd v hv

/-! ## Normalisation -/

theorem auc_div (len : ℕ) (x y : ℕ → ℝ) (A : ℝ) : auc len x (fun i => y i / A) = auc len x y / A := by
  unfold auc
  rw [sum_div]
  refine sum_congr rfl fun j _ => ?_
  unfold trap
  ring

theorem withTails_nonneg {nb : ℕ} {d : ℕ → ℝ} (hd : ∀ i < nb, 0 ≤ d i) (i : ℕ) : 0 ≤ withTails nb d i := by
  unfold withTails
  split_ifs with h1 h2
  · exact le_rfl
  · exact hd _ (by omega)
  · exact le_rfl

theorem withTails_succ {nb i : ℕ} (d : ℕ → ℝ) (hi : i < nb) : withTails nb d (i + 1) = d i := by
  unfold withTails
  rw [if_neg (by omega), if_pos (by omega), Nat.add_sub_cancel]

theorem auc_pos {nb : ℕ} {x d : ℕ → ℝ} (hx : ∀ j, j + 1 < nb + 2 → x j < x (j + 1)) (hd : ∀ i < nb, 0 ≤ d i)
    (hp : ∃ i < nb, 0 < d i) : 0 < auc (nb + 2) x (withTails nb d) := by
  obtain ⟨i, hi, hdi⟩ := hp
  unfold auc
  apply sum_pos'
  · intro j hj
    have := hx j (by have := mem_range.1 hj; omega)
    have h1 := withTails_nonneg hd j
    have h2 := withTails_nonneg hd (j + 1)
    unfold trap
    have := mul_nonneg (sub_nonneg.2 this.le) (add_nonneg h1 h2)
    linarith
  · refine ⟨i, mem_range.2 (by omega), ?_⟩
    have := hx i (by omega)
    have h1 := withTails_nonneg hd i
    unfold trap
    rw [withTails_succ d hi]
    have := mul_pos (sub_pos.2 this) (by linarith : 0 < withTails nb d i + d i)
    linarith

/-- What a well-defined normalisation gives. -/
theorem mkCurve_spec {nb : ℕ} {x d : ℕ → ℝ} (hx : ∀ j, j + 1 < nb + 2 → x j < x (j + 1)) (hd : ∀ i < nb, 0 ≤ d i)
    (hp : ∃ i < nb, 0 < d i) :
    Good (mkCurve nb x d false) ∧ auc (mkCurve nb x d false).len (mkCurve nb x d false).x (mkCurve nb x d false).y = 1 ∧
      (mkCurve nb x d false).nan = false ∧ (mkCurve nb x d false).len = nb + 2 ∧ (mkCurve nb x d false).x = x ∧
      (∀ i < nb, (mkCurve nb x d false).y (i + 1) = d i / auc (nb + 2) x (withTails nb d)) := by
  have hA := auc_pos hx hd hp
  have hy : (mkCurve nb x d false).y = fun i => withTails nb d i / auc (nb + 2) x (withTails nb d) := by
    unfold mkCurve
    exact if_pos ⟨rfl, hA⟩
  refine ⟨⟨by simp [mkCurve], hx, ?_, ?_, ?_⟩, ?_, rfl, rfl, rfl, ?_⟩
  · intro j _
    rw [hy]
    exact div_nonneg (withTails_nonneg hd j) hA.le
  · rw [hy]; simp [withTails]
  · rw [hy]; simp [withTails, mkCurve]
  · rw [hy]
    show auc (nb + 2) x _ = 1
    rw [auc_div]
    exact div_self hA.ne'
  · intro i hi
    rw [hy]
    beta_reduce
    rw [withTails_succ d hi]

/-! ## The fitted curve -/

theorem raw_pos {data : List ℝ} {nb : ℕ} {b : ℕ → ℝ} (hnb : 1 ≤ nb) (h : Inc nb b)
    (hd : data = [] ∨ ∃ v ∈ data, b 0 ≤ v ∧ v ≤ b nb) :
    (rawDensity data nb b).2 = false ∧ (∀ i < nb, 0 ≤ (rawDensity data nb b).1 i) ∧
      ∃ i < nb, 0 < (rawDensity data nb b).1 i := by
  classical
  unfold rawDensity
  rcases hd with rfl | ⟨v, hv, h0, h1⟩
  · have : (0 : ℝ) < nb := by positivity
    simp only [List.length_nil, if_true]
    exact ⟨trivial, fun i _ => by positivity, 0, by omega, by positivity⟩
  · have hl : data.length ≠ 0 := by
      rw [List.length_eq_zero_iff.ne]; rintro rfl; simp at hv
    rw [if_neg hl]
    have ht : 0 < total data nb b := by
      rw [total_eq hnb h, List.countP_pos_iff]
      exact ⟨v, hv, by simpa using ⟨h0, h1⟩⟩
    unfold histDensity
    rw [if_neg ht.ne']
    have htr : (0 : ℝ) < total data nb b := by exact_mod_cast ht
    refine ⟨rfl, fun i hi => ?_, ?_⟩
    · have := sub_pos.2 (h i hi)
      positivity
    · obtain ⟨i, hi, hb⟩ := bin_exists hnb h0 h1
      refine ⟨i, hi, ?_⟩
      have hc : 0 < count data nb b i := by
        unfold count
        rw [List.countP_pos_iff]
        exact ⟨v, hv, by simpa using hb⟩
      have := sub_pos.2 (h i hi)
      positivity

theorem smooth_pos {α : ℝ} (hα : 0 ≤ α) {n nb : ℕ} (hnb : 1 ≤ nb) {d : ℕ → ℝ} (hd : ∀ i < nb, 0 ≤ d i) (hp : ∃ i < nb, 0 < d i) :
    (∀ i < nb, 0 ≤ smooth α n nb d i) ∧ ∃ i < nb, 0 < smooth α n nb d i := by
  unfold smooth
  rcases hα.eq_or_lt with rfl | hα
  · simp only [lt_irrefl, if_false]
    exact ⟨hd, hp⟩
  · simp only [hα, if_true]
    have hnb' : (0 : ℝ) < nb := by positivity
    refine ⟨fun i hi => ?_, 0, by omega, ?_⟩
    · have := hd i hi
      positivity
    · have := hd 0 (by omega)
      positivity

theorem breaksD_inc {vs : List ℝ} (hs : vs.Pairwise (· < ·)) : Inc vs.length (breaksD vs) := by
  intro i hi
  unfold breaksD
  rw [if_pos hi]
  by_cases h1 : i + 1 < vs.length
  · rw [if_pos h1, List.getD_eq_getElem _ _ hi, List.getD_eq_getElem _ _ h1]
    exact List.pairwise_iff_getElem.1 hs i (i + 1) hi h1 (by omega)
  · rw [if_neg h1, List.getD_eq_getElem _ _ hi]
    have : vs.getLastD 0 = vs[i] := by
      rw [List.getLastD_eq_getLast?, List.getLast?_eq_getElem?]
      have : vs.length - 1 = i := by omega
      rw [this, List.getElem?_eq_getElem hi]
      rfl
    rw [this]
    linarith

theorem pointsD_inc {vs : List ℝ} (hv : vs ≠ []) (hs : vs.Pairwise (· < ·)) (j : ℕ) (hj : j + 1 < vs.length + 2) :
    pointsD vs j < pointsD vs (j + 1) := by
  have hl : 1 ≤ vs.length := List.length_pos_of_ne_nil hv
  unfold pointsD
  rcases Nat.eq_zero_or_pos j with rfl | hp
  · rw [if_pos rfl, if_neg (by omega), if_pos (by omega)]
    simp
  · rw [if_neg (show ¬ j = 0 by omega), if_neg (show ¬ j + 1 = 0 by omega), if_pos (show j ≤ vs.length by omega),
      Nat.add_sub_cancel]
    have := breaksD_inc hs (j - 1) (by omega)
    unfold breaksD at this
    rw [Nat.sub_add_cancel hp, if_pos (show j - 1 < vs.length by omega)] at this
    by_cases h1 : j + 1 ≤ vs.length
    · rw [if_pos h1]
      rwa [if_pos (show j < vs.length by omega)] at this
    · rw [if_neg h1]
      rwa [if_neg (show ¬ j < vs.length by omega)] at this

theorem pointsC_inc {nb : ℕ} {b : ℕ → ℝ} (hnb : 1 ≤ nb) (h : Inc nb b) (j : ℕ) (hj : j + 1 < nb + 2) :
    pointsC nb b j < pointsC nb b (j + 1) := by
  unfold pointsC
  rcases Nat.eq_zero_or_pos j with rfl | hp
  · rw [if_pos rfl, if_neg (by omega), if_pos (by omega)]
    have := h 0 (by omega)
    simp only [Nat.zero_add, Nat.sub_self]
    have : (0 : ℝ) < 1 / 10 ^ 8 := by positivity
    simp only [Nat.zero_add] at *
    linarith
  · rw [if_neg (show ¬ j = 0 by omega), if_neg (show ¬ j + 1 = 0 by omega), if_pos (show j ≤ nb by omega),
      Nat.add_sub_cancel]
    have h1 := h (j - 1) (by omega)
    rw [Nat.sub_add_cancel hp] at h1
    by_cases h2 : j + 1 ≤ nb
    · rw [if_pos h2]
      have h3 := h j (by omega)
      linarith
    · rw [if_neg h2]
      have : j = nb := by omega
      subst this
      have : (0 : ℝ) < 1 / 10 ^ 8 := by positivity
      linarith

/-- The data and the domain of one cell fit together: a discrete domain lists increasing values and, unless the cluster is
empty, some data point lies between the first value and one past the last; an empty cluster of a continuous feature needs
domain bounds in order. -/
def Fits : Domain → List ℝ → Prop
  | .discrete vs, data => vs ≠ [] ∧ vs.Pairwise (· < ·) ∧
      (data = [] ∨ ∃ v ∈ data, vs.getD 0 0 ≤ v ∧ v ≤ vs.getLastD 0 + 1)
  | .continuous lo hi, data => data ≠ [] ∨ pyOr lo 0 < pyOr hi 1
  | .other, _ => False

theorem breaksD_ends {vs : List ℝ} (hv : vs ≠ []) : breaksD vs 0 = vs.getD 0 0 ∧ breaksD vs vs.length = vs.getLastD 0 + 1 := by
  have hl : 1 ≤ vs.length := List.length_pos_of_ne_nil hv
  unfold breaksD
  rw [if_pos (by omega), if_neg (by omega)]
  exact ⟨rfl, rfl⟩

theorem cell_discrete {α : ℝ} (hα : 0 ≤ α) {vs data : List ℝ} (h : Fits (.discrete vs) data) :
    ∃ c, cell α (.discrete vs) data = .ok c ∧ Good c ∧ auc c.len c.x c.y = 1 ∧ c.nan = false ∧ c.len = vs.length + 2 ∧
      c.x = pointsD vs ∧ ∀ i < vs.length, c.y (i + 1)
        = smooth α data.length vs.length (rawDensity data vs.length (breaksD vs)).1 i
          / auc (vs.length + 2) (pointsD vs)
            (withTails vs.length (smooth α data.length vs.length (rawDensity data vs.length (breaksD vs)).1)) := by
  obtain ⟨hv, hs, hd⟩ := h
  have hl : 1 ≤ vs.length := List.length_pos_of_ne_nil hv
  obtain ⟨e0, e1⟩ := breaksD_ends hv
  obtain ⟨r1, r2, r3⟩ := raw_pos hl (breaksD_inc hs) (data := data) (by rwa [e0, e1])
  obtain ⟨s1, s2⟩ := smooth_pos hα (n := data.length) hl r2 r3
  have hm := mkCurve_spec (pointsD_inc hv hs) s1 s2
  refine ⟨_, ?_, hm⟩
  unfold cell
  dsimp only
  rw [if_neg (by omega), r1]

theorem breaksC_spec {lo hi : Option ℝ} {data : List ℝ} (h : Fits (.continuous lo hi) data) :
    ∃ e, breaksC lo hi data = .ok e ∧ e.1.1 < e.1.2 ∧ 1 ≤ e.2 ∧ (∀ v ∈ data, e.1.1 ≤ v ∧ v ≤ e.1.2) := by
  unfold breaksC
  by_cases hd : data.length = 0
  · have hd' : data = [] := List.length_eq_zero_iff.1 hd
    rw [if_pos hd]
    refine ⟨_, rfl, ?_, by norm_num, by simp [hd']⟩
    rcases h with h | h
    · exact absurd hd' h
    · exact h
  · rw [if_neg hd]
    have hne : data ≠ [] := by rintro rfl; simp at hd
    obtain ⟨e, he⟩ : ∃ e, outerEdges data none = .ok e := by
      unfold outerEdges
      dsimp only
      rw [if_neg hne]
      exact ⟨_, rfl⟩
    obtain ⟨h1, h2, -, -⟩ := outer_spec he
    refine ⟨(e, numBins (clip data none e) e), ?_, h1, numBins_pos _ h1, h2 rfl⟩
    unfold binEdges
    rw [he]
    rfl

theorem cell_continuous {α : ℝ} (hα : 0 ≤ α) {lo hi : Option ℝ} {data : List ℝ} (h : Fits (.continuous lo hi) data) :
    ∃ e c, breaksC lo hi data = .ok e ∧ cell α (.continuous lo hi) data = .ok c ∧ Good c ∧ auc c.len c.x c.y = 1 ∧
      c.nan = false ∧ c.len = e.2 + 2 ∧
      c.x = pointsC e.2 (linspace e.1 e.2) ∧ ∀ i < e.2, c.y (i + 1)
        = smooth α data.length e.2 (rawDensity data e.2 (linspace e.1 e.2)).1 i
          / auc (e.2 + 2) (pointsC e.2 (linspace e.1 e.2))
            (withTails e.2 (smooth α data.length e.2 (rawDensity data e.2 (linspace e.1 e.2)).1)) := by
  obtain ⟨e, he, hlt, hn, hcov⟩ := breaksC_spec h
  have hinc : Inc e.2 (linspace e.1 e.2) := fun i _ => linspace_lt hlt hn i
  obtain ⟨r1, r2, r3⟩ := raw_pos hn hinc (data := data) (by
    by_cases hd : data = []
    · exact Or.inl hd
    · obtain ⟨v, hv⟩ := List.exists_mem_of_ne_nil data hd
      exact Or.inr ⟨v, hv, by rw [linspace_zero, linspace_last _ hn]; exact hcov v hv⟩)
  obtain ⟨s1, s2⟩ := smooth_pos hα (n := data.length) hn r2 r3
  have hm := mkCurve_spec (pointsC_inc hn hinc) s1 s2
  refine ⟨e, _, he, ?_, hm⟩
  unfold cell
  dsimp only
  rw [he]
  simp only [bind, Except.bind]
  rw [r1]

theorem cell_ok {α : ℝ} (hα : 0 ≤ α) {dom : Domain} {data : List ℝ} (h : Fits dom data) :
    ∃ c, cell α dom data = .ok c ∧ Good c ∧ auc c.len c.x c.y = 1 ∧ c.nan = false := by
  cases dom with
  | discrete vs =>
    obtain ⟨c, h1, h2, h3, h4, -⟩ := cell_discrete hα h
    exact ⟨c, h1, h2, h3, h4⟩
  | continuous lo hi =>
    obtain ⟨e, c, -, h1, h2, h3, h4, -⟩ := cell_continuous hα h
    exact ⟨c, h1, h2, h3, h4⟩
  | other => exact h.elim

end Verif.Pwl

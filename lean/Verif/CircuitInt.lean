import Verif.CircuitLemmas
import Mathlib.MeasureTheory.Integral.Marginal

/-! Helper lemmas: integrating circuit likelihoods one variable at a time. -/

open MeasureTheory

namespace Verif
namespace Circ

/-! ### feature scopes, module by module -/

theorem fscope_leaf {q : List Var} {C R : ℕ} {d} {f : ℕ} {v : Var} (h : q[f]? = some v) :
    fscope (leaf q C R d) f = {v} := by
  simp [fscope, den, List.getElem?_mapIdx, h]

theorem fscope_cat1 {n : ℕ} {cs : Fin n → Circ} (i : Fin n) {j : ℕ} (hj : j < F (cs i)) :
    fscope (cat1 n cs) (offF cs i + j) = fscope (cs i) j := by
  have key := flatten_getElem? (List.ofFn fun i : Fin n => den (cs i)) i j (by simp)
    (by simpa [den_length] using hj)
  simp only [List.map_ofFn, Function.comp_def, den_length, List.getElem_ofFn, Fin.eta] at key
  unfold fscope offF
  rw [den, key]

theorem fscope_eq_map (c : Circ) (f : ℕ) : fscope c f = (((den c).map Feat.scope)[f]?).getD ∅ := by
  simp [fscope]

theorem fscope_cat2 {n : ℕ} {cs : Fin n → Circ}
    (hal : ∀ i j : Fin n, (den (cs i)).map Feat.scope = (den (cs j)).map Feat.scope) (i : Fin n) (f : ℕ) :
    fscope (cat2 n cs) f = fscope (cs i) f := by
  rw [fscope_eq_map, fscope_eq_map, map_scope_cat2 cs i.pos, hal ⟨0, i.pos⟩ i]

theorem fscope_sum (c : Circ) (Co R : ℕ) (θ) (f : ℕ) : fscope (sum c Co R θ) f = fscope c f := by
  rw [fscope_eq_map, fscope_eq_map, map_scope_sum]

theorem mem_fscope_prod (c : Circ) (v : Var) : v ∈ fscope (prod c) 0 ↔ ∃ f < F c, v ∈ fscope c f := by
  simp only [fscope, den, List.getElem?_cons_zero, Option.map_some, Option.getD_some, mem_foldr_union]
  constructor
  · rintro ⟨s, hs, hv⟩
    obtain ⟨u, hu, rfl⟩ := List.mem_map.1 hs
    obtain ⟨i, hi, rfl⟩ := List.mem_iff_getElem.1 hu
    exact ⟨i, by rwa [← den_length], by simpa [hi] using hv⟩
  · rintro ⟨f, hf, hv⟩
    have hf' : f < (den c).length := by rwa [den_length]
    exact ⟨(den c)[f].scope, List.mem_map_of_mem (List.getElem_mem hf'), by simpa [hf'] using hv⟩

/-- Features of an accepted module have disjoint scopes. -/
theorem fscope_disjoint {c : Circ} (h : Accepted c) {f g : ℕ} (hf : f < F c) (hg : g < F c) (hne : f ≠ g) :
    Disjoint (fscope c f) (fscope c g) := by
  have hp := (scope_facts h).2.2.2
  rw [List.pairwise_iff_getElem] at hp
  have hf' : f < (den c).length := by rwa [den_length]
  have hg' : g < (den c).length := by rwa [den_length]
  simp only [fscope, List.getElem?_eq_getElem hf', List.getElem?_eq_getElem hg', Option.map_some, Option.getD_some]
  rcases lt_or_gt_of_ne hne with h | h
  · exact hp f g hf' hg' h
  · exact (hp g f hg' hf' h).symm

theorem mem_scope_iff {c : Circ} (h : Accepted c) (v : Var) :
    v ∈ (scope c).query ↔ ∃ f < F c, v ∈ fscope c f := by
  rw [(scope_facts h).2.2.1 v]
  constructor
  · rintro ⟨u, hu, hv⟩
    obtain ⟨i, hi, rfl⟩ := List.mem_iff_getElem.1 hu
    exact ⟨i, by rwa [← den_length], by simpa [fscope, hi] using hv⟩
  · rintro ⟨f, hf, hv⟩
    have hf' : f < (den c).length := by rwa [den_length]
    exact ⟨(den c)[f], by simp, by simpa [fscope, hf'] using hv⟩

/-! ### likelihoods depend only on the variables in the feature's scope -/

theorem featAt_local {c : Circ} (h : Accepted c) (hal : Aligned c) {r : ℕ} {x y : Row} :
    ∀ {f ch : ℕ}, f < F c → ch < C c → (∀ v ∈ fscope c f, x v = y v) →
      featAt (den c) f x r ch = featAt (den c) f y r ch := by
  induction c with
  | leaf q C R d =>
    intro f ch hf hch hxy
    have hq : q[f]? = some q[f] := by simp only [F] at hf; simp [hf]
    rw [featAt_leaf hq, featAt_leaf hq, hxy _ (by rw [fscope_leaf hq]; simp)]
  | cat1 n cs ih =>
    intro f ch hf hch hxy
    obtain ⟨i, j, hj, rfl⟩ := exists_cat1_index hf
    rw [featAt_cat1 i hj, featAt_cat1 i hj]
    rw [fscope_cat1 i hj] at hxy
    exact ih i (h.1 i) (hal i) hj (by rwa [cat1_C h.2 i]) hxy
  | cat2 n cs ih =>
    intro f ch hf hch hxy
    obtain ⟨i, k, hk, rfl⟩ := exists_cat2_index hch
    rw [featAt_cat2 i hf hk, featAt_cat2 i hf hk]
    rw [fscope_cat2 hal.2 i] at hxy
    exact ih i (h.1 i) (hal.1 i) (by rwa [cat2_F h.2 i]) hk hxy
  | prod c ih =>
    intro f ch hf hch hxy
    obtain rfl : f = 0 := by simp only [F] at hf; omega
    rw [featAt_prod, featAt_prod]
    refine Finset.sum_congr rfl fun g hg => ?_
    rw [Finset.mem_range] at hg
    exact ih h hal hg hch fun v hv => hxy v ((mem_fscope_prod c v).2 ⟨g, hg, hv⟩)
  | sum c Co R θ ih =>
    intro f ch hf hch hxy
    have hfc : f < F c := hf
    rw [featAt_sum hfc, featAt_sum hfc]
    rw [fscope_sum] at hxy
    apply expL_injective
    rw [expL_lse, expL_lse]
    refine Finset.sum_congr rfl fun ci hci => ?_
    rw [ih h.1 hal hf (Finset.mem_range.1 hci) hxy]

/-! ### measurability -/

/-- Leaf log-densities are measurable and normalised w.r.t. the reference measure of their variable. -/
def LeafOk (μ : Var → Measure ℝ) : Circ → Prop
  | leaf q C R d => ∀ i (hi : i < q.length), ∀ ch < C, ∀ r < R,
      Measurable (fun t => expL (d i ch r t)) ∧ ∫⁻ t, ENNReal.ofReal (expL (d i ch r t)) ∂μ q[i] = 1
  | cat1 _ cs => ∀ i, LeafOk μ (cs i)
  | cat2 _ cs => ∀ i, LeafOk μ (cs i)
  | prod c => LeafOk μ c
  | sum c _ _ _ => LeafOk μ c

/-- A family of rows whose cells are measurable or constantly missing. -/
def MeasRow {Ω : Type*} [MeasurableSpace Ω] (Φ : Ω → Row) : Prop :=
  ∀ v, (∃ g : Ω → ℝ, Measurable g ∧ ∀ ω, Φ ω v = some (g ω)) ∨ ∀ ω, Φ ω v = none

theorem featAt_measurable {Ω : Type*} [MeasurableSpace Ω] {μ : Var → Measure ℝ} {Φ : Ω → Row} (hΦ : MeasRow Φ)
    {c : Circ} (h : Accepted c) {r : ℕ} (hr : RepIn r c) (hl : LeafOk μ c) :
    ∀ {f ch : ℕ}, f < F c → ch < C c → Measurable fun ω => expL (featAt (den c) f (Φ ω) r ch) := by
  induction c with
  | leaf q C R d =>
    intro f ch hf hch
    have hf' : f < q.length := hf
    have hq : q[f]? = some q[f] := by simp [hf']
    simp only [featAt_leaf hq]
    rcases hΦ q[f] with ⟨g, hg, hgΦ⟩ | hn
    · simp only [hgΦ]
      exact (hl f hf' ch hch _ (bc_lt hr)).1.comp hg
    · simp only [hn]; exact measurable_const
  | cat1 n cs ih =>
    intro f ch hf hch
    obtain ⟨i, j, hj, rfl⟩ := exists_cat1_index hf
    simp only [featAt_cat1 i hj]
    exact ih i (h.1 i) (hr i) (hl i) hj (by rwa [cat1_C h.2 i])
  | cat2 n cs ih =>
    intro f ch hf hch
    obtain ⟨i, k, hk, rfl⟩ := exists_cat2_index hch
    simp only [featAt_cat2 i hf hk]
    exact ih i (h.1 i) (hr i) (hl i) (by rwa [cat2_F h.2 i]) hk
  | prod c ih =>
    intro f ch hf hch
    obtain rfl : f = 0 := by simp only [F] at hf; omega
    simp only [expL_featAt_prod]
    exact Finset.measurable_prod _ fun g hg => ih h hr hl (Finset.mem_range.1 hg) hch
  | sum c Co R θ ih =>
    intro f ch hf hch
    simp only [expL_featAt_sum (show f < F c from hf)]
    exact Finset.measurable_sum _ fun ci hci =>
      (ih h.1 hr.1 hl hf (Finset.mem_range.1 hci)).const_mul _

/-! ### a fully missing scope has likelihood one -/

theorem sum_weight {c : Circ} {Co R : ℕ} {θ} (h : Accepted (sum c Co R θ)) {f co r : ℕ} (hf : f < F c)
    (hco : co < Co) (hr : R = 1 ∨ r < R) : ∑ ci ∈ Finset.range (C c), weight c θ f ci co (bc R r) = 1 :=
  sum_softmax (h.2.2 f hf co hco _ (bc_lt hr))

theorem expL_featAt_missing {c : Circ} (h : Accepted c) (hal : Aligned c) {r : ℕ} (hr : RepIn r c) {x : Row} :
    ∀ {f ch : ℕ}, f < F c → ch < C c → (∀ v ∈ fscope c f, x v = none) →
      expL (featAt (den c) f x r ch) = 1 := by
  induction c with
  | leaf q C R d =>
    intro f ch hf hch hx
    have hq : q[f]? = some q[f] := by simp only [F] at hf; simp [hf]
    rw [featAt_leaf hq, hx _ (by rw [fscope_leaf hq]; simp)]
    exact expL_zero
  | cat1 n cs ih =>
    intro f ch hf hch hx
    obtain ⟨i, j, hj, rfl⟩ := exists_cat1_index hf
    rw [featAt_cat1 i hj]
    rw [fscope_cat1 i hj] at hx
    exact ih i (h.1 i) (hal i) (hr i) hj (by rwa [cat1_C h.2 i]) hx
  | cat2 n cs ih =>
    intro f ch hf hch hx
    obtain ⟨i, k, hk, rfl⟩ := exists_cat2_index hch
    rw [featAt_cat2 i hf hk]
    rw [fscope_cat2 hal.2 i] at hx
    exact ih i (h.1 i) (hal.1 i) (hr i) (by rwa [cat2_F h.2 i]) hk hx
  | prod c ih =>
    intro f ch hf hch hx
    obtain rfl : f = 0 := by simp only [F] at hf; omega
    rw [expL_featAt_prod]
    refine Finset.prod_eq_one fun g hg => ?_
    rw [Finset.mem_range] at hg
    exact ih h hal hr hg hch fun v hv => hx v ((mem_fscope_prod c v).2 ⟨g, hg, hv⟩)
  | sum c Co R θ ih =>
    intro f ch hf hch hx
    rw [expL_featAt_sum (show f < F c from hf), ← sum_weight h hf hch hr.2]
    rw [fscope_sum] at hx
    refine Finset.sum_congr rfl fun ci hci => ?_
    rw [ih h.1 hal hr.1 hf (Finset.mem_range.1 hci) hx, mul_one]

/-! ### integrating one variable -/

theorem measRow_update (x : Row) (v : Var) : MeasRow fun t : ℝ => Function.update x v (some t) := by
  intro w
  by_cases h : w = v
  · subst h; exact .inl ⟨id, measurable_id, fun t => by simp⟩
  · rcases hx : x w with _ | a
    · right; intro t; simp [h, hx]
    · left; exact ⟨fun _ => a, measurable_const, fun t => by simp [h, hx]⟩

theorem lintegral_one_var {μ : Var → Measure ℝ} {c : Circ} (h : Accepted c) (hal : Aligned c) {r : ℕ}
    (hr : RepIn r c) (hl : LeafOk μ c) {v : Var} {x : Row} :
    ∀ {f ch : ℕ}, f < F c → ch < C c → v ∈ fscope c f →
      ∫⁻ t, ENNReal.ofReal (expL (featAt (den c) f (Function.update x v (some t)) r ch)) ∂μ v
        = ENNReal.ofReal (expL (featAt (den c) f (Function.update x v none) r ch)) := by
  induction c with
  | leaf q C R d =>
    intro f ch hf hch hv
    have hf' : f < q.length := hf
    have hq : q[f]? = some q[f] := by simp [hf']
    rw [fscope_leaf hq, Finset.mem_singleton] at hv
    subst hv
    simp only [featAt_leaf hq, Function.update_self, expL_zero, ENNReal.ofReal_one]
    exact (hl f hf' ch hch _ (bc_lt hr)).2
  | cat1 n cs ih =>
    intro f ch hf hch hv
    obtain ⟨i, j, hj, rfl⟩ := exists_cat1_index hf
    simp only [featAt_cat1 i hj]
    rw [fscope_cat1 i hj] at hv
    exact ih i (h.1 i) (hal i) (hr i) (hl i) hj (by rwa [cat1_C h.2 i]) hv
  | cat2 n cs ih =>
    intro f ch hf hch hv
    obtain ⟨i, k, hk, rfl⟩ := exists_cat2_index hch
    simp only [featAt_cat2 i hf hk]
    rw [fscope_cat2 hal.2 i] at hv
    exact ih i (h.1 i) (hal.1 i) (hr i) (hl i) (by rwa [cat2_F h.2 i]) hk hv
  | prod c ih =>
    intro f ch hf hch hv
    replace h : Accepted c := h
    replace hal : Aligned c := hal
    replace hr : RepIn r c := hr
    replace hl : LeafOk μ c := hl
    replace hch : ch < C c := hch
    obtain rfl : f = 0 := by simp only [F] at hf; omega
    obtain ⟨g, hg, hvg⟩ := (mem_fscope_prod c v).1 hv
    have hother : ∀ (o : Option ℝ), ∏ f' ∈ (Finset.range (F c)).erase g,
        expL (featAt (den c) f' (Function.update x v o) r ch) = ∏ f' ∈ (Finset.range (F c)).erase g,
        expL (featAt (den c) f' x r ch) := by
      intro o
      refine Finset.prod_congr rfl fun f' hf' => ?_
      rw [Finset.mem_erase, Finset.mem_range] at hf'
      congr 1
      refine featAt_local h hal hf'.2 hch fun w hw => ?_
      have : w ≠ v := by
        rintro rfl
        exact Finset.disjoint_left.1 (fscope_disjoint h hf'.2 hg hf'.1) hw hvg
      simp [this]
    simp only [expL_featAt_prod]
    simp only [← Finset.mul_prod_erase _ _ (Finset.mem_range.2 hg), hother]
    simp only [ENNReal.ofReal_mul (expL_nonneg _)]
    have hm : Measurable fun t : ℝ =>
        ENNReal.ofReal (expL (featAt (den c) g (Function.update x v (some t)) r ch)) :=
      ENNReal.measurable_ofReal.comp (featAt_measurable (measRow_update x v) h hr hl hg hch)
    rw [lintegral_mul_const _ hm]
    rw [ih h hal hr hl hg hch hvg]
  | sum c Co R θ ih =>
    intro f ch hf hch hv
    rw [fscope_sum] at hv
    have hfc : f < F c := hf
    have hnn : ∀ (o : Option ℝ) ci, 0 ≤ weight c θ f ci ch (bc R r) *
        expL (featAt (den c) f (Function.update x v o) r ci) := fun o ci =>
      mul_nonneg (softmax_nonneg _ _ _) (expL_nonneg _)
    simp only [expL_featAt_sum hfc]
    simp only [ENNReal.ofReal_sum_of_nonneg fun ci _ => hnn _ ci]
    have hmul : ∀ ci (y : ℝ), ENNReal.ofReal (weight c θ f ci ch (bc R r) * y) =
        ENNReal.ofReal (weight c θ f ci ch (bc R r)) * ENNReal.ofReal y := fun ci y =>
      ENNReal.ofReal_mul (softmax_nonneg _ _ _)
    simp only [hmul]
    have hm : ∀ ci ∈ Finset.range (C c), Measurable fun t : ℝ =>
        ENNReal.ofReal (expL (featAt (den c) f (Function.update x v (some t)) r ci)) := fun ci hci =>
      ENNReal.measurable_ofReal.comp
        (featAt_measurable (measRow_update x v) h.1 hr.1 hl hfc (Finset.mem_range.1 hci))
    rw [lintegral_finsetSum' _ fun ci hci => ((hm ci hci).const_mul _).aemeasurable]
    refine Finset.sum_congr rfl fun ci hci => ?_
    rw [lintegral_const_mul _ (hm ci hci), ih h.1 hal hr.1 hl hfc (Finset.mem_range.1 hci) hv]

/-! ### integrating a set of variables -/

/-- The row `x` with the columns in `S` set to NaN. -/
def maskRow (S : Finset Var) (x : Var → ℝ) : Row := fun v => if v ∈ S then none else some (x v)

theorem measRow_mask (S : Finset Var) : MeasRow (maskRow S) := by
  intro v
  by_cases h : v ∈ S
  · right; intro x; simp [maskRow, h]
  · left; exact ⟨fun x => x v, measurable_pi_apply v, fun x => by simp [maskRow, h]⟩

theorem lmarginal_featAt {μ : Var → Measure ℝ} [∀ v, SigmaFinite (μ v)] {c : Circ} (h : Accepted c)
    (hal : Aligned c) {r : ℕ} (hr : RepIn r c) (hl : LeafOk μ c) {f ch : ℕ} (hf : f < F c) (hch : ch < C c)
    (S : Finset Var) (hS : S ⊆ fscope c f) (x : Var → ℝ) :
    (∫⋯∫⁻_S, (fun y => ENNReal.ofReal (expL (featAt (den c) f (fun v => some (y v)) r ch))) ∂μ) x
      = ENNReal.ofReal (expL (featAt (den c) f (maskRow S x) r ch)) := by
  classical
  have hmeas : Measurable fun y : Var → ℝ =>
      ENNReal.ofReal (expL (featAt (den c) f (fun v => some (y v)) r ch)) := by
    refine ENNReal.measurable_ofReal.comp (featAt_measurable (Φ := fun y : Var → ℝ => fun v => some (y v)) ?_
      h hr hl hf hch)
    intro v; exact .inl ⟨fun y => y v, measurable_pi_apply v, fun _ => rfl⟩
  induction S using Finset.induction_on generalizing x with
  | empty =>
    have : maskRow ∅ x = fun v => some (x v) := by funext v; simp [maskRow]
    simp [this]
  | insert v S hv ih =>
    rw [lmarginal_insert _ hmeas hv]
    simp only [ih (fun w hw => hS (Finset.mem_insert_of_mem hw))]
    have e1 : ∀ t, maskRow S (Function.update x v t) = Function.update (maskRow S x) v (some t) := by
      intro t; funext w
      by_cases hw : w = v
      · subst hw; simp [maskRow, hv]
      · simp [maskRow, hw]
    have e2 : maskRow (insert v S) x = Function.update (maskRow S x) v none := by
      funext w
      by_cases hw : w = v
      · subst hw; simp [maskRow]
      · simp [maskRow, hw]
    simp only [e1, e2]
    exact lintegral_one_var h hal hr hl hf hch (hS (Finset.mem_insert_self _ _))

end Circ
end Verif

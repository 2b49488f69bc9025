import Verif.Socs
import Verif.InnerLeaves

/-!
# C35: inner products, self inner products and SOCS densities; C53: missing values in a SOCS
-/

open MeasureTheory

namespace Verif
namespace Inner

variable {μ : Var → Measure ℝ} [∀ v, SigmaFinite (μ v)]

/-- **C35.** For every pair of accepted circuits, every output entry of `inner_product_matrix` is the integral, over the
variables of that feature, of the product of the two functions. -/
theorem C35_inner_product (disc : Var → Bool) {S : Set ℝ} (hS : Separated S) {a b : IC} {k : Mat} (h : ip a b = .ok k)
    (wa : Wf a) (wb : Wf b) (sa : Sorted a) (sb : Sorted b) (la : Leaves (Admissible disc S) a)
    (lb : Leaves (Admissible disc S) b) {f i j r : ℕ} (hf : f < a.F) (hi : i < a.C) (hj : j < b.C) (hr : r < a.R) :
    a.fs f = b.fs f ∧ IntegrableOver (refMeasure disc) (a.fs f) (fun x => a.value x f i r * b.value x f j r) ∧
      k f i j r = intOn (refMeasure disc) (a.fs f) (fun x => a.value x f i r * b.value x f j r) := by
  have := C35_main (C35_leaves disc hS) h wa wb sa sb la lb f hf
  exact ⟨this.1, (this.2 i hi j hj r hr).1, (this.2 i hi j hj r hr).2.symm⟩

/-! ## Symmetry: the memo may be used in both directions -/

theorem ipPar_symm {a b : LeafPar} {z : ℝ} (h : ipPar a b = .ok z) : ∃ z', ipPar b a = .ok z' := by
  cases a <;> cases b <;> simp only [ipPar, reduceCtorEq] at h ⊢ <;>
    first
    | exact ⟨_, rfl⟩
    | (split_ifs at h with hk
       rw [if_neg (by intro h; apply hk; linarith)]
       exact ⟨_, rfl⟩)
    | (split_ifs at h with hk
       rw [if_neg fun e => hk (Ne.symm e)]
       exact ⟨_, rfl⟩)

theorem seqFin_exists {α : Type} {n : ℕ} {g : Fin n → Except Exc α} (h : ∀ i, ∃ z, g i = .ok z) :
    ∃ k, seqFin g = .ok k := by
  choose k hk using h
  exact ⟨k, seqFin_of hk⟩

theorem ip_symm_ok : ∀ {a b : IC} {k : Mat}, ip a b = .ok k → ∃ k', ip b a = .ok k' := by
  intro a
  induction a with
  | leaf q C1 R1 par1 =>
    intro b k h
    cases b <;> simp only [ip, reduceCtorEq] at h
    rename_i q' C2 R2 par2
    split_ifs at h with h1 h2 h3
    simp only [not_not] at h1 h2 h3
    split at h
    · cases h
    · rename_i k' hk
      subst h3
      have := fun f i j r => seqFin_ok (seqFin_ok (seqFin_ok (seqFin_ok hk f) i) j) r
      obtain ⟨k2, hk2⟩ : ∃ k2, (seqFin (n := q'.length) fun f => seqFin (n := C2) fun i => seqFin (n := C1) fun j =>
          seqFin (n := R1) fun r => ipPar (par2 f i r) (par1 f j r)) = .ok k2 := by
        refine seqFin_exists fun f => seqFin_exists fun j => seqFin_exists fun i => seqFin_exists fun r => ?_
        exact ipPar_symm (this ⟨f, by rw [h2]; exact f.2⟩ i j r)
      simp only [ip]
      rw [if_neg (by simp [h1]), if_neg (by simp [h2]), if_neg (by simp), hk2]
      exact ⟨_, rfl⟩
  | cat1 n cs ih =>
    intro b k h
    cases b <;> simp only [ip, reduceCtorEq] at h
    rename_i m ds
    split_ifs at h with h1 h2 h3 h4
    simp only [not_not] at h1 h2 h3
    subst h4
    split at h
    · cases h
    · rename_i k' hk
      have hk' : ∀ i, ip (cs i) (ds i) = .ok (k' i) := fun i => by simpa using seqFin_ok hk i
      obtain ⟨k2, hk2⟩ := seqFin_exists (g := fun i : Fin n => ip (ds i) (cs (i.cast rfl))) fun i => ih i (hk' i)
      simp only [ip]
      rw [if_neg (by simp [h1]), if_neg (by simp [h2]), if_neg (by simp [h3]), dif_pos trivial, hk2]
      exact ⟨_, rfl⟩
  | cat2 n cs ih =>
    intro b k h
    cases b <;> simp only [ip, reduceCtorEq] at h
    rename_i m ds
    split_ifs at h with h1 h2 h3
    simp only [not_not] at h1 h2 h3
    split at h
    · cases h
    · rename_i k' hk
      obtain ⟨k2, hk2⟩ : ∃ k2, (seqFin fun j : Fin m => seqFin fun i : Fin n => ip (ds j) (cs i)) = .ok k2 :=
        seqFin_exists fun j => seqFin_exists fun i => ih i (seqFin_ok (seqFin_ok hk i) j)
      simp only [ip]
      rw [if_neg (by simp [h1]), if_neg (by simp [h2]), if_neg (by simp [h3]), hk2]
      exact ⟨_, rfl⟩
  | prod c ih =>
    intro b k h
    cases b <;> simp only [ip, reduceCtorEq] at h
    rename_i d
    split_ifs at h with h1 h2
    simp only [not_not] at h1 h2
    split at h
    · cases h
    · rename_i k' hk
      obtain ⟨k2, hk2⟩ := ih hk
      simp only [ip]
      rw [if_neg (by simp [h1]), if_neg (by simp [h2]), hk2]
      exact ⟨_, rfl⟩
  | sum c Co Rs w ih =>
    intro b k h
    cases b <;> simp only [ip, reduceCtorEq] at h
    rename_i d Co' Rs' w'
    split_ifs at h with h1 h2 h3
    simp only [not_not] at h1 h2 h3
    split at h
    · cases h
    · rename_i k' hk
      obtain ⟨k2, hk2⟩ := ih hk
      simp only [ip]
      rw [if_neg (by simp [h1]), if_neg (by simp [h2]), if_neg (by simp [h3]), hk2]
      exact ⟨_, rfl⟩

/-- **C35.** Exchanging the arguments is accepted as well and transposes the result, which is what the memo relies on
when it answers `(b, a)` from `(a, b)` (inner_product_core.py:484-491). -/
theorem C35_symmetric (disc : Var → Bool) {S : Set ℝ} (hS : Separated S) {a b : IC} {k : Mat} (h : ip a b = .ok k)
    (wa : Wf a) (wb : Wf b) (sa : Sorted a) (sb : Sorted b) (la : Leaves (Admissible disc S) a)
    (lb : Leaves (Admissible disc S) b) :
    ∃ k', ip b a = .ok k' ∧ ∀ f < a.F, ∀ i < a.C, ∀ j < b.C, ∀ r < a.R, k' f j i r = k f i j r := by
  obtain ⟨k', hk'⟩ := ip_symm_ok h
  refine ⟨k', hk', fun f hf i hi j hj r hr => ?_⟩
  have hF := (ip_shape h).2.1
  have hR := (ip_shape h).2.2 wa wb
  have e1 := C35_inner_product disc hS h wa wb sa sb la lb hf hi hj hr
  have e2 := C35_inner_product disc hS hk' wb wa sb sa lb la (hF ▸ hf) hj hi (hR ▸ hr)
  rw [e1.2.2, e2.2.2, ← e1.1]
  simp only [mul_comm]

/-! ## Self inner products and SOCS densities -/

/-- Features together cover exactly the scope. -/
theorem fs_cover (c : IC) : Wf c → (Finset.range c.F).biUnion c.fs = c.vars := by
  induction c with
  | leaf q C R par =>
    intro _
    ext v
    simp only [IC.F, IC.fs, IC.vars, Finset.mem_biUnion, Finset.mem_range, Finset.mem_singleton, List.mem_toFinset]
    constructor
    · rintro ⟨f, hf, rfl⟩
      rw [List.getD_eq_getElem _ _ hf]
      exact List.getElem_mem hf
    · intro hv
      obtain ⟨f, hf, e⟩ := List.getElem_of_mem hv
      exact ⟨f, hf, by rw [List.getD_eq_getElem _ _ hf, e]⟩
  | cat1 n cs ih =>
    intro h
    apply Finset.Subset.antisymm
    · exact Finset.biUnion_subset.2 fun f hf => fs_subset_vars h f (Finset.mem_range.1 hf)
    · intro v hv
      simp only [IC.vars, Finset.mem_biUnion, Finset.mem_univ, true_and] at hv
      obtain ⟨i, hi⟩ := hv
      rw [← ih i (h.2.1 i)] at hi
      obtain ⟨g, hg, hvg⟩ := Finset.mem_biUnion.1 hi
      have hg := Finset.mem_range.1 hg
      -- the position of feature `g` of input `i`
      obtain ⟨f, hf, e⟩ := exists_locate (fun i : Fin n => (cs i).F) i g hg
      refine Finset.mem_biUnion.2 ⟨f, Finset.mem_range.2 hf, ?_⟩
      simp only [IC.fs, e, i.2, dif_pos]
      exact hvg
  | cat2 n cs ih =>
    intro h
    have := ih ⟨0, h.1⟩ (h.2.1 _)
    simp only [IC.F, IC.vars, h.1, dif_pos]
    rw [← this]
    refine Finset.biUnion_congr rfl fun f _ => ?_
    simp only [IC.fs, h.1, dif_pos]
  | prod c ih =>
    intro h
    simp only [IC.F, IC.vars, IC.fs]
    rw [← ih h]
    simp
  | sum c Co R w ih => intro h; exact ih h.1
where
  exists_locate {n : ℕ} (s : Fin n → ℕ) (i : Fin n) (g : ℕ) (hg : g < s i) :
      ∃ f, f < (List.ofFn s).sum ∧ locate (List.ofFn s) f = (i.val, g) := by
    induction n with
    | zero => exact i.elim0
    | succ n ih =>
      rw [List.ofFn_succ, List.sum_cons]
      induction i using Fin.cases with
      | zero => exact ⟨g, by omega, by simp [locate, hg]⟩
      | succ i =>
        obtain ⟨f, hf, e⟩ := ih (fun i => s i.succ) i hg
        refine ⟨s 0 + f, by omega, ?_⟩
        simp [locate, e]

theorem fs_one {c : IC} (h : Wf c) (hF : c.F = 1) : c.fs 0 = c.vars := by
  rw [← fs_cover c h, hF]
  simp

/-- **C35.** `log_self_inner_product_scalar` is the logarithm of the integral of the square over the whole scope. -/
theorem C35_self (disc : Var → Bool) {S : Set ℝ} (hS : Separated S) {c : IC} {z : ℝ} (h : logSelf c = .ok z) (wc : Wf c)
    (sc : Sorted c) (lc : Leaves (Admissible disc S) c) :
    z = Real.log (max (intOn (refMeasure disc) c.vars fun x => c.value x 0 0 0 ^ 2) (10 ^ (-30 : ℤ))) := by
  unfold logSelf at h
  split_ifs at h with hs
  simp only [not_not, Prod.mk.injEq] at hs
  split at h
  · cases h
  · rename_i k hk
    cases h
    have e := C35_inner_product disc hS hk wc wc sc sc lc lc (f := 0) (i := 0) (j := 0) (r := 0)
      (by omega) (by omega) (by omega) (by omega)
    rw [fs_one wc hs.1] at e
    have hsq : (fun x => c.value x 0 0 0 * c.value x 0 0 0) = fun x => c.value x 0 0 0 ^ 2 := by
      funext x; rw [sq]
    rw [e.2.2, hsq, max_eq_left]
    · rfl
    · exact integral_nonneg fun y => sq_nonneg _

theorem valueN_some (c : IC) (x : Var → ℝ) : c.valueN (fun v => some (x v)) = c.value x := by
  induction c with
  | leaf q C R par => funext f c r; simp [IC.valueN, IC.value, leafN]
  | cat1 n cs ih => funext f c r; simp only [IC.valueN, IC.value, ih]
  | cat2 n cs ih => funext f c r; simp only [IC.valueN, IC.value, ih]
  | prod c ih => funext f c r; simp only [IC.valueN, IC.value, ih]
  | sum c Co R w ih => funext f c r; simp only [IC.valueN, IC.value, ih]

theorem expL_twoLogAbs (v : ℝ) : expL (twoLogAbs v) = v ^ 2 := by
  unfold twoLogAbs
  rw [expL_add, expL_logL (abs_nonneg _), ← sq, sq_abs]

theorem selfIps_ok : ∀ {comps : List IC} {ks : List Mat}, selfIps comps = .ok ks →
    List.Forall₂ (fun c k => ip c c = .ok k) comps ks
  | [], ks, h => by cases h; exact .nil
  | c :: cs, ks, h => by
    unfold selfIps at h
    split at h
    · cases h
    · rename_i k hk
      split at h
      · cases h
      · rename_i ks' hks
        cases h
        exact .cons hk (selfIps_ok hks)

theorem sum_range_getD {α : Type} (l : List α) (d : α) (g : α → ℝ) :
    ∑ i ∈ Finset.range l.length, g (l.getD i d) = (l.map g).sum := by
  induction l with
  | nil => simp
  | cons a l ih =>
    rw [List.length_cons, Finset.sum_range_succ', List.map_cons, List.sum_cons, ← ih, add_comm]
    simp

/-- The density a SOCS stands for: the normalised sum of the squares of its components. -/
noncomputable def socsDensity (disc : Var → Bool) (comps : List IC) (S : Finset Var) (f c r : ℕ) (x : Var → ℝ) : ℝ :=
  (comps.map fun d => d.value x f c r ^ 2).sum /
    (comps.map fun d => intOn (refMeasure disc) S fun y => d.value y f c r ^ 2).sum

theorem expL_socsLL {comps : List IC} {ks : List Mat} (h : selfIps comps = .ok ks) (x : Row) (f c r : ℕ)
    (hz : 10 ^ (-30 : ℤ) ≤ partition ks f c r) :
    ∃ l, socsLL comps x f c r = .ok l ∧
      expL l = (comps.map fun d => d.valueN x f c r ^ 2).sum / partition ks f c r := by
  unfold socsLL
  rw [h]
  refine ⟨_, rfl, ?_⟩
  rw [expL_add, expL_lse]
  simp only [expL_twoLogAbs]
  rw [sum_range_getD comps _ fun d : IC => d.valueN x f c r ^ 2]
  have : expL ((-(logZ ks f c r) : ℝ) : LogV) = (partition ks f c r)⁻¹ := by
    unfold logZ
    rw [clampMin_of_le hz]
    change Real.exp _ = _
    rw [Real.exp_neg, Real.exp_log (tiny_pos.trans_le hz)]
  rw [this, div_eq_mul_inv]

theorem partition_eq (disc : Var → Bool) {S : Set ℝ} (hS : Separated S) {comps : List IC} {ks : List Mat}
    {V : Finset Var} {f c r : ℕ} (h : selfIps comps = .ok ks)
    (hw : ∀ d ∈ comps, Wf d ∧ Sorted d ∧ Leaves (Admissible disc S) d ∧ d.fs f = V ∧ f < d.F ∧ c < d.C ∧ r < d.R) :
    partition ks f c r = (comps.map fun d => intOn (refMeasure disc) V fun y => d.value y f c r ^ 2).sum ∧
      ∀ d ∈ comps, IntegrableOver (refMeasure disc) V fun y => d.value y f c r ^ 2 := by
  have h2 := selfIps_ok h
  clear h
  induction h2 with
  | nil => exact ⟨rfl, by simp⟩
  | @cons d k ds ks hk hrest ih =>
    obtain ⟨i1, i2⟩ := ih fun d' hd' => hw d' (List.mem_cons_of_mem _ hd')
    obtain ⟨w1, w2, w3, w4, w5, w6, w7⟩ := hw d List.mem_cons_self
    have e := C35_inner_product disc hS hk w1 w1 w2 w2 w3 w3 w5 w6 w6 w7
    rw [w4] at e
    simp only [← sq] at e
    constructor
    · unfold partition at i1 ⊢
      rw [List.map_cons, List.sum_cons, List.map_cons, List.sum_cons, i1, e.2.2]
    · intro d' hd'
      rcases List.mem_cons.1 hd' with rfl | hd'
      · exact e.2.1
      · exact i2 d' hd'

/-- **C35.** On complete rows a SOCS returns the logarithm of the normalised sum of squares, and this density integrates
to one over the scope (for models whose partition function is not below the clamp `1e-30`). -/
theorem C35_socs_normalised (disc : Var → Bool) {S : Set ℝ} (hS : Separated S) {comps : List IC} {ks : List Mat}
    {c r : ℕ} (hmk : ∃ l, mkSocs comps = .ok l) (h : selfIps comps = .ok ks)
    (hw : ∀ d ∈ comps, Wf d ∧ Sorted d ∧ Leaves (Admissible disc S) d ∧ d.F = 1 ∧ c < d.C ∧ r < d.R)
    (hz : 10 ^ (-30 : ℤ) ≤ partition ks 0 c r) :
    ∃ V : Finset Var, (∀ d ∈ comps, d.vars = V) ∧
      (∀ x : Var → ℝ, ∃ l, socsLL comps (fun v => some (x v)) 0 c r = .ok l ∧
        expL l = socsDensity disc comps V 0 c r x) ∧
      IntegrableOver (refMeasure disc) V (socsDensity disc comps V 0 c r) ∧
      intOn (refMeasure disc) V (socsDensity disc comps V 0 c r) = 1 := by
  obtain ⟨V, hV⟩ : ∃ V, ∀ d ∈ comps, d.vars = V := by
    obtain ⟨l, hl⟩ := hmk
    unfold mkSocs at hl
    split at hl
    · cases hl
    · rename_i d ds
      split_ifs at hl with h1 h2
      refine ⟨d.vars, fun d' hd' => ?_⟩
      simp only [List.any_eq_true, decide_eq_true_eq, not_exists, not_and, not_not] at h1
      exact h1 d' hd'
  have hw' : ∀ d ∈ comps, Wf d ∧ Sorted d ∧ Leaves (Admissible disc S) d ∧ d.fs 0 = V ∧ 0 < d.F ∧ c < d.C ∧ r < d.R := by
    intro d hd
    obtain ⟨w1, w2, w3, w4, w5, w6⟩ := hw d hd
    exact ⟨w1, w2, w3, (fs_one w1 w4).trans (hV d hd), by omega, w5, w6⟩
  obtain ⟨hp, hint⟩ := partition_eq disc hS h hw'
  refine ⟨V, hV, fun x => ?_, ?_⟩
  · obtain ⟨l, hl, e⟩ := expL_socsLL h (fun v => some (x v)) 0 c r hz
    refine ⟨l, hl, ?_⟩
    simp only [valueN_some] at e
    rw [e, hp]
    rfl
  · have hpos : 0 < (comps.map fun d => intOn (refMeasure disc) V fun y => d.value y 0 c r ^ 2).sum :=
      hp ▸ tiny_pos.trans_le hz
    have key : ∀ l : List IC, (∀ d ∈ l, IntegrableOver (refMeasure disc) V fun y => d.value y 0 c r ^ 2) →
        IntegrableOver (refMeasure disc) V (fun x => (l.map fun d => d.value x 0 c r ^ 2).sum) ∧
        intOn (refMeasure disc) V (fun x => (l.map fun d => d.value x 0 c r ^ 2).sum) =
          (l.map fun d => intOn (refMeasure disc) V fun y => d.value y 0 c r ^ 2).sum := by
      intro l
      induction l with
      | nil => intro _; exact ⟨integrable_zero _ _ _, by simp [intOn]⟩
      | cons d l ih =>
        intro hl
        obtain ⟨a1, a2⟩ := ih fun d' hd' => hl d' (List.mem_cons_of_mem _ hd')
        have a3 := hl d List.mem_cons_self
        simp only [List.map_cons, List.sum_cons]
        exact ⟨a3.add a1, (integral_add a3 a1).trans (by rw [← a2]; rfl)⟩
    obtain ⟨k1, k2⟩ := key comps hint
    refine ⟨k1.div_const _, ?_⟩
    unfold socsDensity
    refine (integral_div _ _).trans ?_
    rw [← div_self hpos.ne', ← k2]
    rfl

end Inner
end Verif

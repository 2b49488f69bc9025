import Verif.TripleProps

/-!
# C77: triple products, when they are defined, and the density of an `ExpSOCS`
-/

open MeasureTheory

namespace Verif
namespace Inner

/-- **C77.** For every triple of accepted circuits, every output entry of `triple_product_tensor` is the integral, over
the variables of that feature, of the product of the three functions. -/
theorem C77_triple_product (disc : Var → Bool) {a b c : IC} {k : Mat3} (h : tp a b c = .ok k)
    (wa : Wf a) (wb : Wf b) (wc : Wf c) (sa : Sorted a) (sb : Sorted b) (sc : Sorted c)
    (la : Leaves (Admissible3 disc) a) (lb : Leaves (Admissible3 disc) b) (lc : Leaves (Admissible3 disc) c)
    {f i j l r : ℕ} (hf : f < a.F) (hi : i < a.C) (hj : j < b.C) (hl : l < c.C) (hr : r < a.R) :
    (a.fs f = b.fs f ∧ a.fs f = c.fs f) ∧
      IntegrableOver (refMeasure disc) (a.fs f) (fun x => a.value x f i r * b.value x f j r * c.value x f l r) ∧
      k f i j l r = intOn (refMeasure disc) (a.fs f) (fun x => a.value x f i r * b.value x f j r * c.value x f l r) := by
  have := C77_main (C77_leaves disc) h wa wb wc sa sb sc la lb lc f hf
  exact ⟨this.1, (this.2 i hi j hj l hl r hr).1, (this.2 i hi j hj l hl r hr).2.symm⟩

/-! ## When a triple product is defined -/

/-- The families with a triple product: a number per family, and the number of categories of a table. -/
def kind : LeafPar → Option (ℕ × ℕ)
  | .bern _ => some (0, 0)
  | .cat K _ => some (1, K)
  | .scat K _ => some (1, K)
  | .unif _ _ => some (2, 0)
  | .geom _ => some (3, 0)
  | .normal _ _ => some (4, 0)
  | .binom _ _ => some (5, 0)
  | .expo _ => none
  | .laplace _ _ => none
  | .logNormal _ _ => none
  | .poisson _ => none
  | .gamma _ _ => none

theorem tpPar_iff (a b c : LeafPar) :
    (∃ z, tpPar a b c = .ok z) ↔ kind a ≠ none ∧ kind a = kind b ∧ kind a = kind c := by
  have hcat : ∀ (K K' K'' : ℕ) (w1 w2 w3 : ℕ → ℝ),
      (∃ z, tpPar.catTriple K w1 K' w2 K'' w3 = .ok z) ↔ K = K' ∧ K = K'' := by
    intro K K' K'' w1 w2 w3
    unfold tpPar.catTriple
    by_cases h : K ≠ K' ∨ K ≠ K''
    · rw [if_pos h]
      simp only [reduceCtorEq, exists_false, false_iff]
      tauto
    · rw [if_neg h]
      simp only [Except.ok.injEq, exists_eq', true_iff]
      tauto
  cases a <;> cases b <;> cases c <;> simp [tpPar, kind, hcat]

/-- Circuits of the same shape: the same tree of modules, leaves over the same variables, with leaf cells of one
supported family. Parameters, weights and numbers of channels are free. -/
def Alike : IC → IC → IC → Prop
  | .leaf q C1 R1 p1, .leaf q' C2 R2 p2, .leaf q'' C3 R3 p3 =>
    (q = q' ∧ q = q'') ∧ (R1 = R2 ∧ R1 = R3) ∧ ∀ f < q.length, ∀ i < C1, ∀ j < C2, ∀ l < C3, ∀ r < R1,
      kind (p1 f i r) ≠ none ∧ kind (p1 f i r) = kind (p2 f j r) ∧ kind (p1 f i r) = kind (p3 f l r)
  | .cat1 n cs, .cat1 m ds, .cat1 m' es => ∃ (h : n = m) (h' : n = m'), ∀ i : Fin n, Alike (cs i) (ds (i.cast h)) (es (i.cast h'))
  | .cat2 n cs, .cat2 m ds, .cat2 m' es => ∀ (i : Fin n) (j : Fin m) (l : Fin m'), Alike (cs i) (ds j) (es l)
  | .prod a, .prod b, .prod c => Alike a b c
  | .sum a _ R _, .sum b _ R' _, .sum c _ R'' _ => R = R' ∧ R = R'' ∧ Alike a b c
  | _, _, _ => False

theorem Alike.shape : ∀ {a b c : IC}, Alike a b c → Wf a → Wf b → Wf c →
    (a.vars = b.vars ∧ a.vars = c.vars) ∧ (a.F = b.F ∧ a.F = c.F) ∧ a.R = b.R ∧ a.R = c.R := by
  intro a
  induction a with
  | leaf q C1 R1 p1 =>
    intro b c h wa wb wc
    cases b <;> cases c <;> simp only [Alike] at h
    obtain ⟨⟨rfl, rfl⟩, ⟨rfl, rfl⟩, -⟩ := h
    exact ⟨⟨rfl, rfl⟩, ⟨rfl, rfl⟩, rfl, rfl⟩
  | cat1 n cs ih =>
    intro b c h wa wb wc
    cases b <;> cases c <;> simp only [Alike] at h
    obtain ⟨rfl, rfl, h⟩ := h
    have H := fun i => ih i (h i) (wa.2.1 i) (wb.2.1 _) (wc.2.1 _)
    simp only [Fin.cast_refl, id] at H
    have hn := wa.1
    refine ⟨⟨?_, ?_⟩, ⟨?_, ?_⟩, ?_, ?_⟩
    · exact Finset.biUnion_congr rfl fun i _ => (H i).1.1
    · exact Finset.biUnion_congr rfl fun i _ => (H i).1.2
    · simp only [IC.F]; congr 2; funext i; exact (H i).2.1.1
    · simp only [IC.F]; congr 2; funext i; exact (H i).2.1.2
    · simp only [IC.R, hn, dif_pos]; exact (H _).2.2.1
    · simp only [IC.R, hn, dif_pos]; exact (H _).2.2.2
  | cat2 n cs ih =>
    intro b c h wa wb wc
    cases b <;> cases c <;> simp only [Alike] at h
    have hn := wa.1
    have hm := wb.1
    have hm' := wc.1
    have H := ih ⟨0, hn⟩ (h ⟨0, hn⟩ ⟨0, hm⟩ ⟨0, hm'⟩) (wa.2.1 _) (wb.2.1 _) (wc.2.1 _)
    simp only [IC.vars, IC.F, IC.R, hn, hm, hm', dif_pos]
    exact H
  | prod a ih =>
    intro b c h wa wb wc
    cases b <;> cases c <;> simp only [Alike] at h
    obtain ⟨h1, -, h3⟩ := ih h wa wb wc
    exact ⟨h1, ⟨rfl, rfl⟩, h3⟩
  | sum a Co R w ih =>
    intro b c h wa wb wc
    cases b <;> cases c <;> simp only [Alike] at h
    obtain ⟨rfl, rfl, h⟩ := h
    obtain ⟨h1, h2, -⟩ := ih h wa.1 wb.1 wc.1
    exact ⟨h1, h2, rfl, rfl⟩

theorem Alike.ok : ∀ {a b c : IC}, Alike a b c → Wf a → Wf b → Wf c → ∃ k, tp a b c = .ok k := by
  intro a
  induction a with
  | leaf q C1 R1 p1 =>
    intro b c h wa wb wc
    obtain ⟨⟨v1, v2⟩, hF, hR⟩ := h.shape wa wb wc
    have hck := tpChecks_of v1 v2 hF hR
    cases b <;> cases c <;> simp only [Alike] at h
    unfold tp
    simp only [hck]
    obtain ⟨k, hk⟩ := seqFin_exists fun f : Fin q.length => seqFin_exists fun i : Fin C1 => seqFin_exists fun j =>
      seqFin_exists fun l => seqFin_exists fun r : Fin R1 => (tpPar_iff (p1 f i r) _ _).2
        (h.2.2 f f.2 i i.2 j j.2 l l.2 r r.2)
    rw [hk]
    exact ⟨_, rfl⟩
  | cat1 n cs ih =>
    intro b c h wa wb wc
    obtain ⟨⟨v1, v2⟩, hF, hR⟩ := h.shape wa wb wc
    have hck := tpChecks_of v1 v2 hF hR
    cases b <;> cases c <;> simp only [Alike] at h
    obtain ⟨rfl, rfl, h⟩ := h
    unfold tp
    simp only [hck]
    obtain ⟨k, hk⟩ := seqFin_exists fun i => ih i (h i) (wa.2.1 i) (wb.2.1 _) (wc.2.1 _)
    rw [dif_pos (by simp), hk]
    exact ⟨_, rfl⟩
  | cat2 n cs ih =>
    intro b c h wa wb wc
    obtain ⟨⟨v1, v2⟩, hF, hR⟩ := h.shape wa wb wc
    have hck := tpChecks_of v1 v2 hF hR
    cases b <;> cases c <;> simp only [Alike] at h
    unfold tp
    simp only [hck]
    obtain ⟨k, hk⟩ := seqFin_exists fun i => seqFin_exists fun j => seqFin_exists fun l =>
      ih i (h i j l) (wa.2.1 i) (wb.2.1 _) (wc.2.1 _)
    rw [hk]
    exact ⟨_, rfl⟩
  | prod a ih =>
    intro b c h wa wb wc
    obtain ⟨⟨v1, v2⟩, hF, hR⟩ := h.shape wa wb wc
    have hck := tpChecks_of v1 v2 hF hR
    cases b <;> cases c <;> simp only [Alike] at h
    obtain ⟨k, hk⟩ := ih h wa wb wc
    unfold tp
    simp only [hck, hk]
    exact ⟨_, rfl⟩
  | sum a Co R w ih =>
    intro b c h wa wb wc
    obtain ⟨⟨v1, v2⟩, hF, hR⟩ := h.shape wa wb wc
    have hck := tpChecks_of v1 v2 hF hR
    cases b <;> cases c <;> simp only [Alike] at h
    obtain ⟨k, hk⟩ := ih h.2.2 wa.1 wb.1 wc.1
    unfold tp
    simp only [hck, hk]
    exact ⟨_, rfl⟩

theorem Alike.of : ∀ {a b c : IC} {k : Mat3}, tp a b c = .ok k → Sorted a → Sorted b → Sorted c → Alike a b c := by
  intro a
  induction a with
  | leaf q C1 R1 p1 =>
    intro b c k h sa sb sc
    obtain ⟨v1, v2, -, r1, r2⟩ := tpChecks_ok (tp_checks h)
    have hck := tp_checks h
    unfold tp at h
    simp only [hck] at h
    cases b <;> cases c <;> simp only [reduceCtorEq] at h
    split at h
    · cases h
    · rename_i k' hk
      refine ⟨⟨sorted_ext sa sb v1, sorted_ext sa sc v2⟩, ⟨r1, r2⟩, fun f hf i hi j hj l hl r hr => ?_⟩
      exact (tpPar_iff _ _ _).1 ⟨_, seqFin_ok (seqFin_ok (seqFin_ok (seqFin_ok (seqFin_ok hk ⟨f, hf⟩) ⟨i, hi⟩) ⟨j, hj⟩)
        ⟨l, hl⟩) ⟨r, hr⟩⟩
  | cat1 n cs ih =>
    intro b c k h sa sb sc
    have hck := tp_checks h
    unfold tp at h
    simp only [hck] at h
    cases b <;> cases c <;> simp only at h <;> try (split_ifs at h; done)
    split_ifs at h with hmm
    obtain ⟨rfl, rfl⟩ := hmm
    split at h
    · cases h
    · rename_i k' hk
      exact ⟨rfl, rfl, fun i => ih i (seqFin_ok hk i) (sa i) (sb _) (sc _)⟩
  | cat2 n cs ih =>
    intro b c k h sa sb sc
    have hck := tp_checks h
    unfold tp at h
    simp only [hck] at h
    cases b <;> cases c <;> simp only at h <;> try (split_ifs at h; done)
    split at h
    · cases h
    · rename_i k' hk
      exact fun i j l => ih i (seqFin_ok (seqFin_ok (seqFin_ok hk i) j) l) (sa i) (sb _) (sc _)
  | prod a ih =>
    intro b c k h sa sb sc
    have hck := tp_checks h
    unfold tp at h
    simp only [hck] at h
    cases b <;> cases c <;> simp only [reduceCtorEq] at h
    split at h
    · cases h
    · rename_i k' hk
      exact ih hk sa sb sc
  | sum a Co R w ih =>
    intro b c k h sa sb sc
    obtain ⟨-, -, -, r1, r2⟩ := tpChecks_ok (tp_checks h)
    have hck := tp_checks h
    unfold tp at h
    simp only [hck] at h
    cases b <;> cases c <;> simp only [reduceCtorEq] at h
    split at h
    · cases h
    · rename_i k' hk
      exact ⟨r1, r2, ih hk sa sb sc⟩

/-- **C77.** A triple product is defined exactly for circuits of the same shape whose leaves belong to one supported
family; in every other case an error is raised. -/
theorem C77_defined {a b c : IC} (wa : Wf a) (wb : Wf b) (wc : Wf c) (sa : Sorted a) (sb : Sorted b) (sc : Sorted c) :
    (∃ k, tp a b c = .ok k) ↔ Alike a b c :=
  ⟨fun ⟨_, hk⟩ => Alike.of hk sa sb sc, fun h => h.ok wa wb wc⟩

theorem Alike.swap : ∀ {a b c : IC}, Alike a b c → Alike b a c := by
  intro a
  induction a with
  | leaf q C1 R1 p1 =>
    intro b c h
    cases b <;> cases c <;> simp only [Alike] at h ⊢
    obtain ⟨⟨rfl, rfl⟩, ⟨rfl, rfl⟩, h⟩ := h
    refine ⟨⟨rfl, rfl⟩, ⟨rfl, rfl⟩, fun f hf i hi j hj l hl r hr => ?_⟩
    obtain ⟨h1, h2, h3⟩ := h f hf j hj i hi l hl r hr
    exact ⟨h2 ▸ h1, h2.symm, h2 ▸ h3⟩
  | cat1 n cs ih =>
    intro b c h
    cases b <;> cases c <;> simp only [Alike] at h ⊢
    obtain ⟨rfl, rfl, h⟩ := h
    exact ⟨rfl, rfl, fun i => ih i (h i)⟩
  | cat2 n cs ih =>
    intro b c h
    cases b <;> cases c <;> simp only [Alike] at h ⊢
    exact fun i j l => ih j (h j i l)
  | prod a ih =>
    intro b c h
    cases b <;> cases c <;> simp only [Alike] at h ⊢
    exact ih h
  | sum a Co R w ih =>
    intro b c h
    cases b <;> cases c <;> simp only [Alike] at h ⊢
    obtain ⟨rfl, rfl, h⟩ := h
    exact ⟨rfl, rfl, ih h⟩

/-- **C77.** Exchanging the first two circuits exchanges the first two channel axes, so a memoised result may be used for
both. -/
theorem C77_symmetric (disc : Var → Bool) {a b c : IC} {k : Mat3} (h : tp a b c = .ok k)
    (wa : Wf a) (wb : Wf b) (wc : Wf c) (sa : Sorted a) (sb : Sorted b) (sc : Sorted c)
    (la : Leaves (Admissible3 disc) a) (lb : Leaves (Admissible3 disc) b) (lc : Leaves (Admissible3 disc) c) :
    ∃ k', tp b a c = .ok k' ∧ ∀ f < a.F, ∀ i < a.C, ∀ j < b.C, ∀ l < c.C, ∀ r < a.R, k' f j i l r = k f i j l r := by
  obtain ⟨k', hk'⟩ := (Alike.of h sa sb sc).swap.ok wb wa wc
  refine ⟨k', hk', fun f hf i hi j hj l hl r hr => ?_⟩
  obtain ⟨-, -, ⟨hF, -⟩, hR, -⟩ := tpChecks_ok (tp_checks h)
  have e1 := C77_triple_product disc h wa wb wc sa sb sc la lb lc hf hi hj hl hr
  have e2 := C77_triple_product disc hk' wb wa wc sb sa sc lb la lc (hF ▸ hf) hj hi hl (hR ▸ hr)
  rw [e1.2.2, e2.2.2, e1.1.1]
  congr 1
  funext x
  ring

/-! ## ExpSOCS -/

theorem expCheck_ok {m : IC} : ∀ {comps : List IC}, expCheck m comps = .ok () ↔
    ∀ c ∈ comps, (c.F, c.C, c.R) = (1, 1, 1) ∧ c.vars = m.vars
  | [] => by simp [expCheck]
  | c :: cs => by
    unfold expCheck
    split_ifs with h1 h2
    · simp only [false_iff, reduceCtorEq]
      exact fun h => h1 (h c List.mem_cons_self).1
    · simp only [false_iff, reduceCtorEq]
      exact fun h => h2 (h c List.mem_cons_self).2
    · rw [expCheck_ok]
      simp only [not_not] at h1 h2
      simp only [List.mem_cons, forall_eq_or_imp, h1, h2, and_self, true_and]

/-- **C77.** An `ExpSOCS` is built exactly from a scalar monotone circuit and at least one scalar component over the same
variables, and keeps them as they are. -/
theorem C77_constructor (m : IC) (comps : List IC) (e : Exp) :
    mkExp m comps = .ok e ↔ e = ⟨m, comps⟩ ∧ comps ≠ [] ∧ (m.F, m.C, m.R) = (1, 1, 1) ∧
      ∀ c ∈ comps, (c.F, c.C, c.R) = (1, 1, 1) ∧ c.vars = m.vars := by
  have hl : comps.length < 1 ↔ comps = [] := by rw [Nat.lt_one_iff, List.length_eq_zero_iff]
  unfold mkExp
  rw [← expCheck_ok]
  split_ifs with h1 h2
  · simp [hl.1 h1]
  · simp only [false_iff, reduceCtorEq]
    exact fun h => h2 h.2.2.1
  · have h2' := not_not.1 h2
    split
    · rename_i er he
      rw [he]
      simp
    · rename_i u hu
      rw [hu]
      have : comps ≠ [] := fun h => h1 (hl.2 h)
      simp [this, h2', eq_comm]

/-- A circuit with non-negative weights and leaf tables. -/
def Monotone : IC → Prop
  | .leaf q C R par => ∀ f < q.length, ∀ c < C, ∀ r < R, ∀ t, 0 ≤ dens (par f c r) t
  | .cat1 _ cs => ∀ i, Monotone (cs i)
  | .cat2 _ cs => ∀ i, Monotone (cs i)
  | .prod c => Monotone c
  | .sum c Co R w => Monotone c ∧ ∀ f < c.F, ∀ i < c.C, ∀ o < Co, ∀ r < R, 0 ≤ w f i o r

theorem Monotone.nonneg : ∀ {c : IC}, Monotone c → Wf c → ∀ (x : Var → ℝ), ∀ f < c.F, ∀ i < c.C, ∀ r < c.R,
    0 ≤ c.value x f i r := by
  intro c
  induction c with
  | leaf q C R par => intro h _ x f hf i hi r hr; exact h f hf i hi r hr _
  | cat1 n cs ih =>
    intro h w x f hf i hi r hr
    obtain ⟨l1, l2⟩ := locate_ofFn (s := fun i : Fin n => (cs i).F) hf
    simp only [IC.value, IC.pickV, l1, dif_pos]
    refine ih _ (h _) (w.2.1 _) x _ l2 i ?_ r ?_
    · rw [w.2.2.1 _ ⟨0, w.1⟩]; simpa [IC.C, w.1] using hi
    · rw [w.2.2.2.1 _ ⟨0, w.1⟩]; simpa [IC.R, w.1] using hr
  | cat2 n cs ih =>
    intro h w x f hf i hi r hr
    obtain ⟨l1, l2⟩ := locate_ofFn (s := fun i : Fin n => (cs i).C) hi
    simp only [IC.value, IC.pickV, l1, dif_pos]
    refine ih _ (h _) (w.2.1 _) x f ?_ _ l2 r ?_
    · rw [w.2.2.1 _ ⟨0, w.1⟩]; simpa [IC.F, w.1] using hf
    · rw [w.2.2.2.1 _ ⟨0, w.1⟩]; simpa [IC.R, w.1] using hr
  | prod c ih =>
    intro h w x f hf i hi r hr
    exact Finset.prod_nonneg fun g hg => ih h w x g (Finset.mem_range.1 hg) i hi r hr
  | sum c Co R wt ih =>
    intro h w x f hf i hi r hr
    refine Finset.sum_nonneg fun j hj => mul_nonneg (h.2 f hf j (Finset.mem_range.1 hj) i hi r hr) ?_
    exact ih h.1 w.1 x f hf j (Finset.mem_range.1 hj) r (w.2 ▸ hr)

theorem zParts_ok {m : IC} : ∀ {comps : List IC} {zs : List ℝ}, zParts m comps = .ok zs →
    List.Forall₂ (fun c z => tpScalar c c m = .ok z) comps zs
  | [], zs, h => by cases h; exact .nil
  | c :: cs, zs, h => by
    unfold zParts at h
    split at h
    · cases h
    · rename_i k hk
      split at h
      · cases h
      · rename_i ks' hks
        cases h
        exact .cons hk (zParts_ok hks)

/-- The partition function of `m(x) · Σ c_i(x)²`. -/
noncomputable def expZ (disc : Var → Bool) (m : IC) (comps : List IC) : ℝ :=
  (comps.map fun d => intOn (refMeasure disc) m.vars fun y => m.value y 0 0 0 * d.value y 0 0 0 ^ 2).sum

/-- The density an `ExpSOCS` stands for: `m(x) · Σ c_i(x)²`, divided by its integral. -/
noncomputable def expDensity (disc : Var → Bool) (m : IC) (comps : List IC) (x : Var → ℝ) : ℝ :=
  m.value x 0 0 0 * (comps.map fun d => d.value x 0 0 0 ^ 2).sum / expZ disc m comps

theorem tpScalar_eq (disc : Var → Bool) {m d : IC} {z : ℝ} (h : tpScalar d d m = .ok z)
    (wd : Wf d) (wm : Wf m) (sd : Sorted d) (sm : Sorted m) (ld : Leaves (Admissible3 disc) d)
    (lm : Leaves (Admissible3 disc) m) :
    IntegrableOver (refMeasure disc) m.vars (fun y => m.value y 0 0 0 * d.value y 0 0 0 ^ 2) ∧
      z = intOn (refMeasure disc) m.vars (fun y => m.value y 0 0 0 * d.value y 0 0 0 ^ 2) := by
  unfold tpScalar at h
  split_ifs at h with hs
  simp only [not_or, not_not, Prod.mk.injEq] at hs
  obtain ⟨⟨f1, c1, r1⟩, -, f2, c2, r2⟩ := hs
  split at h
  · cases h
  · rename_i k hk
    cases h
    have e := C77_triple_product disc hk wd wd wm sd sd sm ld ld lm (f := 0) (i := 0) (j := 0) (l := 0) (r := 0)
      (by omega) (by omega) (by omega) (by omega) (by omega)
    have hv : d.fs 0 = m.vars := (fs_one wd f1).trans (tpChecks_ok (tp_checks hk)).2.1
    have e0 : (fun x => d.value x 0 0 0 * d.value x 0 0 0 * m.value x 0 0 0) =
        fun x => m.value x 0 0 0 * d.value x 0 0 0 ^ 2 := by funext x; ring
    rw [hv, e0] at e
    exact e.2

theorem zParts_eq (disc : Var → Bool) {m : IC} {comps : List IC} {zs : List ℝ} (h : zParts m comps = .ok zs)
    (wm : Wf m) (sm : Sorted m) (lm : Leaves (Admissible3 disc) m)
    (hw : ∀ d ∈ comps, Wf d ∧ Sorted d ∧ Leaves (Admissible3 disc) d) :
    zs.sum = expZ disc m comps ∧
      ∀ d ∈ comps, IntegrableOver (refMeasure disc) m.vars fun y => m.value y 0 0 0 * d.value y 0 0 0 ^ 2 := by
  have h2 := zParts_ok h
  clear h
  induction h2 with
  | nil => exact ⟨rfl, by simp⟩
  | @cons d k ds ks hk hrest ih =>
    obtain ⟨i1, i2⟩ := ih fun d' hd' => hw d' (List.mem_cons_of_mem _ hd')
    obtain ⟨w1, w2, w3⟩ := hw d List.mem_cons_self
    have e := tpScalar_eq disc hk w1 wm w2 sm w3 lm
    constructor
    · unfold expZ at i1 ⊢
      rw [List.sum_cons, List.map_cons, List.sum_cons, i1, ← e.2]
    · intro d' hd'
      rcases List.mem_cons.1 hd' with rfl | hd'
      · exact e.1
      · exact i2 d' hd'

/-- **C77.** On complete rows an `ExpSOCS` returns the logarithm of `m(x) · Σ c_i(x)²` divided by its exact integral, and
this density integrates to one over the scope (for models whose partition function is not below the clamp `1e-30`). -/
theorem C77_normalised (disc : Var → Bool) {m : IC} {comps : List IC} {e : Exp} (hmk : mkExp m comps = .ok e)
    (wm : Wf m) (sm : Sorted m) (lm : Leaves (Admissible3 disc) m) (mm : Monotone m)
    (hw : ∀ d ∈ comps, Wf d ∧ Sorted d ∧ Leaves (Admissible3 disc) d) (ha : ∀ d ∈ comps, Alike d d m)
    (hz : 10 ^ (-30 : ℤ) ≤ expZ disc m comps) :
    (∀ x : Var → ℝ, ∃ l, e.logLik (fun v => some (x v)) = .ok l ∧ expL l = expDensity disc m comps x) ∧
      (∀ x, 0 ≤ expDensity disc m comps x) ∧
      IntegrableOver (refMeasure disc) m.vars (expDensity disc m comps) ∧
      intOn (refMeasure disc) m.vars (expDensity disc m comps) = 1 := by
  obtain ⟨rfl, -, hm1, hc⟩ := (C77_constructor _ _ _).1 hmk
  simp only [Prod.mk.injEq] at hm1 hc
  have hpos : 0 < expZ disc m comps := tiny_pos.trans_le hz
  have hzp : ∃ zs, zParts m comps = .ok zs := by
    clear hz hpos hmk
    induction comps with
    | nil => exact ⟨_, rfl⟩
    | cons d ds ih =>
      obtain ⟨zs, hzs⟩ := ih (fun d' h => hw d' (List.mem_cons_of_mem _ h)) (fun d' h => ha d' (List.mem_cons_of_mem _ h))
        (fun d' h => hc d' (List.mem_cons_of_mem _ h))
      obtain ⟨k, hk⟩ := (ha d List.mem_cons_self).ok (hw d List.mem_cons_self).1 (hw d List.mem_cons_self).1 wm
      have h1 := (hc d List.mem_cons_self).1
      have ht : tpScalar d d m = .ok (k 0 0 0 0 0) := by
        unfold tpScalar
        rw [if_neg (by simp [h1, hm1]), hk]
      exact ⟨_, by unfold zParts; rw [ht, hzs]⟩
  obtain ⟨zs, hzs⟩ := hzp
  obtain ⟨hs, hint⟩ := zParts_eq disc hzs wm sm lm hw
  have hnn : ∀ x, 0 ≤ m.value x 0 0 0 := fun x => mm.nonneg wm x 0 (by omega) 0 (by omega) 0 (by omega)
  refine ⟨fun x => ?_, fun x => ?_, ?_⟩
  · unfold Exp.logLik Exp.logZ
    simp only [hzs]
    refine ⟨_, rfl, ?_⟩
    rw [expL_add, expL_add, expL_lse, valueN_some, expL_logL (hnn x)]
    simp only [expL_twoLogAbs]
    rw [sum_range_getD comps _ fun d : IC => d.valueN (fun v => some (x v)) 0 0 0 ^ 2]
    simp only [valueN_some]
    have : expL ((-(Real.log (clampMin (max zs.sum 0))) : ℝ) : LogV) = (expZ disc m comps)⁻¹ := by
      rw [hs, max_eq_left hpos.le, clampMin_of_le hz]
      change Real.exp _ = _
      rw [Real.exp_neg, Real.exp_log hpos]
    rw [this]
    rfl
  · unfold expDensity
    refine div_nonneg (mul_nonneg (hnn x) (List.sum_nonneg ?_)) hpos.le
    intro y hy
    obtain ⟨d, -, rfl⟩ := List.mem_map.1 hy
    exact sq_nonneg _
  · have key : ∀ l : List IC, (∀ d ∈ l, IntegrableOver (refMeasure disc) m.vars
          fun y => m.value y 0 0 0 * d.value y 0 0 0 ^ 2) →
        IntegrableOver (refMeasure disc) m.vars (fun x => m.value x 0 0 0 * (l.map fun d => d.value x 0 0 0 ^ 2).sum) ∧
        intOn (refMeasure disc) m.vars (fun x => m.value x 0 0 0 * (l.map fun d => d.value x 0 0 0 ^ 2).sum) =
          expZ disc m l := by
      intro l
      induction l with
      | nil => intro _; simp only [List.map_nil, List.sum_nil, mul_zero]; exact ⟨integrable_zero _ _ _, by simp [intOn, expZ]⟩
      | cons d l ih =>
        intro hl
        obtain ⟨a1, a2⟩ := ih fun d' hd' => hl d' (List.mem_cons_of_mem _ hd')
        have a3 := hl d List.mem_cons_self
        simp only [List.map_cons, List.sum_cons, mul_add, expZ]
        exact ⟨a3.add a1, (integral_add a3 a1).trans (by unfold expZ at a2; rw [← a2]; rfl)⟩
    obtain ⟨k1, k2⟩ := key comps hint
    refine ⟨k1.div_const _, ?_⟩
    unfold expDensity
    refine (integral_div _ _).trans ?_
    rw [← div_self hpos.ne']
    congr 1

end Inner
end Verif

import Verif.BuildSocsMain

/-!
# C79: what `build_socs` returns, and its density
-/

open MeasureTheory

namespace Verif
namespace BuildSocs

open Inner

/-- `t'` is `t` with every `Sum` made a `SignedSum` whose weights are related by `P` to the old ones; nothing else differs. -/
def Perturbed (P : ℝ → ℝ → Prop) : Tpl → Tpl → Prop
  | .leaf q C R p, .leaf q' C' R' p' => q' = q ∧ C' = C ∧ R' = R ∧ p' = p
  | .cat1 n cs, .cat1 m ds => ∃ h : n = m, ∀ i, Perturbed P (cs i) (ds (i.cast h))
  | .cat2 n cs, .cat2 m ds => ∃ h : n = m, ∀ i, Perturbed P (cs i) (ds (i.cast h))
  | .prod c, .prod c' => Perturbed P c c'
  | .sum false c Co R w, .sum g c' Co' R' w' =>
    g = true ∧ Co' = Co ∧ R' = R ∧ (∀ f i o r, P (w f i o r) (w' f i o r)) ∧ Perturbed P c c'
  | .sum true c Co R w, .sum g c' Co' R' w' => g = true ∧ Co' = Co ∧ R' = R ∧ w' = w ∧ Perturbed P c c'
  | _, _ => False

/-- Random numbers as `torch.rand` and `torch.randn` return them. -/
def Draw.Ok (d : Draw) : Prop := ∀ f i o r, 0 ≤ d.u f i o r ∧ d.u f i o r < 1

theorem convert_perturbed {flip noise : ℝ} (hn : 0 ≤ noise) : ∀ (t : Tpl) {d : List ℕ → Draw}, (∀ p, (d p).Ok) →
    Perturbed (fun w w' => ∃ s e, (s = 1 ∨ s = -1) ∧ w' = s * w + noise * e ∧ (flip = 0 → s = 1) ∧ (flip = 1 → s = -1)) t
      (t.convert flip noise d) := by
  intro t
  induction t with
  | leaf q C R p => intro d _; exact ⟨rfl, rfl, rfl, rfl⟩
  | cat1 n cs ih => intro d hd; exact ⟨rfl, fun i => ih i fun p => hd _⟩
  | cat2 n cs ih => intro d hd; exact ⟨rfl, fun i => ih i fun p => hd _⟩
  | prod c ih => intro d hd; exact ih fun p => hd _
  | sum g c Co R w ih =>
    intro d hd
    cases g with
    | true => exact ⟨rfl, rfl, rfl, rfl, ih fun p => hd _⟩
    | false =>
      refine ⟨rfl, rfl, rfl, fun f i o r => ?_, ih fun p => hd _⟩
      have hu := hd [] f i o r
      have he : ∃ e, (if 0 < noise then noise * (d []).z f i o r else 0) = noise * e := by
        by_cases h : 0 < noise
        · exact ⟨_, if_pos h⟩
        · exact ⟨0, by rw [if_neg h, mul_zero]⟩
      obtain ⟨e, he⟩ := he
      by_cases h : (d []).u f i o r < flip
      · refine ⟨-1, e, Or.inr rfl, ?_, fun h0 => ?_, fun _ => rfl⟩
        · unfold perturb
          rw [if_pos h, he]
          ring
        · rw [h0] at h
          linarith [hu.1]
      · refine ⟨1, e, Or.inl rfl, ?_, fun _ => rfl, fun h1 => ?_⟩
        · unfold perturb
          rw [if_neg h, he]
          ring
        · rw [h1] at h
          linarith [hu.2]

/-- All sums made signed, with the same weights. -/
def Tpl.allSigned : Tpl → Tpl
  | leaf q C R p => leaf q C R p
  | cat1 n cs => cat1 n fun i => (cs i).allSigned
  | cat2 n cs => cat2 n fun i => (cs i).allSigned
  | prod c => prod c.allSigned
  | sum _ c Co R w => sum true c.allSigned Co R w

theorem allSigned_ic : ∀ t : Tpl, t.allSigned.ic = t.ic := by
  intro t
  induction t with
  | leaf => rfl
  | cat1 n cs ih => simp only [Tpl.allSigned, Tpl.ic, ih]
  | cat2 n cs ih => simp only [Tpl.allSigned, Tpl.ic, ih]
  | prod c ih => simp only [Tpl.allSigned, Tpl.ic, ih]
  | sum g c Co R w ih => simp only [Tpl.allSigned, Tpl.ic, ih]

theorem allSigned_uniform : ∀ {t : Tpl}, t.Uniform → t.allSigned.Uniform := by
  intro t
  induction t with
  | leaf => exact id
  | cat1 n cs ih => exact fun h i => ih i (h i)
  | cat2 n cs ih => exact fun h i => ih i (h i)
  | prod c ih => exact fun h => ih h
  | sum g c Co R w ih => exact fun h => ih h

theorem allSigned_noGamma : ∀ {t : Tpl}, t.NoGamma → t.allSigned.NoGamma := by
  intro t
  induction t with
  | leaf => exact id
  | cat1 n cs ih => exact fun h i => ih i (h i)
  | cat2 n cs ih => exact fun h i => ih i (h i)
  | prod c ih => exact fun h => ih h
  | sum g c Co R w ih => exact fun h => ih h

/-- What a conversion keeps. -/
structure Kept (t t' : Tpl) : Prop where
  skel : t'.skel = t.allSigned.skel
  uniform : t.Uniform → t'.Uniform
  noGamma : t.NoGamma → t'.NoGamma
  fs : t'.ic.fs = t.ic.fs
  wf : Wf t.ic → Wf t'.ic
  sorted : Sorted t.ic → Sorted t'.ic
  leaves : ∀ P, Leaves P t.ic → Leaves P t'.ic

theorem shape_of_kept {t t' : Tpl} (h : t'.skel = t.allSigned.skel) :
    t'.ic.vars = t.ic.vars ∧ t'.ic.F = t.ic.F ∧ t'.ic.C = t.ic.C ∧ t'.ic.R = t.ic.R := by
  have := skel_shape h
  rwa [allSigned_ic] at this

theorem convert_kept (flip noise : ℝ) : ∀ (t : Tpl) (d : List ℕ → Draw), Kept t (t.convert flip noise d) := by
  intro t
  induction t with
  | leaf q C R p => intro d; exact ⟨rfl, id, id, rfl, id, id, fun _ => id⟩
  | cat1 n cs ih =>
    intro d
    have k := fun i => ih i fun p => d (i :: p)
    have sh := fun i => shape_of_kept (k i).skel
    refine ⟨?_, fun h i => (k i).uniform (h i), fun h i => (k i).noGamma (h i), ?_, ?_, fun h i => (k i).sorted (h i),
      fun P h i => (k i).leaves P (h i)⟩
    · simp only [Tpl.convert, Tpl.skel, Tpl.allSigned, fun i => (k i).skel]
    · simp only [Tpl.convert, Tpl.ic]
      funext f
      simp only [IC.fs, fun i => (sh i).2.1]
      split_ifs with hlt
      · exact congrFun (k ⟨_, hlt⟩).fs _
      · rfl
    · rintro ⟨h0, h1, h2, h3, h4⟩
      refine ⟨h0, fun i => (k i).wf (h1 i), fun i j => ?_, fun i j => ?_, fun i j hij => ?_⟩
      · rw [(sh i).2.2.1, (sh j).2.2.1]; exact h2 i j
      · rw [(sh i).2.2.2, (sh j).2.2.2]; exact h3 i j
      · rw [(sh i).1, (sh j).1]; exact h4 i j hij
  | cat2 n cs ih =>
    intro d
    have k := fun i => ih i fun p => d (i :: p)
    have sh := fun i => shape_of_kept (k i).skel
    refine ⟨?_, fun h i => (k i).uniform (h i), fun h i => (k i).noGamma (h i), ?_, ?_, fun h i => (k i).sorted (h i),
      fun P h i => (k i).leaves P (h i)⟩
    · simp only [Tpl.convert, Tpl.skel, Tpl.allSigned, fun i => (k i).skel]
    · simp only [Tpl.convert, Tpl.ic]
      funext f
      simp only [IC.fs]
      split_ifs with hlt
      · exact congrFun (k ⟨0, hlt⟩).fs _
      · rfl
    · rintro ⟨h0, h1, h2, h3, h4, h5⟩
      refine ⟨h0, fun i => (k i).wf (h1 i), fun i j => ?_, fun i j => ?_, fun i j => ?_, fun i j f hf => ?_⟩
      · rw [(sh i).2.1, (sh j).2.1]; exact h2 i j
      · rw [(sh i).2.2.2, (sh j).2.2.2]; exact h3 i j
      · rw [(sh i).1, (sh j).1]; exact h4 i j
      · rw [(k i).fs, (k j).fs]
        exact h5 i j f (by rw [← (sh i).2.1]; exact hf)
  | prod c ih =>
    intro d
    have k := ih fun p => d (0 :: p)
    refine ⟨?_, k.uniform, k.noGamma, ?_, k.wf, k.sorted, k.leaves⟩
    · simp only [Tpl.convert, Tpl.skel, Tpl.allSigned, k.skel]
    · simp only [Tpl.convert, Tpl.ic]
      funext f
      simp only [IC.fs, k.fs, (shape_of_kept k.skel).1, (shape_of_kept k.skel).2.1]
  | sum g c Co R w ih =>
    intro d
    have k := ih fun p => d (0 :: p)
    have sh := shape_of_kept k.skel
    cases g
    all_goals
      refine ⟨?_, k.uniform, k.noGamma, ?_, fun h => ⟨k.wf h.1, h.2.trans sh.2.2.2.symm⟩, k.sorted, k.leaves⟩
      · simp only [Tpl.convert, Tpl.skel, Tpl.allSigned, k.skel]
      · simp only [Tpl.convert, Tpl.ic]
        funext f
        simp only [IC.fs, k.fs]

/-! ## The result -/

/-- The arguments are in range. -/
def Opts.Valid (o : Opts) : Prop := 1 ≤ o.n ∧ 0 ≤ o.noise ∧ 0 ≤ o.flip ∧ o.flip ≤ 1

theorem copies_skel (o : Opts) (d : ℕ → List ℕ → Draw) (t : Tpl) :
    ∀ c ∈ copies o d t, c.skel = if o.signed then t.allSigned.skel else t.skel := by
  intro c hc
  obtain ⟨i, -, rfl⟩ := List.mem_map.1 hc
  cases h : o.signed
  · simp
  · simp only [if_true]
    exact (convert_kept _ _ _ _).skel

theorem copies_shape (o : Opts) (d : ℕ → List ℕ → Draw) (t : Tpl) : ∀ c ∈ copies o d t,
    c.ic.vars = t.ic.vars ∧ c.ic.F = t.ic.F ∧ c.ic.C = t.ic.C ∧ c.ic.R = t.ic.R := by
  intro c hc
  have := copies_skel o d t c hc
  cases h : o.signed
  · rw [h] at this
    exact skel_shape this
  · rw [h] at this
    exact shape_of_kept this

theorem buildSocs_eq (o : Opts) (d : ℕ → List ℕ → Draw) (t : Tpl) :
    (o.Valid → buildSocs o d t = .ok (copies o d t) ∧ ∃ l, mkSocs ((copies o d t).map Tpl.ic) = .ok l) ∧
      (¬ o.Valid → buildSocs o d t = .error .invalidParameter) := by
  constructor
  · rintro ⟨h1, h2, h3, h4⟩
    have hc : checkAll (copies o d t) = .ok () := (C79_check _).1.2 fun a ha b hb =>
      (copies_skel o d t a ha).trans (copies_skel o d t b hb).symm
    have hne : copies o d t ≠ [] := by
      unfold copies
      simp only [ne_eq, List.map_eq_nil_iff, List.range_eq_nil]
      omega
    have hm : mkSocs ((copies o d t).map Tpl.ic) = .ok ((copies o d t).map Tpl.ic) := by
      have hs := copies_shape o d t
      cases hl : copies o d t with
      | nil => exact absurd hl hne
      | cons c cs =>
        rw [hl] at hs
        have hc0 := hs c List.mem_cons_self
        have hall : ∀ x ∈ c.ic :: cs.map Tpl.ic, x.vars = c.ic.vars ∧ (x.F, x.C, x.R) = (c.ic.F, c.ic.C, c.ic.R) := by
          intro x hx
          rw [← List.map_cons] at hx
          obtain ⟨y, hy, rfl⟩ := List.mem_map.1 hx
          obtain ⟨e1, e2, e3, e4⟩ := hs y hy
          exact ⟨e1.trans hc0.1.symm, by rw [e2, e3, e4, hc0.2.1, hc0.2.2.1, hc0.2.2.2]⟩
        rw [List.map_cons]
        simp only [mkSocs]
        rw [if_neg, if_neg]
        · simp only [List.any_eq_true, decide_eq_true_eq, not_exists, not_and, not_not]
          exact fun x hx => (hall x hx).2
        · simp only [List.any_eq_true, decide_eq_true_eq, not_exists, not_and, not_not]
          exact fun x hx => (hall x hx).1
    refine ⟨?_, _, hm⟩
    unfold buildSocs
    rw [if_neg (by omega), if_neg (by linarith), if_neg (not_not.2 ⟨h3, h4⟩)]
    simp only [hc, hm]
  · intro h
    unfold buildSocs
    by_cases h1 : o.n < 1
    · rw [if_pos h1]
    · by_cases h2 : o.noise < 0
      · rw [if_neg h1, if_pos h2]
      · rw [if_neg h1, if_neg h2, if_pos]
        intro h3
        exact h ⟨by omega, by linarith, h3⟩

/-- **C79 (what `build_socs` returns).** For a template that is a tree of the modelled modules: it raises
`InvalidParameterError` exactly for `num_components < 1`, a negative noise scale or a flip probability outside `[0, 1]`;
otherwise it returns `num_components` circuits of the same skeleton, which are the template itself if `signed=False`, and
otherwise the template with every `Sum` made a `SignedSum` whose weights are the old ones, up to sign, plus `noise_scale` times a
random number (without sign changes for `flip_prob=0`, all negated for `flip_prob=1`). -/
theorem C79_build (o : Opts) {d : ℕ → List ℕ → Draw} (hd : ∀ i p, (d i p).Ok) (t : Tpl) :
    (¬ o.Valid → buildSocs o d t = .error .invalidParameter) ∧
      (o.Valid → ∃ comps, buildSocs o d t = .ok comps ∧ (comps.length : ℤ) = o.n ∧ checkAll comps = .ok () ∧
        (o.signed = false → ∀ c ∈ comps, c = t) ∧
        (o.signed = true → ∀ c ∈ comps, Perturbed (fun w w' => ∃ s e, (s = 1 ∨ s = -1) ∧ w' = s * w + o.noise * e ∧
          (o.flip = 0 → s = 1) ∧ (o.flip = 1 → s = -1)) t c)) := by
  refine ⟨(buildSocs_eq o d t).2, fun hv => ⟨copies o d t, ((buildSocs_eq o d t).1 hv).1, ?_, ?_, ?_, ?_⟩⟩
  · have := hv.1
    simp only [copies, List.length_map, List.length_range]
    omega
  · exact (C79_check _).1.2 fun a ha b hb => (copies_skel o d t a ha).trans (copies_skel o d t b hb).symm
  · intro h c hc
    obtain ⟨i, -, rfl⟩ := List.mem_map.1 hc
    simp [h]
  · intro h c hc
    obtain ⟨i, -, rfl⟩ := List.mem_map.1 hc
    simp only [h, if_true]
    exact convert_perturbed hv.2.1 t (hd i)

theorem selfIps_exists : ∀ {l : List IC}, (∀ c ∈ l, ∃ k, ip c c = .ok k) → ∃ ks, selfIps l = .ok ks
  | [], _ => ⟨[], rfl⟩
  | c :: cs, h => by
    obtain ⟨k, hk⟩ := h c List.mem_cons_self
    obtain ⟨ks, hks⟩ := selfIps_exists (l := cs) fun x hx => h x (List.mem_cons_of_mem _ hx)
    exact ⟨k :: ks, by simp only [selfIps, hk, hks]⟩

/-- **C79 (the density of `build_socs`).** Whatever random numbers are drawn: if the template is an accepted circuit whose self inner
product is defined (leaves other than `Gamma`), the partition function of the returned SOCS is defined, and if it is at least the
clamp `1e-30`, `log_likelihood` is the sum of the squared components over the integral of that sum, a density that integrates to
one over the variables of the template. -/
theorem C79_density (disc : Var → Bool) {S : Set ℝ} (hS : Separated S) {o : Opts} {d : ℕ → List ℕ → Draw} {t : Tpl}
    {comps : List Tpl} (h : buildSocs o d t = .ok comps) (hw : Wf t.ic) (hs : Sorted t.ic) (hl : Leaves (Admissible disc S) t.ic)
    (hu : t.Uniform) (hg : t.NoGamma) (hF : t.ic.F = 1) {c r : ℕ} (hc : c < t.ic.C) (hr : r < t.ic.R)
    (hk : ∃ k, ip t.ic t.ic = .ok k) :
    ∃ ks, selfIps (comps.map Tpl.ic) = .ok ks ∧ (10 ^ (-30 : ℤ) ≤ partition ks 0 c r →
      (∀ x : Var → ℝ, ∃ l, socsLL (comps.map Tpl.ic) (fun v => some (x v)) 0 c r = .ok l ∧
        expL l = socsDensity disc (comps.map Tpl.ic) t.ic.vars 0 c r x) ∧
      IntegrableOver (refMeasure disc) t.ic.vars (socsDensity disc (comps.map Tpl.ic) t.ic.vars 0 c r) ∧
      intOn (refMeasure disc) t.ic.vars (socsDensity disc (comps.map Tpl.ic) t.ic.vars 0 c r) = 1) := by
  have hv : o.Valid := by
    by_contra hv
    rw [(buildSocs_eq o d t).2 hv] at h
    cases h
  obtain ⟨h1, h2⟩ := (buildSocs_eq o d t).1 hv
  rw [h1] at h
  obtain rfl : copies o d t = comps := Except.ok.inj h
  have hsh := copies_shape o d t
  have hall : ∀ x ∈ copies o d t, (∃ k, ip x.ic x.ic = .ok k) ∧ Wf x.ic ∧ Sorted x.ic ∧ Leaves (Admissible disc S) x.ic := by
    intro x hx
    obtain ⟨i, -, rfl⟩ := List.mem_map.1 hx
    cases hsg : o.signed
    · simp only [Bool.false_eq_true, if_false]
      exact ⟨hk, hw, hs, hl⟩
    · simp only [if_true]
      have kp := convert_kept o.flip o.noise t (d i)
      refine ⟨ip_skel kp.skel.symm kp.skel.symm (allSigned_uniform hu) (allSigned_uniform hu) (kp.uniform hu) (kp.uniform hu)
        (allSigned_noGamma hg) (kp.noGamma hg) (by rw [allSigned_ic]; exact hk), kp.wf hw, kp.sorted hs, kp.leaves _ hl⟩
  obtain ⟨ks, hks⟩ := selfIps_exists (l := (copies o d t).map Tpl.ic) (by
    intro x hx
    obtain ⟨y, hy, rfl⟩ := List.mem_map.1 hx
    exact (hall y hy).1)
  refine ⟨ks, hks, fun hz => ?_⟩
  obtain ⟨V, hV, h3⟩ := C35_socs_normalised disc hS (c := c) (r := r) h2 hks (by
    intro x hx
    obtain ⟨y, hy, rfl⟩ := List.mem_map.1 hx
    obtain ⟨-, e2, e3, e4⟩ := hsh y hy
    exact ⟨(hall y hy).2.1, (hall y hy).2.2.1, (hall y hy).2.2.2, by rw [e2, hF], by rw [e3]; exact hc, by rw [e4]; exact hr⟩) hz
  have hVt : V = t.ic.vars := by
    have hne : copies o d t ≠ [] := by
      unfold copies
      simp only [ne_eq, List.map_eq_nil_iff, List.range_eq_nil]
      have := hv.1
      omega
    obtain ⟨y, hy⟩ := List.exists_mem_of_ne_nil _ hne
    rw [← hV y.ic (List.mem_map_of_mem hy), (hsh y hy).1]
  rw [hVt] at h3
  exact h3

theorem perturb_zero {d : Draw} (hd : d.Ok) (w : ℕ → ℕ → ℕ → ℕ → ℝ) : perturb 0 0 d w = w := by
  funext f i o r
  unfold perturb
  rw [if_neg (not_lt.2 (hd f i o r).1), if_neg (lt_irrefl _)]
  ring

theorem convert_zero : ∀ (t : Tpl) {d : List ℕ → Draw}, (∀ p, (d p).Ok) → (t.convert 0 0 d).ic = t.ic := by
  intro t
  induction t with
  | leaf => intro d _; rfl
  | cat1 n cs ih => intro d hd; simp only [Tpl.convert, Tpl.ic, fun i => ih i (d := fun p => d (i :: p)) fun p => hd _]
  | cat2 n cs ih => intro d hd; simp only [Tpl.convert, Tpl.ic, fun i => ih i (d := fun p => d (i :: p)) fun p => hd _]
  | prod c ih => intro d hd; simp only [Tpl.convert, Tpl.ic, ih (d := fun p => d (0 :: p)) fun p => hd _]
  | sum g c Co R w ih =>
    intro d hd
    cases g
    · simp only [Tpl.convert, Tpl.ic, ih (d := fun p => d (0 :: p)) fun p => hd _, perturb_zero (hd [])]
    · simp only [Tpl.convert, Tpl.ic, ih (d := fun p => d (0 :: p)) fun p => hd _]

/-- **C79 (without perturbation).** With `signed=False`, or with no noise and no flips, the SOCS has the density
`t(x)² / ∫ t²` of the squared template `t`, for any number of components. -/
theorem C79_plain (disc : Var → Bool) {o : Opts} {d : ℕ → List ℕ → Draw} (hd : ∀ i p, (d i p).Ok) {t : Tpl} {comps : List Tpl}
    (h : buildSocs o d t = .ok comps) (ho : o.signed = false ∨ (o.noise = 0 ∧ o.flip = 0)) (V : Finset Var) (f c r : ℕ) (x : Var → ℝ) :
    socsDensity disc (comps.map Tpl.ic) V f c r x =
      t.ic.value x f c r ^ 2 / intOn (refMeasure disc) V fun y => t.ic.value y f c r ^ 2 := by
  have hv : o.Valid := by
    by_contra hv
    rw [(buildSocs_eq o d t).2 hv] at h
    cases h
  rw [((buildSocs_eq o d t).1 hv).1] at h
  obtain rfl : copies o d t = comps := Except.ok.inj h
  have hrep : (copies o d t).map Tpl.ic = List.replicate o.n.toNat t.ic := by
    unfold copies
    rw [List.map_map, List.eq_replicate_iff]
    refine ⟨by simp, ?_⟩
    intro y hy
    obtain ⟨i, -, rfl⟩ := List.mem_map.1 hy
    simp only [Function.comp]
    split_ifs with hs
    · rcases ho with ho | ⟨h1, h2⟩
      · rw [ho] at hs; cases hs
      · rw [h1, h2]
        exact convert_zero t (hd i)
    · rfl
  have hn : (o.n.toNat : ℝ) ≠ 0 := by
    have := hv.1
    exact_mod_cast (by omega : o.n.toNat ≠ 0)
  unfold socsDensity
  rw [hrep]
  simp only [List.map_replicate, List.sum_replicate, nsmul_eq_mul]
  exact mul_div_mul_left _ _ hn

/-! ## Complex squared circuits -/

/-- **C79 (complex squares).** `build_complex_socs` accepts exactly circuits over the same variables with the same output shape
(otherwise `InvalidParameterError`), and for accepted single-feature circuits `a`, `b` the density is `|a(x) + i b(x)|²`
over its integral, which integrates to one. -/
theorem C79_complex (disc : Var → Bool) {S : Set ℝ} (hS : Separated S) (a b : Tpl) :
    ((∃ l, buildComplex a b = .ok l) ↔ a.ic.vars = b.ic.vars ∧ a.ic.F = b.ic.F ∧ a.ic.C = b.ic.C ∧ a.ic.R = b.ic.R) ∧
      (∀ e, buildComplex a b = .error e → e = .invalidParameter) ∧
      ∀ {l : List IC} {ks : List Mat} {c r : ℕ}, buildComplex a b = .ok l → selfIps l = .ok ks →
        Wf a.ic → Wf b.ic → Sorted a.ic → Sorted b.ic → Leaves (Admissible disc S) a.ic → Leaves (Admissible disc S) b.ic →
        a.ic.F = 1 → c < a.ic.C → r < a.ic.R → 10 ^ (-30 : ℤ) ≤ partition ks 0 c r →
        ∃ Z, Z = intOn (refMeasure disc) a.ic.vars (fun x => Complex.normSq ⟨a.ic.value x 0 c r, b.ic.value x 0 c r⟩) ∧ 0 < Z ∧
          (∀ x : Var → ℝ, ∃ ll, socsLL l (fun v => some (x v)) 0 c r = .ok ll ∧
            expL ll = Complex.normSq ⟨a.ic.value x 0 c r, b.ic.value x 0 c r⟩ / Z) ∧
          intOn (refMeasure disc) a.ic.vars (fun x => Complex.normSq ⟨a.ic.value x 0 c r, b.ic.value x 0 c r⟩ / Z) = 1 := by
  have hmk : a.ic.vars = b.ic.vars → (a.ic.F, a.ic.C, a.ic.R) = (b.ic.F, b.ic.C, b.ic.R) →
      buildComplex a b = .ok [a.ic, b.ic] := by
    intro h1 h2
    unfold buildComplex
    rw [if_neg (not_not.2 h1), if_neg (not_not.2 h2)]
    simp only [mkSocs]
    rw [if_neg, if_neg]
    · simp only [Prod.mk.injEq] at h2
      simp [h2]
    · simp [h1]
  have hcase : (a.ic.vars = b.ic.vars ∧ (a.ic.F, a.ic.C, a.ic.R) = (b.ic.F, b.ic.C, b.ic.R)) ∨
      buildComplex a b = .error .invalidParameter := by
    unfold buildComplex
    split_ifs with h1 h2
    · exact Or.inr rfl
    · exact Or.inr rfl
    · push Not at h1 h2
      exact Or.inl ⟨h1, h2⟩
  refine ⟨⟨?_, ?_⟩, ?_, ?_⟩
  · rintro ⟨l, hl⟩
    rcases hcase with h | h
    · simpa using h
    · rw [h] at hl; cases hl
  · rintro ⟨h1, h2, h3, h4⟩
    exact ⟨_, hmk h1 (by rw [h2, h3, h4])⟩
  · intro e he
    rcases hcase with h | h
    · rw [hmk h.1 h.2] at he; cases he
    · rw [h] at he; cases he; rfl
  · intro l ks c r hl hks wa wb sa sb la lb hF hc hr hz
    rcases hcase with ⟨h1, h2⟩ | h
    swap
    · rw [h] at hl; cases hl
    rw [hmk h1 h2] at hl
    obtain rfl : [a.ic, b.ic] = l := Except.ok.inj hl
    simp only [Prod.mk.injEq] at h2
    have hm : ∃ l, mkSocs [a.ic, b.ic] = .ok l := by
      have := hmk h1 (by simp [h2])
      unfold buildComplex at this
      rw [if_neg (not_not.2 h1), if_neg (by simp [h2])] at this
      exact ⟨_, this⟩
    have hwf : ∀ d ∈ [a.ic, b.ic], Wf d ∧ Sorted d ∧ Leaves (Admissible disc S) d ∧ d.F = 1 ∧ c < d.C ∧ r < d.R := by
      intro d hd
      simp only [List.mem_cons, List.not_mem_nil, or_false] at hd
      rcases hd with rfl | rfl
      · exact ⟨wa, sa, la, hF, hc, hr⟩
      · exact ⟨wb, sb, lb, h2.1 ▸ hF, h2.2.1 ▸ hc, h2.2.2 ▸ hr⟩
    obtain ⟨V, hV, hll, hint, hone⟩ := C35_socs_normalised disc hS hm hks hwf hz
    have hVa : V = a.ic.vars := (hV a.ic (by simp)).symm
    subst hVa
    have hsq : ∀ x, Complex.normSq ⟨a.ic.value x 0 c r, b.ic.value x 0 c r⟩ = a.ic.value x 0 c r ^ 2 + b.ic.value x 0 c r ^ 2 := by
      intro x
      rw [Complex.normSq_mk]
      ring
    have hden : ∀ x, socsDensity disc [a.ic, b.ic] a.ic.vars 0 c r x =
        Complex.normSq ⟨a.ic.value x 0 c r, b.ic.value x 0 c r⟩ /
          ((intOn (refMeasure disc) a.ic.vars fun y => a.ic.value y 0 c r ^ 2) +
            intOn (refMeasure disc) a.ic.vars fun y => b.ic.value y 0 c r ^ 2) := by
      intro x
      unfold socsDensity
      rw [hsq]
      simp
    obtain ⟨hp, hints⟩ := partition_eq disc hS hks (V := a.ic.vars) (c := c) (r := r) (f := 0) fun d hd => by
      obtain ⟨w1, w2, w3, w4, w5, w6⟩ := hwf d hd
      exact ⟨w1, w2, w3, (fs_one w1 w4).trans (hV d hd), by omega, w5, w6⟩
    have ia := hints a.ic (by simp)
    have ib := hints b.ic (by simp)
    simp only [List.map_cons, List.map_nil, List.sum_cons, List.sum_nil, add_zero] at hp
    have hZ : intOn (refMeasure disc) a.ic.vars (fun x => Complex.normSq ⟨a.ic.value x 0 c r, b.ic.value x 0 c r⟩) =
        (intOn (refMeasure disc) a.ic.vars fun y => a.ic.value y 0 c r ^ 2) +
          intOn (refMeasure disc) a.ic.vars fun y => b.ic.value y 0 c r ^ 2 := by
      simp only [hsq]
      exact integral_add ia ib
    refine ⟨_, rfl, ?_, ?_, ?_⟩
    · rw [hZ, ← hp]
      exact tiny_pos.trans_le hz
    · intro x
      obtain ⟨ll, e1, e2⟩ := hll x
      exact ⟨ll, e1, by rw [e2, hden, hZ]⟩
    · rw [hZ]
      rw [show socsDensity disc [a.ic, b.ic] a.ic.vars 0 c r = _ from funext hden] at hone
      exact hone

end BuildSocs
end Verif

import Verif.Inner
import Mathlib.MeasureTheory.Integral.Marginal
import Mathlib.Data.List.GetD

/-!
# C35: inner products are integrals

Specification: the function a circuit computes (`IC.value`), the variables of each feature (`IC.fs`), and the integral of
a function over a finite set of variables (`intOn`).
-/

open MeasureTheory

namespace Verif
namespace Inner

/-! ## Specification -/

open Classical in
/-- The density (or signed table) of one leaf cell. -/
noncomputable def dens : LeafPar → ℝ → ℝ
  | .bern p, t => if t = 1 then p else if t = 0 then 1 - p else 0
  | .cat K w, t => if ∃ k : ℕ, k < K ∧ t = k then w ⌊t⌋₊ else 0
  | .scat K w, t => if ∃ k : ℕ, k < K ∧ t = k then w ⌊t⌋₊ else 0
  | .expo rate, t => if 0 ≤ t then rate * Real.exp (-(rate * t)) else 0
  | .unif a b, t => if a ≤ t ∧ t ≤ b then 1 / (b - a) else 0
  | .geom p, t => if ∃ k : ℕ, t = k then p * (1 - p) ^ ⌊t⌋₊ else 0
  | .normal m s, t => 1 / (s * Real.sqrt (2 * Real.pi)) * Real.exp (-(t - m) ^ 2 / (2 * s ^ 2))
  | .laplace m b, t => 1 / (2 * b) * Real.exp (-|t - m| / b)
  | .logNormal m s, t =>
    if 0 < t then 1 / (t * s * Real.sqrt (2 * Real.pi)) * Real.exp (-(Real.log t - m) ^ 2 / (2 * s ^ 2)) else 0
  | .poisson l, t => if ∃ k : ℕ, t = k then Real.exp (-l) * l ^ ⌊t⌋₊ / (⌊t⌋₊.factorial : ℝ) else 0
  | .gamma a b, t => if 0 < t then b ^ a / Real.Gamma a * t ^ (a - 1) * Real.exp (-(b * t)) else 0
  | .binom n p, t => if ∃ k : ℕ, k ≤ n ∧ t = k then (n.choose ⌊t⌋₊ : ℝ) * p ^ ⌊t⌋₊ * (1 - p) ^ (n - ⌊t⌋₊) else 0

namespace IC

/-- The value of block `i`. -/
def pickV {n : ℕ} (g : Fin n → ℕ → ℕ → ℕ → ℝ) (i : ℕ) : ℕ → ℕ → ℕ → ℝ :=
  if h : i < n then g ⟨i, h⟩ else fun _ _ _ => 0

/-- The function a circuit represents: value of feature `f`, channel `c`, repetition `r` at the assignment `x`. -/
noncomputable def value (x : Var → ℝ) : IC → ℕ → ℕ → ℕ → ℝ
  | leaf q _ _ par => fun f c r => dens (par f c r) (x (q.getD f 0))
  | cat1 n cs => fun f c r =>
    pickV (fun i : Fin n => value x (cs i)) (locate (List.ofFn fun i : Fin n => F (cs i)) f).1
      (locate (List.ofFn fun i : Fin n => F (cs i)) f).2 c r
  | cat2 n cs => fun f c r =>
    pickV (fun i : Fin n => value x (cs i)) (locate (List.ofFn fun i : Fin n => C (cs i)) c).1
      f (locate (List.ofFn fun i : Fin n => C (cs i)) c).2 r
  | prod c => fun _ ch r => ∏ f ∈ Finset.range (F c), value x c f ch r
  | sum c _ _ w => fun f co r => ∑ i ∈ Finset.range (C c), w f i co r * value x c f i r

/-- The variables feature `f` depends on. -/
def fs : IC → ℕ → Finset Var
  | leaf q _ _ _ => fun f => {q.getD f 0}
  | cat1 n cs => fun f =>
    if h : (locate (List.ofFn fun i : Fin n => F (cs i)) f).1 < n then
      fs (cs ⟨_, h⟩) (locate (List.ofFn fun i : Fin n => F (cs i)) f).2 else ∅
  | cat2 n cs => fun f => if h : 0 < n then fs (cs ⟨0, h⟩) f else ∅
  | prod c => fun _ => (Finset.range (F c)).biUnion (fs c)
  | sum c _ _ _ => fs c

end IC

/-- The assignment that is `y` on `S` and `0` elsewhere. -/
noncomputable def ext (S : Finset Var) (y : S → ℝ) : Var → ℝ := fun v => if h : v ∈ S then y ⟨v, h⟩ else 0

/-- The integral of `g` over the variables in `S`, with respect to the product of their reference measures. -/
noncomputable def intOn (μ : Var → Measure ℝ) (S : Finset Var) (g : (Var → ℝ) → ℝ) : ℝ :=
  ∫ y, g (ext S y) ∂Measure.pi fun v : S => μ v

/-- `g` is integrable over `S`. -/
def IntegrableOver (μ : Var → Measure ℝ) (S : Finset Var) (g : (Var → ℝ) → ℝ) : Prop :=
  Integrable (fun y => g (ext S y)) (Measure.pi fun v : S => μ v)

/-- `g` depends only on the variables in `S`. -/
def Local (S : Finset Var) (g : (Var → ℝ) → ℝ) : Prop := ∀ x y : Var → ℝ, (∀ v ∈ S, x v = y v) → g x = g y

open IC in
/-- Well-formed circuits: what the constructors of the modules enforce (disjoint inputs of `Cat(dim=1)` with equal
channel numbers, equal scopes and feature numbers for `Cat(dim=2)`), equal repetition numbers, and inputs of
`Cat(dim=2)` that agree on which feature covers which variables. -/
def Wf : IC → Prop
  | leaf q _ _ _ => q.Nodup
  | cat1 n cs => 0 < n ∧ (∀ i, Wf (cs i)) ∧ (∀ i j, C (cs i) = C (cs j)) ∧ (∀ i j, R (cs i) = R (cs j)) ∧
      ∀ i j, i ≠ j → Disjoint (vars (cs i)) (vars (cs j))
  | cat2 n cs => 0 < n ∧ (∀ i, Wf (cs i)) ∧ (∀ i j, F (cs i) = F (cs j)) ∧ (∀ i j, R (cs i) = R (cs j)) ∧
      (∀ i j, vars (cs i) = vars (cs j)) ∧ ∀ i j, ∀ f < F (cs i), fs (cs i) f = fs (cs j) f
  | prod c => Wf c
  | sum c _ R' _ => Wf c ∧ R' = R c

/-- Every leaf lists its variables in increasing order. -/
def Sorted : IC → Prop
  | .leaf q _ _ _ => q.Pairwise (· < ·)
  | .cat1 _ cs => ∀ i, Sorted (cs i)
  | .cat2 _ cs => ∀ i, Sorted (cs i)
  | .prod c => Sorted c
  | .sum c _ _ _ => Sorted c

/-- Leaf cells satisfy `P` together with the variable they describe. -/
def Leaves (P : Var → LeafPar → Prop) : IC → Prop
  | .leaf q C R par => ∀ f < q.length, ∀ c < C, ∀ r < R, P (q.getD f 0) (par f c r)
  | .cat1 _ cs => ∀ i, Leaves P (cs i)
  | .cat2 _ cs => ∀ i, Leaves P (cs i)
  | .prod c => Leaves P c
  | .sum c _ _ _ => Leaves P c

/-- The leaf formulas are right: whenever a closed form is returned for two admissible cells of the same variable, it is
the integral of the product of their densities.  (`C35_leaves` proves this for the modelled families.) -/
def LeafIp (μ : Var → Measure ℝ) (P : Var → LeafPar → Prop) : Prop :=
  ∀ v a b z, P v a → P v b → ipPar a b = .ok z →
    Integrable (fun t => dens a t * dens b t) (μ v) ∧ ∫ t, dens a t * dens b t ∂μ v = z

/-! ## Positions in concatenations -/

theorem locate_spec : ∀ (ns : List ℕ) (ch : ℕ), ch < ns.sum →
    ∃ h : (locate ns ch).1 < ns.length, (locate ns ch).2 < ns[(locate ns ch).1]
  | [], ch, h => by simp at h
  | n :: ns, ch, h => by
    by_cases hc : ch < n
    · have e : locate (n :: ns) ch = (0, ch) := by simp [locate, hc]
      simp only [e]
      exact ⟨by simp, by simpa using hc⟩
    · have e : locate (n :: ns) ch = ((locate ns (ch - n)).1 + 1, (locate ns (ch - n)).2) := by simp [locate, hc]
      simp only [e]
      obtain ⟨h1, h2⟩ := locate_spec ns (ch - n) (by simp at h; omega)
      exact ⟨by simpa using h1, by simpa using h2⟩

theorem locate_ofFn {n : ℕ} {s : Fin n → ℕ} {ch : ℕ} (h : ch < (List.ofFn s).sum) :
    ∃ h : (locate (List.ofFn s) ch).1 < n, (locate (List.ofFn s) ch).2 < s ⟨(locate (List.ofFn s) ch).1, h⟩ := by
  obtain ⟨h1, h2⟩ := locate_spec _ _ h
  have h1' : (locate (List.ofFn s) ch).1 < n := by simpa using h1
  refine ⟨h1', ?_⟩
  simpa using h2

theorem locate_inj : ∀ (ns : List ℕ) (a b : ℕ), a < ns.sum → b < ns.sum → locate ns a = locate ns b → a = b
  | [], a, _, h, _, _ => by simp at h
  | n :: ns, a, b, ha, hb, h => by
    unfold locate at h
    by_cases h1 : a < n <;> by_cases h2 : b < n
    · rw [if_pos h1, if_pos h2] at h; simpa using h
    · rw [if_pos h1, if_neg h2] at h; simp at h
    · rw [if_neg h1, if_pos h2] at h; simp at h
    · rw [if_neg h1, if_neg h2] at h
      simp only [Prod.mk.injEq, Nat.add_right_cancel_iff] at h
      have := locate_inj ns (a - n) (b - n) (by simp at ha; omega) (by simp at hb; omega) (Prod.ext h.1 h.2)
      omega

theorem seqFin_ok {α : Type} : ∀ {n : ℕ} {g : Fin n → Except Exc α} {k : Fin n → α}, seqFin g = .ok k →
    ∀ i, g i = .ok (k i)
  | 0, _, _, _, i => i.elim0
  | n + 1, g, k, h, i => by
    unfold seqFin at h
    cases h0 : g 0 with
    | error e => rw [h0] at h; cases h
    | ok a =>
      rw [h0] at h
      cases h1 : seqFin fun i : Fin n => g i.succ with
      | error e => simp only [h1] at h; cases h
      | ok rest =>
        simp only [h1] at h
        cases h
        refine Fin.cases ?_ (fun j => ?_) i
        · simpa using h0
        · simpa using seqFin_ok h1 j

theorem seqFin_of {α : Type} : ∀ {n : ℕ} {g : Fin n → Except Exc α} {k : Fin n → α}, (∀ i, g i = .ok (k i)) →
    seqFin g = .ok k
  | 0, _, k, _ => by
    unfold seqFin
    congr 1
    funext i; exact i.elim0
  | n + 1, g, k, h => by
    unfold seqFin
    rw [h 0, seqFin_of (k := fun i => k i.succ) fun i => h i.succ]
    simp only [Except.ok.injEq]
    funext i
    refine Fin.cases ?_ (fun j => ?_) i <;> simp

/-! ## Integrals over disjoint sets of variables -/

variable {μ : Var → Measure ℝ} [∀ v, SigmaFinite (μ v)]

theorem ext_mem {S : Finset Var} {y : S → ℝ} {v : Var} (h : v ∈ S) : ext S y v = y ⟨v, h⟩ := by
  unfold ext; rw [dif_pos h]

theorem union_aux {S T : Finset Var} (hST : Disjoint S T) {g h : (Var → ℝ) → ℝ} (hg : Local S g) (hh : Local T h) :
    (fun z : (S → ℝ) × (T → ℝ) =>
      (fun y => g (ext (S ∪ T) y) * h (ext (S ∪ T) y)) (MeasurableEquiv.piFinsetUnion (fun _ => ℝ) hST z)) =
      fun z => g (ext S z.1) * h (ext T z.2) := by
  funext z
  obtain ⟨y1, y2⟩ := z
  dsimp only
  congr 1
  · apply hg
    intro v hv
    rw [ext_mem (Finset.mem_union_left _ hv), ext_mem hv]
    exact Equiv.piFinsetUnion_left (fun _ : Var => ℝ) hST hv _
  · apply hh
    intro v hv
    rw [ext_mem (Finset.mem_union_right _ hv), ext_mem hv]
    exact Equiv.piFinsetUnion_right (fun _ : Var => ℝ) hST hv _

theorem intOn_union {S T : Finset Var} (hST : Disjoint S T) {g h : (Var → ℝ) → ℝ} (hg : Local S g) (hh : Local T h) :
    intOn μ (S ∪ T) (fun x => g x * h x) = intOn μ S g * intOn μ T h := by
  unfold intOn
  rw [← integral_prod_mul, ← (measurePreserving_piFinsetUnion hST μ).integral_comp
    (MeasurableEquiv.measurableEmbedding _)]
  congr 1
  exact union_aux hST hg hh

theorem integrableOver_union {S T : Finset Var} (hST : Disjoint S T) {g h : (Var → ℝ) → ℝ} (hg : Local S g)
    (hh : Local T h) (ig : IntegrableOver μ S g) (ih : IntegrableOver μ T h) :
    IntegrableOver μ (S ∪ T) (fun x => g x * h x) := by
  unfold IntegrableOver at *
  rw [← (measurePreserving_piFinsetUnion hST μ).integrable_comp_emb (MeasurableEquiv.measurableEmbedding _)]
  have := ig.mul_prod ih
  rw [← union_aux hST hg hh] at this
  exact this

theorem local_mono {S T : Finset Var} (h : S ⊆ T) {g : (Var → ℝ) → ℝ} (hg : Local S g) : Local T g :=
  fun x y hxy => hg x y fun v hv => hxy v (h hv)

omit [∀ v, SigmaFinite (μ v)] in
theorem intOn_empty (a : ℝ) : intOn μ ∅ (fun _ => a) = a := by
  unfold intOn
  rw [Measure.pi_of_empty (fun v : (∅ : Finset Var) => μ v)]
  simp

omit [∀ v, SigmaFinite (μ v)] in
theorem integrable_empty (a : ℝ) : IntegrableOver μ ∅ (fun _ => a) := by
  unfold IntegrableOver
  rw [Measure.pi_of_empty (fun v : (∅ : Finset Var) => μ v)]
  apply integrable_const

/-- A product of functions of disjoint sets of variables. -/
theorem intOn_prod (n : ℕ) (S : ℕ → Finset Var) (g : ℕ → (Var → ℝ) → ℝ)
    (hd : ∀ i < n, ∀ j < n, i ≠ j → Disjoint (S i) (S j)) (hl : ∀ i < n, Local (S i) (g i))
    (hi : ∀ i < n, IntegrableOver μ (S i) (g i)) :
    IntegrableOver μ ((Finset.range n).biUnion S) (fun x => ∏ i ∈ Finset.range n, g i x) ∧
      intOn μ ((Finset.range n).biUnion S) (fun x => ∏ i ∈ Finset.range n, g i x) =
        ∏ i ∈ Finset.range n, intOn μ (S i) (g i) := by
  induction n with
  | zero =>
    simp only [Finset.range_zero, Finset.biUnion_empty, Finset.prod_empty]
    exact ⟨integrable_empty 1, intOn_empty 1⟩
  | succ n ih =>
    obtain ⟨h1, h2⟩ := ih (fun i hi j hj => hd i (by omega) j (by omega)) (fun i hi => hl i (by omega))
      (fun i hi' => hi i (by omega))
    have hU : (Finset.range (n + 1)).biUnion S = (Finset.range n).biUnion S ∪ S n := by
      rw [Finset.range_add_one, Finset.biUnion_insert, Finset.union_comm]
    have hD : Disjoint ((Finset.range n).biUnion S) (S n) := by
      rw [Finset.disjoint_biUnion_left]
      intro i hi'
      have := Finset.mem_range.1 hi'
      exact hd i (by omega) n (by omega) (by omega)
    have hL : Local ((Finset.range n).biUnion S) (fun x => ∏ i ∈ Finset.range n, g i x) := by
      intro x y hxy
      refine Finset.prod_congr rfl fun i hi' => ?_
      exact hl i (by have := Finset.mem_range.1 hi'; omega) x y fun v hv =>
        hxy v (Finset.mem_biUnion.2 ⟨i, hi', hv⟩)
    simp only [Finset.prod_range_succ, hU]
    exact ⟨integrableOver_union hD hL (hl n (by omega)) h1 (hi n (by omega)),
      by rw [intOn_union hD hL (hl n (by omega)), h2]⟩

omit [∀ v, SigmaFinite (μ v)] in
theorem intOn_sum {ι : Type*} (s : Finset ι) (S : Finset Var) (g : ι → (Var → ℝ) → ℝ)
    (hi : ∀ i ∈ s, IntegrableOver μ S (g i)) :
    IntegrableOver μ S (fun x => ∑ i ∈ s, g i x) ∧
      intOn μ S (fun x => ∑ i ∈ s, g i x) = ∑ i ∈ s, intOn μ S (g i) :=
  ⟨integrable_finsetSum _ hi, integral_finsetSum _ hi⟩

omit [∀ v, SigmaFinite (μ v)] in
theorem intOn_mul (a : ℝ) (S : Finset Var) {g : (Var → ℝ) → ℝ} (hi : IntegrableOver μ S g) :
    IntegrableOver μ S (fun x => a * g x) ∧ intOn μ S (fun x => a * g x) = a * intOn μ S g :=
  ⟨hi.const_mul a, integral_const_mul a _⟩

omit [∀ v, SigmaFinite (μ v)] in
theorem intOn_singleton (v : Var) (g : ℝ → ℝ) (hg : Integrable g (μ v)) :
    IntegrableOver μ {v} (fun x => g (x v)) ∧ intOn μ {v} (fun x => g (x v)) = ∫ t, g t ∂μ v := by
  have hv : v ∈ ({v} : Finset Var) := Finset.mem_singleton_self v
  have hmp := measurePreserving_piUnique (fun w : ({v} : Finset Var) => μ w)
  have e : ∀ y : ({v} : Finset Var) → ℝ, g (ext {v} y v) = g (y ⟨v, hv⟩) := fun y => by rw [ext_mem hv]
  constructor
  · unfold IntegrableOver
    simp only [e]
    exact (hmp.integrable_comp_emb (MeasurableEquiv.measurableEmbedding _)).2 hg
  · unfold intOn
    simp only [e]
    exact hmp.integral_comp (MeasurableEquiv.measurableEmbedding _) g

/-! ## Scopes -/

theorem fs_subset_vars : ∀ {c : IC}, Wf c → ∀ f < c.F, c.fs f ⊆ c.vars
  | .leaf q C R par, _, f, hf => by
    have hf' : f < q.length := hf
    simp only [IC.fs, IC.vars, Finset.singleton_subset_iff, List.mem_toFinset]
    rw [List.getD_eq_getElem _ _ hf']
    exact List.getElem_mem hf'
  | .cat1 n cs, h, f, hf => by
    obtain ⟨h1, h2⟩ := locate_ofFn (s := fun i : Fin n => (cs i).F) hf
    simp only [IC.fs, h1, dif_pos]
    refine (fs_subset_vars (h.2.1 _) _ h2).trans ?_
    exact Finset.subset_biUnion_of_mem (fun i : Fin n => (cs i).vars) (Finset.mem_univ _)
  | .cat2 n cs, h, f, hf => by
    have hn := h.1
    simp only [IC.fs, IC.vars, hn, dif_pos, IC.F] at hf ⊢
    exact fs_subset_vars (h.2.1 _) f hf
  | .prod c, h, f, hf => by
    simp only [IC.fs, IC.vars, Finset.biUnion_subset]
    intro g hg
    exact fs_subset_vars (c := c) h g (Finset.mem_range.1 hg)
  | .sum c _ _ _, h, f, hf => fs_subset_vars (c := c) h.1 f hf

theorem fs_disjoint : ∀ {c : IC}, Wf c → ∀ f < c.F, ∀ g < c.F, f ≠ g → Disjoint (c.fs f) (c.fs g)
  | .leaf q C R par, h, f, hf, g, hg, hfg => by
    have hf' : f < q.length := hf
    have hg' : g < q.length := hg
    simp only [IC.fs]
    rw [Finset.disjoint_singleton, List.getD_eq_getElem _ _ hf', List.getD_eq_getElem _ _ hg']
    intro e
    exact hfg ((List.Nodup.getElem_inj_iff h).1 e)
  | .cat1 n cs, h, f, hf, g, hg, hfg => by
    obtain ⟨h1, h2⟩ := locate_ofFn (s := fun i : Fin n => (cs i).F) hf
    obtain ⟨h3, h4⟩ := locate_ofFn (s := fun i : Fin n => (cs i).F) hg
    simp only [IC.fs, h1, h3, dif_pos]
    by_cases e : (locate (List.ofFn fun i : Fin n => (cs i).F) f).1 = (locate (List.ofFn fun i : Fin n => (cs i).F) g).1
    · have e' : (⟨_, h1⟩ : Fin n) = ⟨_, h3⟩ := Fin.ext e
      rw [e'] at h2 ⊢
      refine fs_disjoint (h.2.1 _) _ h2 _ h4 fun e2 => hfg ?_
      exact locate_inj _ _ _ hf hg (Prod.ext e e2)
    · refine Finset.disjoint_of_subset_left (fs_subset_vars (h.2.1 _) _ h2)
        (Finset.disjoint_of_subset_right (fs_subset_vars (h.2.1 _) _ h4) (h.2.2.2.2 _ _ ?_))
      intro e2
      exact e (by simpa using congrArg Fin.val e2)
  | .cat2 n cs, h, f, hf, g, hg, hfg => by
    have hn := h.1
    simp only [IC.fs, hn, dif_pos, IC.F] at hf hg ⊢
    exact fs_disjoint (h.2.1 _) f hf g hg hfg
  | .prod c, h, f, hf, g, hg, hfg => by
    simp only [IC.F] at hf hg
    omega
  | .sum c _ _ _, h, f, hf, g, hg, hfg => fs_disjoint (c := c) h.1 f hf g hg hfg

theorem value_local : ∀ {c : IC}, Wf c → ∀ f < c.F, ∀ ch < c.C, ∀ r,
    Local (c.fs f) (fun x => c.value x f ch r)
  | .leaf q C R par, h, f, hf, ch, hch, r => by
    intro x y hxy
    simp only [IC.value]
    rw [hxy _ (by simp [IC.fs])]
  | .cat1 n cs, h, f, hf, ch, hch, r => by
    obtain ⟨h1, h2⟩ := locate_ofFn (s := fun i : Fin n => (cs i).F) hf
    have hc : ch < (cs ⟨_, h1⟩).C := by
      have : ch < (cs ⟨0, h.1⟩).C := by simpa [IC.C, h.1] using hch
      rwa [h.2.2.1 _ ⟨0, h.1⟩]
    intro x y hxy
    simp only [IC.fs, h1, dif_pos] at hxy
    simp only [IC.value, IC.pickV, h1, dif_pos]
    exact value_local (h.2.1 _) _ h2 ch hc r x y hxy
  | .cat2 n cs, h, f, hf, ch, hch, r => by
    obtain ⟨h1, h2⟩ := locate_ofFn (s := fun i : Fin n => (cs i).C) hch
    have hn := h.1
    have hf0 : f < (cs ⟨0, hn⟩).F := by simpa [IC.F, hn] using hf
    intro x y hxy
    simp only [IC.fs, hn, dif_pos] at hxy
    simp only [IC.value, IC.pickV, h1, dif_pos]
    refine value_local (h.2.1 _) f ?_ _ h2 r x y ?_
    · rwa [h.2.2.1 _ ⟨0, hn⟩]
    · rwa [← h.2.2.2.2.2 ⟨0, hn⟩ _ f hf0]
  | .prod c, h, f, hf, ch, hch, r => by
    intro x y hxy
    simp only [IC.value]
    refine Finset.prod_congr rfl fun g hg => ?_
    exact value_local (c := c) h g (Finset.mem_range.1 hg) ch hch r x y fun v hv =>
      hxy v (Finset.mem_biUnion.2 ⟨g, hg, hv⟩)
  | .sum c Co R w, h, f, hf, ch, hch, r => by
    intro x y hxy
    simp only [IC.value]
    refine Finset.sum_congr rfl fun i hi => ?_
    exact congrArg _ (value_local (c := c) h.1 f hf i (Finset.mem_range.1 hi) r x y hxy)

/-! ## Main theorem -/

/-- Accepted pairs have equal scopes, feature numbers and repetition numbers. -/
theorem ip_shape : ∀ {a b : IC} {k : Mat}, ip a b = .ok k → a.vars = b.vars ∧ a.F = b.F ∧ (Wf a → Wf b → a.R = b.R) := by
  intro a b k h
  cases a <;> cases b <;> simp only [ip, reduceCtorEq] at h
  · split_ifs at h with h1 h2 h3
    simp only [not_not] at h1 h2 h3
    exact ⟨h1, h2, fun _ _ => h3⟩
  · split_ifs at h with h1 h2 h3
    simp only [not_not] at h1 h2 h3
    exact ⟨h1, h2, fun _ _ => h3⟩
  · split_ifs at h with h1 h2 h3
    simp only [not_not] at h1 h2 h3
    exact ⟨h1, h2, fun _ _ => h3⟩
  · split_ifs at h with h1 h2
    simp only [not_not] at h1 h2
    exact ⟨h1, rfl, fun _ _ => h2⟩
  · split_ifs at h with h1 h2 h3
    simp only [not_not] at h1 h2 h3
    exact ⟨h1, h2, fun _ _ => h3⟩

theorem sorted_ext {q q' : List Var} (h : q.Pairwise (· < ·)) (h' : q'.Pairwise (· < ·))
    (e : q.toFinset = q'.toFinset) : q = q' := by
  have n1 : q.Nodup := h.imp (fun {a b} (h : a < b) => ne_of_lt h)
  have n2 : q'.Nodup := h'.imp (fun {a b} (h : a < b) => ne_of_lt h)
  have hp : q.Perm q' := (List.perm_ext_iff_of_nodup n1 n2).2 fun v => by
    rw [← List.mem_toFinset, e, List.mem_toFinset]
  exact hp.eq_of_pairwise (fun a b _ _ h1 h2 => absurd h1 (lt_asymm h2)) h h'

theorem C35_main {P : Var → LeafPar → Prop} (hP : LeafIp μ P) : ∀ {a b : IC} {k : Mat}, ip a b = .ok k →
    Wf a → Wf b → Sorted a → Sorted b → Leaves P a → Leaves P b →
    ∀ f < a.F, a.fs f = b.fs f ∧ ∀ i < a.C, ∀ j < b.C, ∀ r < a.R,
      IntegrableOver μ (a.fs f) (fun x => a.value x f i r * b.value x f j r) ∧
      intOn μ (a.fs f) (fun x => a.value x f i r * b.value x f j r) = k f i j r := by
  intro a
  induction a with
  | leaf q C1 R1 par1 =>
    intro b k h wa wb sa sb la lb f hf
    cases b <;> simp only [ip, reduceCtorEq] at h
    rename_i q' C2 R2 par2
    split_ifs at h with h1 h2 h3
    simp only [not_not] at h1 h2 h3
    obtain rfl := sorted_ext sa sb h1
    subst h3
    have hf' : f < q.length := hf
    refine ⟨rfl, fun i hi j hj r hr => ?_⟩
    split at h
    · cases h
    · rename_i k' hk
      cases h
      have e := seqFin_ok (seqFin_ok (seqFin_ok (seqFin_ok hk ⟨f, hf'⟩) ⟨i, hi⟩) ⟨j, hj⟩) ⟨r, hr⟩
      have hI := hP (q.getD f 0) _ _ _ (la f hf' i hi r hr) (lb f hf' j hj r hr) e
      have hS := intOn_singleton (μ := μ) (q.getD f 0)
        (fun t => dens (par1 f i r) t * dens (par2 f j r) t) hI.1
      refine ⟨hS.1, hS.2.trans (hI.2.trans ?_)⟩
      have hc : f < q.length ∧ i < C1 ∧ j < C2 ∧ r < R1 := ⟨hf', hi, hj, hr⟩
      dsimp only
      rw [dif_pos hc]
  | cat1 n cs ih =>
    intro b k h wa wb sa sb la lb f hf
    cases b <;> simp only [ip, reduceCtorEq] at h
    rename_i m ds
    split_ifs at h with h1 h2 h3 h4
    subst h4
    split at h
    · cases h
    · rename_i k' hk
      cases h
      have hk' : ∀ i, ip (cs i) (ds i) = .ok (k' i) := fun i => by simpa using seqFin_ok hk i
      have hF : (fun i : Fin n => (ds i).F) = fun i : Fin n => (cs i).F := by
        funext i; exact (ip_shape (hk' i)).2.1.symm
      obtain ⟨l1, l2⟩ := locate_ofFn (s := fun i : Fin n => (cs i).F) hf
      have := ih ⟨_, l1⟩ (hk' ⟨_, l1⟩) (wa.2.1 _) (wb.2.1 _) (sa _) (sb _) (la _) (lb _) _ l2
      simp only [IC.fs, IC.value, IC.pickV, pick, hF, l1, dif_pos]
      refine ⟨this.1, fun i hi j hj r hr => this.2 i ?_ j ?_ r ?_⟩
      · rw [wa.2.2.1 _ ⟨0, wa.1⟩]; simpa [IC.C, wa.1] using hi
      · rw [wb.2.2.1 _ ⟨0, wb.1⟩]; simpa [IC.C, wb.1] using hj
      · rw [wa.2.2.2.1 _ ⟨0, wa.1⟩]; simpa [IC.R, wa.1] using hr
  | cat2 n cs ih =>
    intro b k h wa wb sa sb la lb f hf
    cases b <;> simp only [ip, reduceCtorEq] at h
    rename_i m ds
    split_ifs at h with h1 h2 h3
    split at h
    · cases h
    · rename_i k' hk
      cases h
      have hk' : ∀ i j, ip (cs i) (ds j) = .ok (k' i j) := fun i j => seqFin_ok (seqFin_ok hk i) j
      have hn := wa.1
      have hm := wb.1
      have hf0 : f < (cs ⟨0, hn⟩).F := by simpa [IC.F, hn] using hf
      have e0 := (ih ⟨0, hn⟩ (hk' _ ⟨0, hm⟩) (wa.2.1 _) (wb.2.1 _) (sa _) (sb _) (la _) (lb _) f hf0).1
      simp only [IC.fs, hn, hm, dif_pos]
      refine ⟨e0, fun i hi j hj r hr => ?_⟩
      obtain ⟨l1, l2⟩ := locate_ofFn (s := fun i : Fin n => (cs i).C) hi
      obtain ⟨l3, l4⟩ := locate_ofFn (s := fun i : Fin m => (ds i).C) hj
      simp only [IC.value, IC.pickV, pick, l1, l3, dif_pos]
      have hf1 : f < (cs ⟨_, l1⟩).F := by rwa [wa.2.2.1 _ ⟨0, hn⟩]
      rw [wa.2.2.2.2.2 ⟨0, hn⟩ ⟨_, l1⟩ f hf0]
      refine (ih ⟨_, l1⟩ (hk' _ ⟨_, l3⟩) (wa.2.1 _) (wb.2.1 _) (sa _) (sb _) (la _) (lb _) f hf1).2 _ l2 _ l4 r ?_
      rw [wa.2.2.2.1 _ ⟨0, hn⟩]; simpa [IC.R, hn] using hr
  | prod c ih =>
    intro b k h wa wb sa sb la lb f hf
    cases b <;> simp only [ip, reduceCtorEq] at h
    rename_i d
    split_ifs at h with h1 h2
    split at h
    · cases h
    · rename_i k' hk
      cases h
      have hF := (ip_shape hk).2.1
      have H := ih hk wa wb sa sb la lb
      simp only [IC.fs, IC.value]
      rw [← hF]
      refine ⟨Finset.biUnion_congr rfl fun g hg => (H g (Finset.mem_range.1 hg)).1, fun i hi j hj r hr => ?_⟩
      simp only [← Finset.prod_mul_distrib]
      have := intOn_prod (μ := μ) c.F c.fs (fun g x => c.value x g i r * d.value x g j r) (fs_disjoint wa)
        (fun g hg x y hxy => by
          exact congrArg₂ (· * ·) (value_local (c := c) wa g hg i hi r x y hxy)
            (value_local (c := d) wb g (hF ▸ hg) j hj r x y (by rw [← (H g hg).1]; exact hxy)))
        (fun g hg => ((H g hg).2 i hi j hj r hr).1)
      refine ⟨this.1, this.2.trans ?_⟩
      exact Finset.prod_congr rfl fun g hg => ((H g (Finset.mem_range.1 hg)).2 i hi j hj r hr).2
  | sum c Co Rs w ih =>
    intro b k h wa wb sa sb la lb f hf
    cases b <;> simp only [ip, reduceCtorEq] at h
    rename_i d Co' Rs' w'
    split_ifs at h with h1 h2 h3
    split at h
    · cases h
    · rename_i k' hk
      cases h
      have H := ih hk wa.1 wb.1 sa sb la lb f hf
      refine ⟨H.1, fun i hi j hj r hr => ?_⟩
      have hr' : r < c.R := by rw [← wa.2]; exact hr
      simp only [IC.fs, IC.value, Finset.sum_mul_sum]
      have step : ∀ a ∈ Finset.range c.C, ∀ b ∈ Finset.range d.C,
          IntegrableOver μ (c.fs f) (fun x => w f a i r * c.value x f a r * (w' f b j r * d.value x f b r)) ∧
          intOn μ (c.fs f) (fun x => w f a i r * c.value x f a r * (w' f b j r * d.value x f b r)) =
            w f a i r * k' f a b r * w' f b j r := by
        intro a ha b hb
        have h0 := H.2 a (Finset.mem_range.1 ha) b (Finset.mem_range.1 hb) r hr'
        have h1 := intOn_mul (μ := μ) (w f a i r * w' f b j r) (c.fs f) h0.1
        have e : (fun x => w f a i r * c.value x f a r * (w' f b j r * d.value x f b r)) =
            fun x => (w f a i r * w' f b j r) * (c.value x f a r * d.value x f b r) := by
          funext x; ring
        rw [e]
        refine ⟨h1.1, h1.2.trans ?_⟩
        rw [h0.2]; ring
      have s1 := fun a (ha : a ∈ Finset.range c.C) => intOn_sum (μ := μ) (Finset.range d.C) (c.fs f)
        (fun b x => w f a i r * c.value x f a r * (w' f b j r * d.value x f b r)) fun b hb => (step a ha b hb).1
      have s2 := intOn_sum (μ := μ) (Finset.range c.C) (c.fs f)
        (fun a x => ∑ b ∈ Finset.range d.C, w f a i r * c.value x f a r * (w' f b j r * d.value x f b r))
        fun a ha => (s1 a ha).1
      refine ⟨s2.1, s2.2.trans (Finset.sum_congr rfl fun a ha => (s1 a ha).2.trans ?_)⟩
      exact Finset.sum_congr rfl fun b hb => (step a ha b hb).2

end Inner
end Verif

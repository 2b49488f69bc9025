import Verif.CircuitInt
import Verif.Leaves
import Mathlib.Tactic.NormNum
import Mathlib.MeasureTheory.Measure.Dirac

/-! # Properties C08-C11: weights, log_likelihood, normalisation, NaN = integrate out -/

open MeasureTheory

namespace Verif
namespace Circ

/-! ## Specification of circuit semantics (C09)

`Sem x r c f ch p`: output feature `f`, channel `ch` of module `c` has likelihood `p` on row `x` in repetition
`r`, in linear space: leaves are densities (missing cells count 1), `Cat` concatenates, `Product` multiplies all
features, `Sum` is the convex combination with the weights the user reads. -/
inductive Sem (x : Row) (r : ℕ) : Circ → ℕ → ℕ → ℝ → Prop
  | leafMissing {q C R d f ch v} : q[f]? = some v → x v = none → Sem x r (leaf q C R d) f ch 1
  | leafValue {q C R d f ch v t} : q[f]? = some v → x v = some t →
      Sem x r (leaf q C R d) f ch (expL (d f ch (bc R r) t))
  | cat1 {n} {cs : Fin n → Circ} {i : Fin n} {j ch p} : j < F (cs i) → Sem x r (cs i) j ch p →
      Sem x r (cat1 n cs) (((List.ofFn fun k => F (cs k)).take i).sum + j) ch p
  | cat2 {n} {cs : Fin n → Circ} {i : Fin n} {f k p} : k < C (cs i) → Sem x r (cs i) f k p →
      Sem x r (cat2 n cs) f (((List.ofFn fun k => C (cs k)).take i).sum + k) p
  | prod {c ch} {p : ℕ → ℝ} : (∀ f < F c, Sem x r c f ch (p f)) →
      Sem x r (prod c) 0 ch (∏ f ∈ Finset.range (F c), p f)
  | sum {c Co R θ f co} {p : ℕ → ℝ} : (∀ ci < C c, Sem x r c f ci (p ci)) →
      Sem x r (sum c Co R θ) f co (∑ ci ∈ Finset.range (C c), weight c θ f ci co (bc R r) * p ci)

/-! ## C08 -/

/-- C08: whatever logits a Sum holds (finite for at least one input of the unit), the weights read back are a
convex combination; and strictly positive where the logit is finite. -/
theorem C08_weights_convex (c : Circ) (θ : ℕ → ℕ → ℕ → ℕ → LogV) (f co r : ℕ)
    (h : ∃ ci < C c, θ f ci co r ≠ ⊥) :
    ∑ ci ∈ Finset.range (C c), weight c θ f ci co r = 1 ∧ (∀ ci, 0 ≤ weight c θ f ci co r) ∧
      ∀ ci < C c, θ f ci co r ≠ ⊥ → 0 < weight c θ f ci co r :=
  ⟨sum_softmax h, fun _ => softmax_nonneg _ _ _, fun _ hi hb => softmax_pos hi hb⟩

/-- C08: the setter accepts exactly tensors of the right shape that are positive and sum to one up to the
`allclose` tolerance. -/
theorem C08_setter_accepts_iff (c : Circ) (Co R : ℕ) (w : Weights) :
    (∃ θ, setWeights c Co R w = .ok θ) ↔
      (w.Fw = F c ∧ w.Ci = C c ∧ w.Co = Co ∧ w.R = R) ∧
      (∀ f < w.Fw, ∀ ci < w.Ci, ∀ co < w.Co, ∀ r < w.R, 0 < w.val f ci co r) ∧
      (∀ f < w.Fw, ∀ co < w.Co, ∀ r < w.R,
        |∑ ci ∈ Finset.range w.Ci, w.val f ci co r - 1| ≤ 1 / 10 ^ 8 + 1 / 10 ^ 5) := by
  unfold setWeights
  simp only [CloseToOne, abs_one, mul_one]
  split
  · rename_i h; simp [h]
  split
  · rename_i h1 h; simp only [not_not] at h1; simp [h]
  split
  · rename_i h1 h2 h
    exact ⟨fun ⟨_, h'⟩ => by simp at h', fun h' => absurd h'.2.2 h⟩
  · rename_i h1 h2 h3; simp only [not_not] at h1 h2 h3
    exact ⟨fun _ => ⟨h1, h2, h3⟩, fun _ => ⟨_, rfl⟩⟩

/-- C08: set-then-get returns the assigned weights divided by their sum; so weights that sum to one exactly
come back unchanged. -/
theorem C08_set_get (c : Circ) (Co R : ℕ) (w : Weights) (θ) (h : setWeights c Co R w = .ok θ)
    {f ci co r : ℕ} (hf : f < w.Fw) (hci : ci < w.Ci) (hco : co < w.Co) (hr : r < w.R) :
    weight c θ f ci co r = w.val f ci co r / ∑ k ∈ Finset.range w.Ci, w.val f k co r ∧
      (∑ k ∈ Finset.range w.Ci, w.val f k co r = 1 → weight c θ f ci co r = w.val f ci co r) := by
  have hacc := (C08_setter_accepts_iff c Co R w).1 ⟨θ, h⟩
  unfold setWeights at h
  split at h
  · simp at h
  split at h
  · simp at h
  split at h
  · simp at h
  simp only [Except.ok.injEq] at h
  have key : weight c θ f ci co r = w.val f ci co r / ∑ k ∈ Finset.range w.Ci, w.val f k co r := by
    unfold weight
    rw [softmax_eq, ← hacc.1.2.1, ← h]
    simp only
    rw [expL_logL (hacc.2.1 f hf ci hci co hco r hr).le]
    congr 1
    exact Finset.sum_congr rfl fun k hk =>
      expL_logL (hacc.2.1 f hf k (Finset.mem_range.1 hk) co hco r hr).le
  exact ⟨key, fun h1 => by rw [key, h1, div_one]⟩

/-! ## C09 -/

theorem sem_exists {c : Circ} (h : Accepted c) (x : Row) (r : ℕ) :
    ∀ {f ch : ℕ}, f < F c → ch < C c → Sem x r c f ch (expL (featAt (den c) f x r ch)) := by
  induction c with
  | leaf q C R d =>
    intro f ch hf hch
    have hq : q[f]? = some q[f] := by simp only [F] at hf; simp [hf]
    rw [featAt_leaf hq]
    rcases hx : x q[f] with _ | t
    · rw [expL_zero]; exact .leafMissing hq hx
    · exact .leafValue hq hx
  | cat1 n cs ih =>
    intro f ch hf hch
    obtain ⟨i, j, hj, rfl⟩ := exists_cat1_index hf
    rw [featAt_cat1 i hj]
    exact .cat1 hj (ih i (h.1 i) hj (by rwa [cat1_C h.2 i]))
  | cat2 n cs ih =>
    intro f ch hf hch
    obtain ⟨i, k, hk, rfl⟩ := exists_cat2_index hch
    rw [featAt_cat2 i hf hk]
    exact .cat2 hk (ih i (h.1 i) (by rwa [cat2_F h.2 i]) hk)
  | prod c ih =>
    intro f ch hf hch
    obtain rfl : f = 0 := by simp only [F] at hf; omega
    rw [expL_featAt_prod]
    exact .prod fun g hg => ih h hg hch
  | sum c Co R θ ih =>
    intro f ch hf hch
    rw [expL_featAt_sum (show f < F c from hf)]
    exact .sum fun ci hci => ih h.1 hf hci

theorem sem_unique {c : Circ} (h : Accepted c) {x : Row} {r : ℕ} :
    ∀ {f ch : ℕ} {p : ℝ}, f < F c → ch < C c → Sem x r c f ch p → p = expL (featAt (den c) f x r ch) := by
  induction c with
  | leaf q C R d =>
    intro f ch p hf hch hs
    cases hs with
    | leafMissing hq hx => rw [featAt_leaf hq, hx]; simp
    | leafValue hq hx => rw [featAt_leaf hq, hx]
  | cat1 n cs ih =>
    intro f ch p hf hch hs
    cases hs with
    | @cat1 _ _ i j _ _ hj hs =>
      have := featAt_cat1 (cs := cs) i hj x r ch
      unfold offF at this
      rw [this]
      exact ih i (h.1 i) hj (by rwa [cat1_C h.2 i]) hs
  | cat2 n cs ih =>
    intro f ch p hf hch hs
    cases hs with
    | @cat2 _ _ i _ k _ hk hs =>
      have := featAt_cat2 (cs := cs) i hf hk x r
      unfold offC at this
      rw [this]
      exact ih i (h.1 i) (by rwa [cat2_F h.2 i]) hk hs
  | prod c ih =>
    intro f ch p hf hch hs
    cases hs with
    | prod hs =>
      rw [expL_featAt_prod]
      exact Finset.prod_congr rfl fun g hg => ih h (Finset.mem_range.1 hg) hch (hs g (Finset.mem_range.1 hg))
  | sum c Co R θ ih =>
    intro f ch p hf hch hs
    cases hs with
    | sum hs =>
      rw [expL_featAt_sum (show f < F c from hf)]
      exact Finset.sum_congr rfl fun ci hci => by
        rw [ih h.1 hf (Finset.mem_range.1 hci) (hs ci (Finset.mem_range.1 hci))]

/-- C09: for every circuit the constructors accept and every row (with or without NaN, with or without zero
probabilities), `exp` of every entry of `log_likelihood` is the value of the mixture/product semantics. -/
theorem C09_log_likelihood_semantics {c : Circ} (h : Accepted c) {x : Row} {T} (hT : logLik c x = .ok T)
    (f ch r : ℕ) (hf : f < F c) (hch : ch < C c) (p : ℝ) :
    Sem x r c f ch p ↔ p = expL (T f ch r) := by
  unfold logLik at hT
  split at hT
  · simp at hT
  · simp only [Except.ok.injEq] at hT
    subst hT
    exact ⟨sem_unique h hf hch, fun e => e ▸ sem_exists h x r hf hch⟩

/-- C09: the max-shifted `logsumexp` is exact, including all-`-inf` inputs. -/
theorem C09_logsumexp_exact (n : ℕ) (l : ℕ → LogV) :
    expL (lse n l) = ∑ i ∈ Finset.range n, expL (l i) ∧ (lse n l = ⊥ ↔ ∀ i < n, l i = ⊥) :=
  ⟨expL_lse n l, lse_eq_bot_iff n l⟩

/-! ## C10 / C11 -/

/-- C11: for every accepted circuit whose channel-concatenated inputs agree feature-wise on their scopes,
replacing the columns `S` by NaN gives the exact integral over these columns.
(`_partial`: the hypothesis `Aligned` is not enforced by the constructors, see `C10_misaligned_not_normalised`;
leaves are assumed to be measurable normalised densities - `LeafOk`.) -/
theorem C11_nan_is_integral_partial {μ : Var → Measure ℝ} [∀ v, SigmaFinite (μ v)] {c : Circ} (h : Accepted c)
    (hal : Aligned c) (hl : LeafOk μ c) {R : ℕ} (hR : tensorR c = some R)
    {f ch r : ℕ} (hf : f < F c) (hch : ch < C c) (hr : r < R)
    (S : Finset Var) (hS : S ⊆ fscope c f) (x : Var → ℝ) :
    ENNReal.ofReal (expL (featAt (den c) f (maskRow S x) r ch)) =
      (∫⋯∫⁻_S, (fun y => ENNReal.ofReal (expL (featAt (den c) f (fun v => some (y v)) r ch))) ∂μ) x :=
  (lmarginal_featAt h hal (repIn_of_tensorR hR (.inr hr)) hl hf hch S hS x).symm

/-- C10: every output of such a circuit integrates to one over the variables of its scope. -/
theorem C10_normalised_partial {μ : Var → Measure ℝ} [∀ v, SigmaFinite (μ v)] {c : Circ} (h : Accepted c)
    (hal : Aligned c) (hl : LeafOk μ c) {R : ℕ} (hR : tensorR c = some R)
    {f ch r : ℕ} (hf : f < F c) (hch : ch < C c) (hr : r < R) (x : Var → ℝ) :
    (∫⋯∫⁻_(fscope c f), (fun y => ENNReal.ofReal (expL (featAt (den c) f (fun v => some (y v)) r ch))) ∂μ) x
      = 1 := by
  rw [lmarginal_featAt h hal (repIn_of_tensorR hR (.inr hr)) hl hf hch _ subset_rfl x]
  rw [expL_featAt_missing h hal (repIn_of_tensorR hR (.inr hr)) hf hch fun v hv => by simp [maskRow, hv]]
  simp

/-- C10: what the constructors establish structurally: the features of every accepted module have pairwise
disjoint scopes, whose union is the module scope (so every Product is decomposable). -/
theorem C10_decomposable {c : Circ} (h : Accepted c) :
    (∀ f < F c, ∀ g < F c, f ≠ g → Disjoint (fscope c f) (fscope c g)) ∧
      ∀ v, v ∈ (scope c).query ↔ ∃ f < F c, v ∈ fscope c f :=
  ⟨fun _ hf _ hg hne => fscope_disjoint h hf hg hne, mem_scope_iff h⟩

/-- C10: the constructors produce accepted modules (so `Accepted` is what a user can build). -/
theorem C10_constructors_accepted :
    (∀ q C R d c, mkLeaf q C R d = .ok c → Accepted c ∧ FiniteLogits c) ∧
    (∀ dim l c, (∀ m ∈ l, Accepted m ∧ FiniteLogits m) → mkCat dim l = .ok c → Accepted c ∧ FiniteLogits c) ∧
    (∀ l c, (∀ m ∈ l, Accepted m ∧ FiniteLogits m) → mkProd l = .ok c → Accepted c ∧ FiniteLogits c) ∧
    (∀ l w c, (∀ m ∈ l, Accepted m ∧ FiniteLogits m) → mkSum l w = .ok c →
      Accepted c ∧ FiniteLogits c) := by
  have hcat : ∀ dim l c, (∀ m ∈ l, Accepted m ∧ FiniteLogits m) → mkCat dim l = .ok c →
      Accepted c ∧ FiniteLogits c := by
    intro dim l c hl h
    unfold mkCat at h
    simp only [bind, Except.bind, pure, Except.pure] at h
    split at h
    · split at h
      · simp at h
      · rename_i hck
        simp only [Except.ok.injEq] at h
        subst h
        refine ⟨⟨fun i => (hl _ (List.get_mem l i)).1, ?_⟩, fun i => (hl _ (List.get_mem l i)).2⟩
        rw [List.ofFn_get]; exact hck
    split at h
    · split at h
      · simp at h
      · rename_i hck
        simp only [Except.ok.injEq] at h
        subst h
        refine ⟨⟨fun i => (hl _ (List.get_mem l i)).1, ?_⟩, fun i => (hl _ (List.get_mem l i)).2⟩
        rw [List.ofFn_get]; exact hck
    · simp at h
  refine ⟨?_, hcat, ?_, ?_⟩
  · intro q C R d c h
    have h' := h
    unfold mkLeaf at h
    simp only [bind, Except.bind, pure, Except.pure] at h
    split at h
    · simp at h
    · simp only [Except.ok.injEq] at h
      subst h
      exact ⟨h', trivial⟩
  · intro l c hl h
    unfold mkProd at h
    split at h
    · simp only [Except.ok.injEq] at h
      subst h
      rename_i c'
      exact hl c' (by simp)
    · simp only [bind, Except.bind, pure, Except.pure] at h
      split at h
      · simp at h
      · rename_i c' hc'
        simp only [Except.ok.injEq] at h
        subst h
        exact (hcat _ _ _ hl hc' : Accepted c' ∧ FiniteLogits c')
  · intro l w c hl h
    have hsum : ∀ c' θ, Accepted c' ∧ FiniteLogits c' → 1 ≤ w.Co → setWeights c' w.Co w.R w = .ok θ →
        Accepted (sum c' w.Co w.R θ) ∧ FiniteLogits (sum c' w.Co w.R θ) := by
      intro c' θ hc hco hθ
      have hacc := (C08_setter_accepts_iff c' w.Co w.R w).1 ⟨θ, hθ⟩
      have hfin : ∀ f < F c', ∀ ci < C c', ∀ co < w.Co, ∀ r < w.R, θ f ci co r ≠ ⊥ := by
        intro f hf ci hci co hco r hr
        unfold setWeights at hθ
        split at hθ
        · simp at hθ
        split at hθ
        · simp at hθ
        split at hθ
        · simp at hθ
        simp only [Except.ok.injEq] at hθ
        subst hθ
        have := hacc.2.1 f (hacc.1.1 ▸ hf) ci (hacc.1.2.1 ▸ hci) co hco r hr
        simp [logL, this]
      refine ⟨⟨hc.1, hco, fun f hf co hco r hr => ?_⟩, hc.2, hfin⟩
      have hpos : 0 < C c' := by
        rcases Nat.eq_zero_or_pos (C c') with h0 | h0
        · have := hacc.2.2 f (hacc.1.1 ▸ hf) co hco r hr
          rw [hacc.1.2.1, h0] at this
          norm_num at this
        · exact h0
      exact ⟨0, hpos, hfin f hf 0 hpos co hco r hr⟩
    unfold mkSum at h
    simp only [bind, Except.bind, pure, Except.pure, throw, throwThe, MonadExceptOf.throw] at h
    split at h
    · simp at h
    split at h
    · simp at h
    rename_i hco
    split at h
    · split at h
      · simp at h
      · rename_i θ hθ
        simp only [Except.ok.injEq] at h
        subst h
        exact hsum _ _ (hl _ (List.mem_singleton.2 rfl)) (by omega) hθ
    · split at h
      · simp at h
      · rename_i c' hc'
        split at h
        · simp at h
        · rename_i θ hθ
          simp only [Except.ok.injEq] at h
          subst h
          exact hsum _ _ (hcat _ _ _ hl hc') (by omega) hθ

/-! ### Non-vacuity: a mixture of two products of a Bernoulli and a Normal leaf -/

/-- Variable 0 is binary, all others are real valued. -/
noncomputable def exMu : Var → Measure ℝ := fun v => if v = 0 then Leaves.countBelow 2 else volume

instance (v : Var) : SigmaFinite (exMu v) := by
  unfold exMu; split <;> infer_instance

/-- One component: Bernoulli(p) on variable 0 times Normal(m, 1) on variable 1. -/
noncomputable def exComp (p m : ℝ) : Circ :=
  prod (cat1 2 ![leaf [0] 1 1 fun _ _ _ => Leaves.bernoulliLL p, leaf [1] 1 1 fun _ _ _ => Leaves.normalLL m 1])

/-- The mixture with weights 1/4, 3/4. -/
noncomputable def exMix : Circ :=
  sum (cat2 2 ![exComp (1/4) 0, exComp (2/3) 5]) 1 1 fun _ ci _ _ => logL (if ci = 0 then 1/4 else 3/4)

theorem exComp_accepted (p m : ℝ) : Accepted (exComp p m) := by
  refine ⟨fun i => ?_, ?_⟩
  · fin_cases i <;> rfl
  · rfl

theorem exMix_ok : Accepted exMix ∧ Aligned exMix ∧ LeafOk exMu exMix ∧ tensorR exMix = some 1 ∧
    fscope exMix 0 = {0, 1} ∧ F exMix = 1 ∧ C exMix = 1 := by
  refine ⟨⟨⟨fun i => ?_, rfl⟩, le_rfl, ?_⟩, ⟨fun i => ?_, ?_⟩, fun i => ?_, ?_, ?_, rfl, rfl⟩
  · fin_cases i <;> exact exComp_accepted _ _
  · intro f _ co _ r _
    exact ⟨0, by decide, by norm_num [logL]⟩
  · fin_cases i <;> exact fun i => by fin_cases i <;> exact trivial
  · intro i j; fin_cases i <;> fin_cases j <;> rfl
  · have key : ∀ p m : ℝ, 0 ≤ p → p ≤ 1 → LeafOk exMu (exComp p m) := by
      intro p m h0 h1 i
      fin_cases i
      · intro i hi ch _ r _
        obtain rfl : i = 0 := by simpa using hi
        exact ⟨Leaves.bernoulli_measurable p, Leaves.bernoulli_normalised h0 h1⟩
      · intro i hi ch _ r _
        obtain rfl : i = 0 := by simpa using hi
        exact ⟨Leaves.normal_measurable m one_pos, Leaves.normal_normalised m one_pos⟩
    fin_cases i
    · exact key _ _ (by norm_num) (by norm_num)
    · exact key _ _ (by norm_num) (by norm_num)
  · rfl
  · rfl

/-- The hypotheses of C09-C11 are met by a genuine mixed discrete/continuous mixture. -/
example : (∫⋯∫⁻_({0, 1} : Finset Var), (fun y => ENNReal.ofReal
    (expL (featAt (den exMix) 0 (fun v => some (y v)) 0 0))) ∂exMu) (fun _ => 0) = 1 := by
  obtain ⟨h1, h2, h3, h4, h5, h6, h7⟩ := exMix_ok
  have := C10_normalised_partial h1 h2 h3 h4 (f := 0) (ch := 0) (r := 0) (by rw [h6]; decide) (by rw [h7]; decide)
    (by decide) (fun _ => 0)
  rwa [h5] at this

/-! ### The constructors do not enforce alignment: a rejected-by-nobody, unnormalised circuit -/

/-- Bernoulli(3/4) leaf over two variables in the given order. -/
noncomputable def badLeaf (q : List Var) : Circ := leaf q 1 1 fun _ _ _ => Leaves.bernoulliLL (3/4)

/-- `Product(Sum([Bernoulli(Scope([0,1])), Bernoulli(Scope([1,0]))], weights=[1/2,1/2]))`. -/
noncomputable def badCirc : Circ :=
  prod (sum (cat2 2 ![badLeaf [0, 1], badLeaf [1, 0]]) 1 1 fun _ _ _ _ => logL (1/2))

theorem badCirc_value (x : Var → ℝ) : expL (featAt (den badCirc) 0 (fun v => some (x v)) 0 0) =
    ((expL (Leaves.bernoulliLL (3/4) (x 0)) + expL (Leaves.bernoulliLL (3/4) (x 1))) / 2) ^ 2 := by
  unfold badCirc
  rw [expL_featAt_prod]
  have hF : F (sum (cat2 2 ![badLeaf [0, 1], badLeaf [1, 0]]) 1 1 fun _ _ _ _ => logL (1/2)) = 2 := rfl
  have hF' : F (cat2 2 ![badLeaf [0, 1], badLeaf [1, 0]]) = 2 := rfl
  have hC : C (cat2 2 ![badLeaf [0, 1], badLeaf [1, 0]]) = 2 := rfl
  have hw : ∀ f ci, weight (cat2 2 ![badLeaf [0, 1], badLeaf [1, 0]]) (fun _ _ _ _ => logL (1/2)) f ci 0 (bc 1 0)
      = 1/2 := by
    intro f ci
    unfold weight
    rw [softmax_eq, hC]
    simp only [Finset.sum_range_succ, Finset.sum_range_zero, expL_logL (show (0:ℝ) ≤ 1/2 by norm_num)]
    norm_num
  have e : ∀ f < 2, expL (featAt (den (sum (cat2 2 ![badLeaf [0, 1], badLeaf [1, 0]]) 1 1
      fun _ _ _ _ => logL (1/2))) f (fun v => some (x v)) 0 0) =
      (expL (Leaves.bernoulliLL (3/4) (x 0)) + expL (Leaves.bernoulliLL (3/4) (x 1))) / 2 := by
    intro f hf
    rw [expL_featAt_sum (by rw [hF']; exact hf), hC, Finset.sum_range_succ, Finset.sum_range_one, hw, hw]
    have h0 := featAt_cat2 (cs := ![badLeaf [0, 1], badLeaf [1, 0]]) 0 (f := f) (k := 0) (by rw [hF']; exact hf)
      (by decide) (fun v => some (x v)) 0
    have h1 := featAt_cat2 (cs := ![badLeaf [0, 1], badLeaf [1, 0]]) 1 (f := f) (k := 0) (by rw [hF']; exact hf)
      (by decide) (fun v => some (x v)) 0
    have o0 : offC ![badLeaf [0, 1], badLeaf [1, 0]] (0 : Fin 2) + 0 = 0 := rfl
    have o1 : offC ![badLeaf [0, 1], badLeaf [1, 0]] (1 : Fin 2) + 0 = 1 := rfl
    rw [o0] at h0
    rw [o1] at h1
    rw [h0, h1]
    rcases (by omega : f = 0 ∨ f = 1) with rfl | rfl
    · have a0 : featAt (den (badLeaf [0, 1])) 0 (fun v => some (x v)) 0 0 = Leaves.bernoulliLL (3/4) (x 0) :=
        featAt_leaf rfl _ _ _
      have a1 : featAt (den (badLeaf [1, 0])) 0 (fun v => some (x v)) 0 0 = Leaves.bernoulliLL (3/4) (x 1) :=
        featAt_leaf rfl _ _ _
      simp only [Matrix.cons_val_zero, Matrix.cons_val_one]
      rw [a0, a1]; ring
    · have a0 : featAt (den (badLeaf [0, 1])) 1 (fun v => some (x v)) 0 0 = Leaves.bernoulliLL (3/4) (x 1) :=
        featAt_leaf rfl _ _ _
      have a1 : featAt (den (badLeaf [1, 0])) 1 (fun v => some (x v)) 0 0 = Leaves.bernoulliLL (3/4) (x 0) :=
        featAt_leaf rfl _ _ _
      simp only [Matrix.cons_val_zero, Matrix.cons_val_one]
      rw [a0, a1]; ring
  rw [hF, Finset.prod_range_succ, Finset.prod_range_one, e 0 (by decide), e 1 (by decide)]
  ring

/-- C10 is false without alignment: this circuit passes every constructor check, its leaves are normalised, its
output is declared to have scope {0,1}, and its total mass over {0,1}² is 9/8. -/
theorem C10_misaligned_not_normalised :
    Accepted badCirc ∧ FiniteLogits badCirc ∧ LeafOk (fun _ => Leaves.countBelow 2) badCirc ∧
    tensorR badCirc = some 1 ∧ F badCirc = 1 ∧ C badCirc = 1 ∧ fscope badCirc 0 = {0, 1} ∧
    (∫⋯∫⁻_(fscope badCirc 0), (fun y => ENNReal.ofReal
      (expL (featAt (den badCirc) 0 (fun v => some (y v)) 0 0))) ∂(fun _ => Leaves.countBelow 2)) (fun _ => 0)
        = ENNReal.ofReal (9 / 8) := by
  have hacc : Accepted badCirc := by
    refine ⟨⟨fun i => ?_, rfl⟩, le_rfl, ?_⟩
    · fin_cases i <;> rfl
    · intro f _ co _ r _
      exact ⟨0, by decide, by norm_num [logL]⟩
  have hleaf : LeafOk (fun _ => Leaves.countBelow 2) badCirc := by
    intro i
    fin_cases i
    · intro i hi ch _ r _
      exact ⟨Leaves.bernoulli_measurable _, Leaves.bernoulli_normalised (by norm_num) (by norm_num)⟩
    · intro i hi ch _ r _
      exact ⟨Leaves.bernoulli_measurable _, Leaves.bernoulli_normalised (by norm_num) (by norm_num)⟩
  have hfs : fscope badCirc 0 = {0, 1} := rfl
  refine ⟨hacc, ⟨fun i => ?_, ?_⟩, hleaf, rfl, rfl, rfl, hfs, ?_⟩
  · fin_cases i <;> trivial
  · intro f _ ci _ co _ r _; norm_num [logL]
  · have hmeas : Measurable fun y : Var → ℝ =>
        ENNReal.ofReal (expL (featAt (den badCirc) 0 (fun v => some (y v)) 0 0)) := by
      refine ENNReal.measurable_ofReal.comp (featAt_measurable (Φ := fun y : Var → ℝ => fun v => some (y v)) ?_
        hacc (repIn_of_tensorR (T := 1) rfl (.inl rfl)) hleaf (by decide) (by decide))
      intro v; exact .inl ⟨fun y => y v, measurable_pi_apply v, fun _ => rfl⟩
    rw [hfs, lmarginal_insert _ hmeas (by decide)]
    simp only [lmarginal_singleton, badCirc_value, Leaves.lintegral_countBelow, Finset.sum_range_succ,
      Finset.sum_range_zero]
    simp [Leaves.bernoulliLL, expL_logL (show (0:ℝ) ≤ 3/4 by norm_num), expL_logL (show (0:ℝ) ≤ 1 - 3/4 by norm_num)]
    have hq : ((2 : ENNReal) ^ 2)⁻¹ = ENNReal.ofReal (1 / 4) := by
      rw [ENNReal.ofReal_div_of_pos (by norm_num)]; norm_num
    rw [hq, ← ENNReal.ofReal_add (by norm_num) (by norm_num), ← ENNReal.ofReal_add (by norm_num) (by norm_num),
      ← ENNReal.ofReal_add (by norm_num) (by norm_num)]
    norm_num

end Circ
end Verif

import Verif.RatSound

/-!
# C67: RatSPN, end to end
-/

open MeasureTheory

namespace Verif.Rat

open Finset Verif.Circ
open Verif.Prog hiding bind

variable {μ : Var → Measure ℝ}

/-! ### Specification -/

/-- What the arguments and the random draws of `RatSPN.__init__` satisfy: leaves as described by `Leaves`, whose number of
repetitions is that of the model or one; the group sizes are shuffled, the variables permuted in every repetition; the
logits are finite. -/
structure Setup (μ : Var → Measure ℝ) (leaves : List Circ) (a : Args) (C Rl : ℕ) (sizes : List ℕ) (perms : ℕ → List ℕ)
    (W : ℕ → ℕ → ℕ → ℕ → ℕ → LogV) (wmix : ℕ → ℕ → LogV) (wroot : ℕ → LogV) : Prop where
  leafOk : Leaves μ leaves C Rl
  chans : 1 ≤ C
  reps : 1 ≤ a.R
  leafReps : Rl = a.R ∨ Rl = 1
  sizes : sizes.Perm (Fact.groupSizes (width leaves) (2 ^ a.depth))
  perms : ∀ r < a.R, (perms r).Perm (List.range (width leaves))
  finW : ∀ l f ci co r, W l f ci co r ≠ ⊥
  finMix : ∀ ch r, wmix ch r ≠ ⊥
  finRoot : ∀ ch, wroot ch ≠ ⊥

/-- The documented restrictions on the numbers, with a split into two parts. -/
structure TwoParts (a : Args) : Prop where
  root : 1 ≤ a.nRoot
  region : 1 ≤ a.nRegion
  splits : 2 ≤ a.numSplits
  two : a.parts = 2

/-! ### What is built -/

variable {leaves : List Circ} {a : Args} {C Rl : ℕ} {sizes : List ℕ} {perms : ℕ → List ℕ}
  {W : ℕ → ℕ → ℕ → ℕ → ℕ → LogV} {wmix : ℕ → ℕ → LogV} {wroot : ℕ → LogV}

theorem build_spec (h : Setup μ leaves a C Rl sizes perms W wmix wroot) (ht : TwoParts a) :
    (width leaves < 2 ^ a.depth → build leaves a sizes perms W wmix wroot = .error .structureError) ∧
    (2 ^ a.depth ≤ width leaves → (a.depth = 0 → build leaves a sizes perms W wmix wroot = .error .valueError) ∧
      (1 ≤ a.depth → (Rejected a.outer C a.nRegion a.depth → build leaves a sizes perms W wmix wroot = .error .shapeError) ∧
        (¬ Rejected a.outer C a.nRegion a.depth → ∃ m, build leaves a sizes perms W wmix wroot = .ok m ∧
          Facts μ leaves a.nRoot a.R Rl wroot m ∧ Poisons m))) := by
  obtain ⟨f1, f2⟩ := addFact_spec h.leafOk h.chans h.reps h.leafReps h.sizes h.perms
  obtain ⟨l0, tl, hcons⟩ := List.exists_cons_of_ne_nil h.leafOk.ne
  have hl0 : l0.C = C := by
    obtain ⟨q, d, rfl⟩ := h.leafOk.leaf l0 (by rw [hcons]; simp)
    rfl
  have hjoin : ∃ s, Scope.joinAll (leaves.map scope) = .ok s := by
    obtain ⟨c, hc⟩ := h.leafOk.joined
    exact hc.scopes.imp fun _ h => h.1
  obtain ⟨s, hs⟩ := hjoin
  have h1 := ht.root
  have h2 := ht.region
  have h3 := ht.splits
  have h4 := h.chans
  have key : build leaves a sizes perms W wmix wroot = (do
      let f ← addFact leaves a.depth a.R sizes perms
      let n ← layers a.mode a.parts a.outer a.nRoot a.nRegion W a.depth f
      if a.depth = 0 then throw .valueError
      return ⟨n, some wmix, if 1 < a.nRoot then some wroot else none⟩) := by
    subst hcons
    unfold build
    simp only [hs, bind, Except.bind, pure, Except.pure, throw, throwThe, MonadExceptOf.throw, ht.two]
    rw [if_neg (show ¬ 2 < 2 by omega), if_neg (show ¬ a.nRoot < 1 by omega), if_neg (show ¬ a.nRegion < 1 by omega),
      if_neg (show ¬ l0.C < 1 by omega), if_neg (show ¬ a.numSplits < 2 by omega)]
  rw [key, ht.two]
  constructor
  · intro hlt
    rw [f1 hlt]; rfl
  · intro hle
    obtain ⟨c, G, hf, hj, hg, hal, hsm⟩ := f2 hle
    have hlay := layers_two (μ := μ) (mode := a.mode) (outer := a.outer) h1 h2 h.finW a.depth (.fact c a.depth a.R G) hg rfl
    have hcC : (Net.fact c a.depth a.R G).C = C := hj.chans
    rw [hcC] at hlay
    constructor
    · intro hd0
      obtain ⟨m, hm, -⟩ := hlay.2 (by unfold Rejected; omega)
      simp only [hf, bind, Except.bind, hm, throw, throwThe, MonadExceptOf.throw]
      rw [if_pos hd0]
    · intro hd
      have hd0 : ¬ a.depth = 0 := by omega
      constructor
      · intro hr
        simp only [hf, bind, Except.bind, hlay.1 hr]
      · intro hr
        obtain ⟨n, hn, hb⟩ := hlay.2 hr
        refine ⟨⟨n, some wmix, if 1 < a.nRoot then some wroot else none⟩, ?_, ?_⟩
        · simp only [hf, bind, Except.bind, hn, pure, Except.pure]
          rw [if_neg hd0]
        · have hnC : n.C = a.nRoot := by rw [hb.chans, if_neg hd0]
          have hnR : n.R = a.R := hb.reps
          refine ⟨⟨⟨hb.good, hb.one, by show 1 ≤ n.R; rw [hnR]; exact h.reps, by simp, ?_, ?_, ?_⟩, hnC, hnR, rfl, ?_, ?_,
            fun e => hb.samp (hsm e)⟩, ⟨hb.wide trivial, ?_, hb.allF hd, hb.allC hd⟩⟩
          · rintro θ he ch _ r _
            cases he
            exact h.finMix ch r
          · intro he
            show n.C = 1
            rw [hnC]
            by_contra hne
            simp only [show 1 < a.nRoot by omega, if_true] at he
            cases he
          · intro w he ch _
            simp only at he
            split_ifs at he
            cases he
            exact h.finRoot ch
          · ext v
            rw [Net.mem_varsOf, mem_scopeOf]
            show v ∈ (scope n.leafOf).query ↔ _
            rw [hb.leaf]
            exact hj.mem v
          · intro x
            have : n.Alive x ↔ (Net.fact c a.depth a.R G).Alive x := by
              rw [Net.alive_iff, Net.alive_iff, hb.leaf, hb.reps]
            exact this.trans (hal x)
          · show 1 ≤ n.depthOf
            rw [hb.depth]; exact hd

/-- The facts about whatever the constructor returned. -/
theorem facts (h : Setup μ leaves a C Rl sizes perms W wmix wroot) (ht : TwoParts a) {m : Model}
    (hm : build leaves a sizes perms W wmix wroot = .ok m) : Facts μ leaves a.nRoot a.R Rl wroot m ∧ Poisons m := by
  obtain ⟨b1, b2⟩ := build_spec h ht
  by_cases hlt : width leaves < 2 ^ a.depth
  · rw [b1 hlt] at hm; cases hm
  obtain ⟨c1, c2⟩ := b2 (by omega)
  by_cases hd : a.depth = 0
  · rw [c1 hd] at hm; cases hm
  obtain ⟨d1, d2⟩ := c2 (by omega)
  by_cases hr : Rejected a.outer C a.nRegion a.depth
  · rw [d1 hr] at hm; cases hm
  obtain ⟨m', hm', hf⟩ := d2 hr
  rw [hm'] at hm
  cases hm
  exact hf

/-! ### The theorems -/

/-- C67, the constructor, for a split into two parts: it raises StructureError exactly if there are fewer than `2 ** depth`
variables, ValueError for depth 0, and - with elementwise products only - ShapeError exactly if a product in a layer with
more than two features has 3 input channels (3 leaf channels and depth at least 2, or 3 region nodes and depth at least 3);
otherwise it returns a model. -/
theorem C67_constructor (h : Setup μ leaves a C Rl sizes perms W wmix wroot) (ht : TwoParts a) :
    (width leaves < 2 ^ a.depth → build leaves a sizes perms W wmix wroot = .error .structureError) ∧
    (2 ^ a.depth ≤ width leaves → a.depth = 0 → build leaves a sizes perms W wmix wroot = .error .valueError) ∧
    (2 ^ a.depth ≤ width leaves → 1 ≤ a.depth →
      (a.outer = false ∧ (C = 3 ∧ 2 ≤ a.depth ∨ a.nRegion = 3 ∧ 3 ≤ a.depth) →
        build leaves a sizes perms W wmix wroot = .error .shapeError) ∧
      (¬ (a.outer = false ∧ (C = 3 ∧ 2 ≤ a.depth ∨ a.nRegion = 3 ∧ 3 ≤ a.depth)) →
        ∃ m, build leaves a sizes perms W wmix wroot = .ok m)) := by
  obtain ⟨b1, b2⟩ := build_spec h ht
  refine ⟨b1, fun hle => (b2 hle).1, fun hle hd => ⟨((b2 hle).2 hd).1, fun hr => ?_⟩⟩
  obtain ⟨m, hm, -⟩ := ((b2 hle).2 hd).2 hr
  exact ⟨m, hm⟩

/-- C67: non-positive numbers of nodes and fewer than two parts are rejected with InvalidParameterError. -/
theorem C67_rejects (h : Leaves μ leaves C Rl) (hbad : a.nRoot < 1 ∨ a.nRegion < 1 ∨ C < 1 ∨ a.numSplits < 2 ∨ a.parts < 2) :
    build leaves a sizes perms W wmix wroot = .error .invalidParameter := by
  obtain ⟨l0, tl, hcons⟩ := List.exists_cons_of_ne_nil h.ne
  have hl0 : l0.C = C := by
    obtain ⟨q, d, rfl⟩ := h.leaf l0 (by rw [hcons]; simp)
    rfl
  obtain ⟨c, hc⟩ := h.joined
  obtain ⟨s, hs, -⟩ := hc.scopes
  subst hcons
  unfold build
  simp only [hs, bind, Except.bind, pure, Except.pure, throw, throwThe, MonadExceptOf.throw, hl0]
  by_cases h1 : a.parts < 2
  · rw [if_pos h1]
  rw [if_neg h1]
  by_cases h2 : a.nRoot < 1
  · rw [if_pos h2]
  rw [if_neg h2]
  by_cases h3 : a.nRegion < 1
  · rw [if_pos h3]
  rw [if_neg h3]
  by_cases h4 : C < 1
  · rw [if_pos h4]
  rw [if_neg h4, if_pos (show a.numSplits < 2 by omega)]

/-- C67, log_likelihood: for every row on which no leaf component is impossible it is the log of the density `m.den`
(mixtures over the region nodes of products over a recursive, per-repetition partition of the variables; a mixture over the
repetitions; a mixture over the root nodes), which is positive. -/
theorem C67_log_likelihood_partial (h : Setup μ leaves a C Rl sizes perms W wmix wroot) (ht : TwoParts a) {m : Model}
    (hm : build leaves a sizes perms W wmix wroot = .ok m) {x : Row} (hx : Possible leaves x) :
    m.logLik x = .ok (some (m.den x)) ∧ m.den x ≠ ⊥ :=
  (facts h ht hm).1.logLik hx

/-- C67, log_likelihood on the other rows: NaN, although the true density may be positive (`-inf * 0` in Factorize).
The log-likelihood is never `-inf`. -/
theorem C67_impossible_component_nan (h : Setup μ leaves a C Rl sizes perms W wmix wroot) (ht : TwoParts a) {m : Model}
    (hm : build leaves a sizes perms W wmix wroot = .ok m) {x : Row} (hx : ¬ Possible leaves x) : m.logLik x = .ok none :=
  (facts h ht hm).1.nan (facts h ht hm).2 hx

/-- C67: the density is normalised: missing values are integrated out exactly, the total mass is one, and it depends on no
other variable.  With `C67_log_likelihood_partial` this is the statement about `exp(log_likelihood)` for leaves that are
positive everywhere (Normal, ...). -/
theorem C67_normalised [∀ v, SigmaFinite (μ v)] (h : Setup μ leaves a C Rl sizes perms W wmix wroot) (ht : TwoParts a)
    {m : Model} (hm : build leaves a sizes perms W wmix wroot = .ok m) :
    (∀ S ⊆ scopeOf leaves, ∀ x : Var → ℝ,
      (∫⋯∫⁻_S, (fun y => ENNReal.ofReal (expL (m.den fun v => some (y v)))) ∂μ) x =
        ENNReal.ofReal (expL (m.den (maskRow S x)))) ∧
    (∀ x : Var → ℝ, (∫⋯∫⁻_(scopeOf leaves), (fun y => ENNReal.ofReal (expL (m.den fun v => some (y v)))) ∂μ) x = 1) ∧
    ∀ x y : Row, (∀ v, InScope leaves v → x v = y v) → m.den x = m.den y :=
  (facts h ht hm).1.normalised

/-- C67 for leaves that are positive everywhere: `exp(log_likelihood)` is a normalised density, and a NaN cell is
integrated out exactly. -/
theorem C67_density_partial [∀ v, SigmaFinite (μ v)] (h : Setup μ leaves a C Rl sizes perms W wmix wroot) (ht : TwoParts a)
    {m : Model} (hm : build leaves a sizes perms W wmix wroot = .ok m) (hpos : ∀ x, Possible leaves x) :
    ∃ g : Row → LogV, (∀ x, m.logLik x = .ok (some (g x))) ∧
      (∀ S ⊆ scopeOf leaves, ∀ x : Var → ℝ, (∫⋯∫⁻_S, (fun y => ENNReal.ofReal (expL (g fun v => some (y v)))) ∂μ) x =
        ENNReal.ofReal (expL (g (maskRow S x)))) ∧
      ∀ x : Var → ℝ, (∫⋯∫⁻_(scopeOf leaves), (fun y => ENNReal.ofReal (expL (g fun v => some (y v)))) ∂μ) x = 1 := by
  obtain ⟨n1, n2, -⟩ := C67_normalised h ht hm
  exact ⟨m.den, fun x => (C67_log_likelihood_partial h ht hm (hpos x)).1, n1, n2⟩

/-- C67 is FALSE for splits into three or more parts (elementwise products): the constructor may accept them, but then
`log_likelihood` raises for every row - Factorize always produces `2 ** depth` features. -/
theorem C67_three_parts_raise (h : Setup μ leaves a C Rl sizes perms W wmix wroot) (hk : 3 ≤ a.parts) (ho : a.outer = false)
    {m : Model} (hm : build leaves a sizes perms W wmix wroot = .ok m) (x : Row) : ∃ ex, m.logLik x = .error ex := by
  obtain ⟨f1, f2⟩ := addFact_spec h.leafOk h.chans h.reps h.leafReps h.sizes h.perms
  obtain ⟨l0, tl, hcons⟩ := List.exists_cons_of_ne_nil h.leafOk.ne
  have key : ∃ f n, addFact leaves a.depth a.R sizes perms = .ok f ∧
      layers a.mode a.parts a.outer a.nRoot a.nRegion W a.depth f = .ok n ∧ a.depth ≠ 0 ∧ m.net = n := by
    subst hcons
    unfold build at hm
    simp only [bind, Except.bind, pure, Except.pure, throw, throwThe, MonadExceptOf.throw] at hm
    split at hm
    · cases hm
    split at hm
    · cases hm
    split at hm
    · cases hm
    split at hm
    · cases hm
    split at hm
    · cases hm
    split at hm
    · cases hm
    split at hm
    · cases hm
    rename_i f hf
    split at hm
    · cases hm
    rename_i n hn
    split at hm
    · cases hm
    rename_i hd
    cases hm
    exact ⟨f, n, hf, hn, hd, rfl⟩
  obtain ⟨f, n, hf, hn, hd, rfl⟩ := key
  by_cases hle : 2 ^ a.depth ≤ width leaves
  swap
  · rw [f1 (by omega)] at hf; cases hf
  obtain ⟨c, G, hf', -⟩ := f2 hle
  rw [hf'] at hf
  cases hf
  rw [ho] at hn
  cases hT : m.net.logLik x with
  | error ex => exact ⟨ex, by unfold Model.logLik; rw [hT]; rfl⟩
  | ok T =>
    exfalso
    obtain ⟨-, h1, h2⟩ := three_parts hk a.depth _ m.net (by exact Nat.one_le_two_pow) hn T hT
    replace h2 : 3 ^ a.depth * m.net.F ≤ 2 ^ a.depth := h2
    have h3 : 2 ^ a.depth < 3 ^ a.depth := Nat.pow_lt_pow_left (by omega) hd
    have h4 : 3 ^ a.depth * 1 ≤ 3 ^ a.depth * m.net.F := Nat.mul_le_mul_left _ h1
    omega

/-! ### log_posterior -/

/-- C67, log_posterior: with one root node UnsupportedOperationError; otherwise, on possible rows, class `k` gets
prior times class density over the model's density, and these are probabilities. -/
theorem C67_posterior_partial (h : Setup μ leaves a C Rl sizes perms W wmix wroot) (ht : TwoParts a) {m : Model}
    (hm : build leaves a sizes perms W wmix wroot = .ok m) (x : Row) :
    (a.nRoot = 1 → m.logPosterior x = .error .unsupported) ∧
    (1 < a.nRoot → Possible leaves x → ∃ p, m.predictProba x = .ok p ∧
      (∀ k < a.nRoot, p k = some (softmax a.nRoot wroot k * expL (m.classDen k x) / expL (m.den x))) ∧
      ∑ k ∈ range a.nRoot, softmax a.nRoot wroot k * expL (m.classDen k x) / expL (m.den x) = 1) :=
  (facts h ht hm).1.posterior x

/-! ### Sampling -/

/-- C67, sampling: `sample()` and `sample(data)` never raise, keep every given value and fill every variable; so does
`sample_with_evidence` on possible evidence. -/
theorem C67_sampling_fills (h : Setup μ leaves a C Rl sizes perms W wmix wroot) (ht : TwoParts a) {m : Model}
    (hm : build leaves a sizes perms W wmix wroot = .ok m) (hRl : Rl = a.R) :
    (∀ y, ¬ Fails (m.sample none y) ∧ ∀ z, Outcome (m.sample none y) z → (∀ v, InScope leaves v → z v ≠ none) ∧
      (∀ v t, y v = some t → z v = some t) ∧ ∀ v, ¬ InScope leaves v → z v = y v) ∧
    ∀ e, Possible leaves e → ¬ Fails (m.sampleWithEvidence e) ∧ ∀ z, Outcome (m.sampleWithEvidence e) z →
      (∀ v, InScope leaves v → z v ≠ none) ∧ (∀ v t, e v = some t → z v = some t) ∧ ∀ v, ¬ InScope leaves v → z v = e v :=
  (facts h ht hm).1.fills h.leafOk hRl

/-- C67, the distribution, as far as it is right (discrete leaves).  With one root node `sample()` draws `x` with probability
`exp(log_likelihood(x))` and `sample_with_evidence(e)` draws the completion `x` with probability p(x)/p(e), for every number of
repetitions.  With several root nodes `sample()` is right for one repetition.  Otherwise it is not:
`C67_several_roots_wrong`, `C67_class_ignores_evidence`. -/
theorem C67_sampling_partial (h : Setup μ leaves a C Rl sizes perms W wmix wroot) (ht : TwoParts a) {m : Model}
    (hm : build leaves a sizes perms W wmix wroot = .ok m) (hRl : Rl = a.R) :
    (a.nRoot = 1 ∨ a.R = 1 → ∀ x, Completes leaves (fun _ => none) x →
      (m.sample none fun _ => none).prob x = ENNReal.ofReal (expL (m.den x))) ∧
    (a.nRoot = 1 → ∀ e x, Possible leaves e → Completes leaves e x →
      (m.sampleWithEvidence e).prob x = ENNReal.ofReal (expL (m.den x) / expL (m.den e))) :=
  (facts h ht hm).1.sampling h.leafOk hRl

/-- C67, the distribution in general: the class is drawn from the prior, also under evidence; the repetition is drawn from one
distribution for all classes (the normalised product over the classes of their mixing weights, resp. of their
posteriors); and the rest is drawn from class and repetition, given the evidence. -/
theorem C67_sampling_law (h : Setup μ leaves a C Rl sizes perms W wmix wroot) (ht : TwoParts a) {m : Model}
    (hm : build leaves a sizes perms W wmix wroot = .ok m) (hRl : Rl = a.R) {e x : Row} (he : Possible leaves e)
    (hx : Completes leaves e x) :
    ((∀ v, e v = none) → (m.sample none e).prob x = ∑ ch ∈ range a.nRoot, ENNReal.ofReal (m.clsProb ch) *
      ∑ r ∈ range a.R, ENNReal.ofReal (m.repProb none r) * ENNReal.ofReal (expL (m.net.den r 0 x ch))) ∧
    (m.sampleWithEvidence e).prob x = ∑ ch ∈ range a.nRoot, ENNReal.ofReal (m.clsProb ch) *
      ∑ r ∈ range a.R, ENNReal.ofReal (m.repProb (some e) r) *
        ENNReal.ofReal (expL (m.net.den r 0 x ch) / expL (m.net.den r 0 e ch)) :=
  (facts h ht hm).1.law hRl he hx

/-- C67 is FALSE on evidence on which some leaf component is impossible: every call of `sample_with_evidence` raises
ValueError (NaN logits), however probable the evidence is. -/
theorem C67_impossible_component_raises (h : Setup μ leaves a C Rl sizes perms W wmix wroot) (ht : TwoParts a) {m : Model}
    (hm : build leaves a sizes perms W wmix wroot = .ok m) {e : Row} (he : ¬ Possible leaves e) :
    Fails (m.sampleWithEvidence e) ∧ ∀ z, ¬ Outcome (m.sampleWithEvidence e) z :=
  (facts h ht hm).1.raises (facts h ht hm).2 he

end Verif.Rat

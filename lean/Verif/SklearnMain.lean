import Verif.SklearnProps
import Verif.LearnSpnProps
import Verif.PromMain

/-!
# C81: fitting and sampling with `SPFlowDensityEstimator`
-/

open MeasureTheory Verif.Circ Verif.Build

namespace Verif
namespace Sk

/-! ## Fitting -/

section
variable {μ : Var → Measure ℝ} [∀ v, SigmaFinite (μ v)]

theorem mem_cols {m : ℕ} {v : ℤ} : v ∈ cols m ↔ 0 ≤ v ∧ v < (m : ℤ) := by
  simp only [cols, List.mem_map, List.mem_range]
  constructor
  · rintro ⟨i, hi, rfl⟩
    exact ⟨Int.natCast_nonneg i, by exact_mod_cast hi⟩
  · rintro ⟨h0, h1⟩
    refine ⟨v.toNat, ?_, Int.toNat_of_nonneg h0⟩
    have := Int.toNat_of_nonneg h0
    omega

theorem cols_nodup (m : ℕ) : (cols m).Nodup :=
  List.nodup_range.map fun a b h => by exact_mod_cast h

theorem cols_ne {m : ℕ} (hm : 1 ≤ m) : cols m ≠ [] := by
  intro h
  have : (0 : ℤ) ∈ cols m := mem_cols.2 ⟨le_rfl, by exact_mod_cast hm⟩
  rw [h] at this
  cases this

/-- What a user can do with the fitted estimator: score any array with the same number of columns; the scores are the logarithms
of one density over all columns, of total mass `M`; NaN cells integrate their variable out. -/
def Scores (μ : Var → Measure ℝ) (p : Params) (e : Est) (m : ℕ) (M : ℝ) : Prop :=
  ∃ dens : Row → ℝ,
    (∀ (X : Arr) (n : ℕ), dims2 X.shape = .ok (n, m) →
      ∃ l, score p e X = .ok l ∧ l.length = n ∧ ∀ i (h : i < l.length), expL l[i] = dens (X.row i)) ∧
    (∀ (S : Finset Var), S ⊆ (cols m).toFinset → ∀ x : Var → ℝ,
      (∫⋯∫⁻_S, (fun y => ENNReal.ofReal (dens fun v => some (y v))) ∂μ) x =
        ENNReal.ofReal (dens fun v => if v ∈ S then none else some (x v))) ∧
    ∀ x : Var → ℝ, (∫⋯∫⁻_((cols m).toFinset), (fun y => ENNReal.ofReal (dens fun v => some (y v))) ∂μ) x = ENNReal.ofReal M

theorem scores_of {p : Params} {e : Est} {c : Circ} (he : e.model = some c) {m : ℕ} (h : Ok μ (· ∈ cols m) c)
    (hk : p.chAgg = "first" ∨ p.chAgg = "logsumexp" ∨ p.chAgg = "logmeanexp") :
    Scores μ p e m (mass p.chAgg (C c)) := by
  have hsc : (scope c).query.toFinset = (cols m).toFinset := by
    ext v
    rw [List.mem_toFinset, List.mem_toFinset]
    exact h.sc v
  refine ⟨density p c 1, fun X n hX => ?_, fun S hS x => ?_, fun x => ?_⟩
  · exact C81_score he h.rep le_rfl h.ch (.inr hk) (.inl rfl) X hX fun v hv => (mem_cols.1 ((h.sc v).1 hv)).2
  · exact C81_missing h.acc h.al h.lf h.rep le_rfl h.ch S (hsc ▸ hS) x
  · have := C81_normalised_partial (p := p) h.acc h.al h.lf h.rep le_rfl h.ch (.inr hk) (.inl rfl) x
    rw [hsc] at this
    rw [this]
    congr 1
    unfold mass
    split_ifs <;> simp

theorem mkLeaf_cols (m C : ℕ) (d : ℕ → ℕ → ℕ → ℝ → LogV) : mkLeaf (cols m) C 1 d = .ok (leaf (cols m) C 1 d) := by
  have hv : Scope.Valid (⟨cols m, []⟩ : Scope) :=
    ⟨fun v hv => (mem_cols.1 hv).1, by simp, cols_nodup m, by simp, by simp, by simp⟩
  have := (Scope.mk?_ok_iff (cols m) [] ⟨cols m, []⟩).2 ⟨rfl, hv⟩
  unfold mkLeaf
  rw [this]
  rfl

/-- C81: learning a structure with `learn_spn` always succeeds (under the assumptions of C31 about the callables) and leaves an
estimator that scores one density over all columns of the training data; with the default reductions it is normalised. -/
theorem C81_learn_spn_partial {p : Params} {w : World} (hp : p.model = none) (hleaf : p.leaf = "normal")
    (hl : p.learner = "learn_spn") (hL : 1 ≤ p.leafCh) (hout : 1 ≤ p.kw.outCh.getD 1) (hF : 2 ≤ p.kw.minF.getD p.minF)
    (hI : 2 ≤ p.kw.minI.getD p.minI) {X : Arr} {n m : ℕ} (hX : dims2 X.shape = .ok (n, m)) (hm : 1 ≤ m)
    (ho : LearnSpn.OracleOk μ ⟨[(cols m, p.leafCh)], p.kw.outCh.getD 1, p.kw.minF.getD p.minF, p.kw.minI.getD p.minI⟩ w.spn)
    (hfuel : n + m < w.fuel) (hk : p.chAgg = "first" ∨ p.chAgg = "logsumexp" ∨ p.chAgg = "logmeanexp") (e : Est) :
    ∃ c, fit p w X e = (⟨some c, some m⟩, none) ∧ C c ≤ max p.leafCh (p.kw.outCh.getD 1) ∧
      Scores μ p ⟨some c, some m⟩ m (mass p.chAgg (C c)) := by
  have hc : LearnSpn.CfgOk ⟨[(cols m, p.leafCh)], p.kw.outCh.getD 1, p.kw.minF.getD p.minF, p.kw.minI.getD p.minI⟩ p.leafCh :=
    ⟨by simp, by simp, hL, hout, hF, hI⟩
  have hs : LearnSpn.ScopeOk ⟨[(cols m, p.leafCh)], p.kw.outCh.getD 1, p.kw.minF.getD p.minF, p.kw.minI.getD p.minI⟩ (cols m) :=
    ⟨cols_ne hm, cols_nodup m, fun v hv => (mem_cols.1 hv).1, fun v hv => ⟨_, List.mem_singleton.2 rfl, hv⟩⟩
  obtain ⟨c, h1, h2, h3⟩ := LearnSpn.learn_ok hc ho w.fuel [] ((List.range n).map X.row) (cols m) hs
    (by simp only [List.length_map, List.length_range, cols]; exact hfuel)
  refine ⟨c, ?_, h3, scores_of rfl h2 hk⟩
  have : learnModel p w ((List.range n).map X.row) m = .ok c := by
    simp only [learnModel, hleaf, hl, mkLeaf_cols, LearnSpn.learnSpn, LearnSpn.requested, ne_eq, not_true_eq_false, if_false, if_true]
    rw [if_neg (by omega), if_neg (by omega)]
    exact h1
  simp only [fit, hX, hp, this]

/-- C81: the same for `learn_prometheus`, on training data without missing values. -/
theorem C81_prometheus_partial {p : Params} {w : World} (hp : p.model = none) (hleaf : p.leaf = "normal")
    (hl : p.learner = "prometheus") (hL : 1 ≤ p.leafCh) {X : Arr} {n m : ℕ} (hX : dims2 X.shape = .ok (n, m)) (hm : 1 ≤ m)
    (ha : Prometheus.argsOk { w.promRest with
      tmpl := [(cols m, p.leafCh)], outCh := p.kw.outCh.getD 1, minF := p.kw.minF.getD p.minF, minI := p.kw.minI.getD p.minI } = true)
    (ho : Prometheus.OracleOk μ { w.promRest with
      tmpl := [(cols m, p.leafCh)], outCh := p.kw.outCh.getD 1, minF := p.kw.minF.getD p.minF, minI := p.kw.minI.getD p.minI } w.prom)
    (hfull : ∀ i < n, ∀ v ∈ cols m, X.row i v ≠ none)
    (hfuel : m < w.fuel) (hk : p.chAgg = "first" ∨ p.chAgg = "logsumexp" ∨ p.chAgg = "logmeanexp") (e : Est) :
    ∃ c, fit p w X e = (⟨some c, some m⟩, none) ∧ Scores μ p ⟨some c, some m⟩ m (mass p.chAgg (C c)) := by
  obtain ⟨cfg, hcfg⟩ : ∃ cfg : Prometheus.Cfg, cfg = { w.promRest with
      tmpl := [(cols m, p.leafCh)], outCh := p.kw.outCh.getD 1, minF := p.kw.minF.getD p.minF, minI := p.kw.minI.getD p.minI } :=
    ⟨_, rfl⟩
  rw [← hcfg] at ha ho
  have htm : cfg.tmpl = [(cols m, p.leafCh)] := by rw [hcfg]
  have hv : Scope.Valid (⟨cols m, []⟩ : Scope) :=
    ⟨fun v hv => (mem_cols.1 hv).1, by simp, cols_nodup m, by simp, by simp, by simp⟩
  obtain ⟨s, hs1, hsv, hsq, _⟩ := Scope.joinAll_ok [(⟨cols m, []⟩ : Scope)] (by simp) (by simpa using hv)
  have hmem : ∀ v, v ∈ s.query ↔ v ∈ cols m := by
    intro v
    rw [hsq v]
    simp
  have hq : Prometheus.requested cfg none = .ok s.query := by
    simp only [Prometheus.requested, htm, List.map_cons, List.map_nil, hs1]
  have hlen : s.query.length = m := by
    have : s.query.toFinset = (cols m).toFinset := by
      ext v; rw [List.mem_toFinset, List.mem_toFinset]; exact hmem v
    rw [← List.toFinset_card_of_nodup hsv.query_nodup, this, List.toFinset_card_of_nodup (cols_nodup m)]
    simp [cols]
  have hc : Prometheus.CfgOk cfg p.leafCh := ⟨by rw [htm]; simp, by rw [htm]; simp, hL⟩
  have hsO : Prometheus.ScopeOk cfg s.query :=
    ⟨fun h => by rw [h] at hlen; simp at hlen; omega, hsv.query_nodup, fun v hv => (mem_cols.1 ((hmem v).1 hv)).1,
      fun v hv => ⟨_, by rw [htm]; exact List.mem_singleton.2 rfl, (hmem v).1 hv⟩⟩
  have hcomp : Prometheus.Complete ((List.range n).map X.row) s.query := by
    intro r hr v hv
    obtain ⟨i, hi, rfl⟩ := List.mem_map.1 hr
    exact Option.isSome_iff_ne_none.2 (hfull i (List.mem_range.1 hi) v ((hmem v).1 hv))
  have key : ∃ c, Prometheus.learnPrometheus cfg w.prom w.fuel ((List.range n).map X.row) none = .ok c ∧
      Ok μ (· ∈ cols m) c := by
    obtain ⟨l, hl', hf⟩ 
      := LearnSpn.mapM_ok (P := fun (_ : ℕ) c => Ok μ (· ∈ s.query) c)
      (f := fun ch => Prometheus.learn cfg w.prom w.fuel [ch] ((List.range n).map X.row) s.query) (List.range cfg.outCh)
      (fun ch _ => by
        obtain ⟨c, h1, h2, _⟩ := Prometheus.learn_ok hc ho ha w.fuel [ch] _ s.query hsO hcomp (by omega)
        exact ⟨c, h1, h2⟩)
    have hl2 : l.length = cfg.outCh := by rw [← hf.length_eq, List.length_range]
    have hok : ∀ c ∈ l, Ok μ (· ∈ s.query) c := fun c h => by
      obtain ⟨_, _, h⟩ := LearnSpn.forall₂_mem_right hf h
      exact h
    have hout : 1 ≤ cfg.outCh := by
      simp only [Prometheus.argsOk, Bool.and_eq_true, decide_eq_true_eq] at ha
      exact ha.1.1.1.1.1.1.1.1
    have hrun : Prometheus.learnPrometheus cfg w.prom w.fuel ((List.range n).map X.row) none = LearnSpn.stack l := by
      simp only [Prometheus.learnPrometheus, hq, if_pos ha, hl']
    rw [hrun]
    rcases l with _ | ⟨c, _ | ⟨d, l⟩⟩
    · simp at hl2; omega
    · exact ⟨c, rfl, (hok c (by simp)).congr hmem⟩
    · obtain ⟨_, h2, h3, _⟩ := cat2_ok (l := c :: d :: l) (by simp) hok
      exact ⟨_, h2, h3.congr hmem⟩
  obtain ⟨c, h1, h2⟩ := key
  refine ⟨c, ?_, scores_of rfl h2 hk⟩
  have : learnModel p w ((List.range n).map X.row) m = .ok c := by
    simp only [learnModel, hleaf, hl, mkLeaf_cols, ne_eq, not_true_eq_false, if_false]
    rw [if_neg (by decide), if_pos trivial, ← hcfg]
    exact h1
  simp only [fit, hX, hp, this]

end

/-- C81: `fit` rejects unknown names before learning and arrays that are not one- or two-dimensional; the estimator then keeps the
model it had. -/
theorem C81_fit_rejects {p : Params} {w : World} {X : Arr} {e : Est} :
    ((∀ n m, dims2 X.shape ≠ .ok (n, m)) → fit p w X e = (e, some .invalidParameter)) ∧
    (∀ n m, dims2 X.shape = .ok (n, m) → p.model = none →
      p.leaf ≠ "normal" ∨ (p.learner ≠ "learn_spn" ∧ p.learner ≠ "prometheus") →
      fit p w X e = (⟨e.model, some m⟩, some .invalidParameter)) := by
  constructor
  · intro h
    have : dims2 X.shape = .error .invalidParameter := by
      revert h
      unfold dims2
      split
      · exact fun h => absurd rfl (h _ _)
      · exact fun h => absurd rfl (h _ _)
      · exact fun _ => rfl
    simp only [fit, this]
  · intro n m hX hp h
    have : learnModel p w ((List.range n).map X.row) m = .error .invalidParameter := by
      unfold learnModel
      by_cases h1 : p.leaf = "normal"
      · have h2 := h.resolve_left (by simp [h1])
        simp only [h1, ne_eq, not_true_eq_false, if_false, mkLeaf_cols, if_neg h2.1, if_neg h2.2]
      · rw [if_pos h1]
    simp only [fit, hX, hp, this]

/-- C81: a `fit` that raises because the given model has no maximum likelihood estimation leaves the estimator fitted: the next
`score_samples` works, with the parameters the model had. -/
theorem C81_failed_fit_leaves_model {p : Params} {w : World} {X : Arr} {e : Est} {g : Given} (hp : p.model = some g)
    (hfit : p.fitParams = true) (hg : g.mle = none ∨ ∃ f, g.mle = some f ∧ ∀ rows, f rows = .error .unsupported) {n m : ℕ}
    (hX : dims2 X.shape = .ok (n, m)) :
    fit p w X e = (⟨some g.circ, some m⟩, some .invalidParameter) := by
  rcases hg with hg | ⟨f, hg, hf⟩
  · simp [fit, hX, hp, hfit, hg]
  · simp [fit, hX, hp, hfit, hg, hf]

/-! ## Sampling -/

/-- C81: `sample` never moves torch's global generator; with a seed its result does not depend on the generator. -/
theorem C81_generator {G A : Type} (draw : Circ → ℕ → G → A × G) (seed : ℤ → G) (e : Est) (n : ℤ) (g g' : G) :
    (∀ rs, (sample draw seed e n rs g).2 = g) ∧
    (∀ s, (sample draw seed e n (some s) g).1 = (sample draw seed e n (some s) g').1) ∧
    ((∃ a, (sample draw seed e n none g).1 = .ok a) ↔ e.model ≠ none ∧ 1 ≤ n) := by
  refine ⟨fun rs => ?_, fun s => ?_, ?_⟩
  · unfold sample
    rcases e.model with _ | c
    · rfl
    · dsimp only
      split_ifs
      · rfl
      · rcases rs with _ | s <;> rfl
  · unfold sample
    rcases e.model with _ | c
    · rfl
    · dsimp only
      split_ifs <;> rfl
  · unfold sample
    rcases e.model with _ | c
    · simp
    · dsimp only
      split_ifs with h
      · simp; omega
      · simp; omega

/-- C81: without a seed, a second call returns the samples of the first call again: the generator is put back in between. -/
theorem C81_unseeded_repeats {G A : Type} (draw : Circ → ℕ → G → A × G) (seed : ℤ → G) (e : Est) (n : ℤ) (g : G) :
    (sample draw seed e n none (sample draw seed e n none g).2).1 = (sample draw seed e n none g).1 := by
  rw [(C81_generator draw seed e n g g).1 none]

/-- C81: a row drawn by `sample` follows the density that `score_samples` reports, provided the reductions look at the first
channel and repetition only (`first`, or one channel and one repetition). -/
theorem C81_sampling_law_partial {p : Params} {c : Circ} (h : Accepted c) (hal : Aligned c) (hp : PosCh c) (hr : RepS 0 c) {R : ℕ}
    (hch : C c = 1 ∨ p.chAgg = "first") (hrep : R = 1 ∨ p.repAgg = "first") (x : Row) (hx : Completes c (fun _ => none) x) :
    (sampleData c fun _ => none).prob x = ENNReal.ofReal (density p c R x) := by
  rw [C14_unconditional_partial h hal hp hr x hx]
  unfold density agg likelihood
  rw [if_pos hch]
  dsimp only
  rw [if_pos hrep]

/-! ## Examples -/

/-- A leaf over two binary variables with two channels. -/
noncomputable def exCirc : Circ := leaf [0, 1] 2 1 fun _ ch _ => Leaves.bernoulliLL (if ch = 0 then 1/4 else 3/4)

/-- The default constructor arguments, with the model given and `fit_params=False`. -/
noncomputable def exParams : Params :=
  ⟨some ⟨exCirc, none⟩, "learn_spn", ⟨none, none, none⟩, false, "normal", 1, 100, 2, "logmeanexp", "logmeanexp"⟩

theorem exCirc_ok : Accepted exCirc ∧ Aligned exCirc ∧ PosCh exCirc ∧ RepS 0 exCirc ∧ tensorR exCirc = some 1 ∧ C exCirc = 2 ∧
    LeafOk (fun _ => Leaves.countBelow 2) exCirc := by
  refine ⟨rfl, trivial, by show 1 ≤ 2; omega, by show 0 < 1; omega, rfl, rfl, fun i hi ch _ r _ => ?_⟩
  exact ⟨Leaves.bernoulli_measurable _, Leaves.bernoulli_normalised (by split_ifs <;> norm_num) (by split_ifs <;> norm_num)⟩

/-- Standard normal leaves, splits by the parity of the position. -/
noncomputable def exWorld : World where
  spn := ⟨fun _ _ scope => (List.range scope.length).map (· % 2), fun _ _ rows => (List.range rows.length).map (· % 2),
    fun _ _ _ _ => fun _ _ _ => Leaves.normalLL 0 1, fun _ _ _ _ _ _ => ((0 : ℝ) : LogV)⟩
  prom := ⟨fun _ rows _ => (List.range rows.length).map (· % 2), fun _ _ _ => .error .runtimeError, fun _ _ _ _ _ => 0,
    fun _ _ _ _ => [], fun _ _ _ _ => fun _ _ _ => Leaves.normalLL 0 1, fun _ _ _ _ _ _ => ((0 : ℝ) : LogV)⟩
  promRest := ⟨[], 1, 2, 100, 2, true, .corr, .full⟩
  fuel := 1000

/-- C81: the hypotheses of the learning theorems are met by the default arguments on 200 rows and 3 columns. -/
theorem C81_learn_example (e : Est) (X : Arr) (hX : X.shape = [200, 3]) :
    ∃ c, fit { exParams with model := none } exWorld X e = (⟨some c, some 3⟩, none) ∧
      Scores (fun _ => volume) { exParams with model := none } ⟨some c, some 3⟩ 3 1 := by
  have hd : dims2 X.shape = .ok (200, 3) := by rw [hX]; rfl
  obtain ⟨c, h1, _, h3⟩ := C81_learn_spn_partial (μ := fun _ => volume) (p := { exParams with model := none }) (w := exWorld) rfl rfl
    rfl le_rfl le_rfl le_rfl (by decide) hd (by omega)
    ⟨fun _ _ _ => by simp [exWorld], fun _ _ _ => by simp [exWorld], fun path ch rows h => by
        have h2 : 100 ≤ rows.length := h
        refine ⟨0, ?_, 1, ?_, by decide⟩
        · exact List.mem_map.2 ⟨0, by simp; omega, rfl⟩
        · exact List.mem_map.2 ⟨1, by simp; omega, rfl⟩,
      fun _ _ _ _ i hi ch r => ⟨Leaves.normal_measurable 0 one_pos, Leaves.normal_normalised 0 one_pos⟩,
      fun _ _ _ _ _ _ => by simp [exWorld]⟩ (by decide) (.inr (.inr rfl)) e
  exact ⟨c, h1, h3⟩

/-- C81: a concrete array with a missing cell: two rows, scores 5/16 and 1/2. -/
theorem C81_example (w : World) :
    fit exParams w ⟨[2, 2], fun i => if i = [1, 1] then none else some 1⟩ ⟨none, none⟩ = (⟨some exCirc, some 2⟩, none) ∧
    ∃ l, score exParams ⟨some exCirc, some 2⟩ ⟨[2, 2], fun i => if i = [1, 1] then none else some 1⟩ = .ok l ∧
      l.map expL = [5/16, 1/2] := by
  refine ⟨rfl, ?_⟩
  obtain ⟨l, h1, h2, h3⟩ := C81_score (p := exParams) (e := ⟨some exCirc, some 2⟩) rfl exCirc_ok.2.2.2.2.1 le_rfl
    (by rw [exCirc_ok.2.2.2.2.2.1]; omega) (.inr (.inr (.inr rfl))) (.inl rfl)
    ⟨[2, 2], fun i => if i = [1, 1] then none else some 1⟩ (n := 2) (m := 2) rfl (by decide)
  refine ⟨l, h1, ?_⟩
  obtain ⟨a, b, rfl⟩ := List.length_eq_two.1 h2
  have ha := h3 0 (by simp)
  have hb := h3 1 (by simp)
  simp only [List.getElem_cons_zero, List.getElem_cons_succ] at ha hb
  rw [List.map_cons, List.map_cons, List.map_nil, ha, hb]
  have e1 : (0:ℝ) ≤ 1/4 := by norm_num
  have e2 : (0:ℝ) ≤ 3/4 := by norm_num
  simp [density, agg, exParams, exCirc, C, F, den, featAt, Arr.row, Finset.prod_range_succ, Finset.sum_range_succ,
    Leaves.bernoulliLL, expL_logL, expL_logL e2, bc, expL_zero]
  norm_num

/-- C81: with the default reductions, samples of a model with two channels do not follow the density that is scored: `sample` uses
the first channel only. -/
theorem C81_samples_first_channel :
    (sampleData exCirc fun _ => none).prob (fun v => if v = 0 ∨ v = 1 then some 1 else none) = ENNReal.ofReal (1 / 16) ∧
    density exParams exCirc 1 (fun v => if v = 0 ∨ v = 1 then some 1 else none) = 5 / 16 := by
  obtain ⟨h1, h2, h3, h4, _⟩ := exCirc_ok
  constructor
  · rw [C14_unconditional_partial h1 h2 h3 h4 _ ⟨?_, by simp, ?_⟩]
    · congr 1
      simp [likelihood, exCirc, F, den, featAt, Finset.prod_range_succ, Leaves.bernoulliLL, expL_logL]
      norm_num
    · intro v hv
      have : v = 0 ∨ v = 1 := by simpa [exCirc, scope] using hv
      simp [this]
    · intro v hv
      have : ¬ (v = 0 ∨ v = 1) := by simpa [exCirc, scope] using hv
      simp [this]
  · have e2 : (0:ℝ) ≤ 3/4 := by norm_num
    simp [density, agg, exParams, exCirc, C, F, den, featAt, Finset.prod_range_succ, Finset.sum_range_succ,
      Leaves.bernoulliLL, expL_logL, expL_logL e2]
    norm_num

/-- C81: `logsumexp` over the channels gives total mass two for the same model. -/
theorem C81_logsumexp_not_normalised (x : Var → ℝ) :
    (∫⋯∫⁻_((scope exCirc).query.toFinset), (fun y => ENNReal.ofReal (density { exParams with chAgg := "logsumexp" } exCirc 1
      fun v => some (y v))) ∂(fun _ => Leaves.countBelow 2)) x = ENNReal.ofReal 2 := by
  obtain ⟨h1, h2, _, _, h5, h6, h7⟩ := exCirc_ok
  rw [C81_normalised_partial h1 h2 h7 h5 le_rfl (by rw [h6]; omega) (.inr (.inr (.inl rfl))) (.inl rfl) x, h6]
  simp [mass, exParams]

end Sk
end Verif

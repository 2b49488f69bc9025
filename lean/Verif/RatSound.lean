import Verif.RatLeaves

/-!
Helper lemmas for C67 and C68: what holds of every model built from leaves, whoever built it.
-/

open MeasureTheory

namespace Verif.Rat

open Finset Verif.Circ
open Verif.Prog hiding bind

variable {μ : Var → Measure ℝ}

/-- `x` is a completion of the evidence `e` on the variables of the leaves. -/
def Completes (leaves : List Circ) (e x : Row) : Prop :=
  (∀ v, InScope leaves v → x v ≠ none) ∧ (∀ v t, e v = some t → x v = some t) ∧ ∀ v, ¬ InScope leaves v → x v = e v

/-- The variables of the leaves. -/
noncomputable def scopeOf (leaves : List Circ) : Finset Var := (leaves.map fun m => (scope m).query).flatten.toFinset

theorem mem_scopeOf {leaves : List Circ} {v : Var} : v ∈ scopeOf leaves ↔ InScope leaves v := by
  simp [scopeOf, InScope]

/-! ### Factorize -/

variable {leaves : List Circ} {C Rl : ℕ} {sizes : List ℕ} {perms : ℕ → List ℕ}

/-- `Factorize` of the leaves. -/
theorem addFact_spec (hl : Leaves μ leaves C Rl) (hC : 1 ≤ C) {depth R : ℕ} (hR : 1 ≤ R) (hRl : Rl = R ∨ Rl = 1)
    (hs : sizes.Perm (Fact.groupSizes (width leaves) (2 ^ depth))) (hp : ∀ r < R, (perms r).Perm (List.range (width leaves))) :
    (width leaves < 2 ^ depth → addFact leaves depth R sizes perms = .error .structureError) ∧
    (2 ^ depth ≤ width leaves → ∃ c G, addFact leaves depth R sizes perms = .ok (.fact c depth R G) ∧ Joined μ leaves C Rl c ∧
      (Net.fact c depth R G).Good μ ∧ (∀ e, (Net.fact c depth R G).Alive e ↔ Possible leaves e) ∧
      (Rl = R → (Net.fact c depth R G).Samp)) := by
  obtain ⟨c, hc⟩ := hl.joined
  have key : addFact leaves depth R sizes perms = (do
      let _ ← Fact.factorize (width leaves) depth sizes (perms 0)
      return .fact c depth R fun r => groupsOf (width leaves) depth sizes (perms r)) := by
    unfold addFact
    simp only [hc.join, bind, Except.bind, pure, Except.pure, hc.query]
  rw [key]
  have hpart := fun r hr => Fact.C20_partition (width leaves) depth sizes (perms r) hs (hp r hr)
  constructor
  · intro hlt
    rw [(hpart 0 hR).1 hlt]; rfl
  · intro hle
    obtain ⟨g0, hg0, -⟩ := (hpart 0 hR).2 hle
    refine ⟨c, _, by simp only [hg0, bind, Except.bind, pure, Except.pure]; rfl, hc, ?_, ?_, ?_⟩
    · refine ⟨⟨hc.acc, hc.al, hc.lf⟩, by rw [hc.chans]; exact hC, ?_, fun r hr => ?_⟩
      · rw [hc.reps]
        rcases hRl with rfl | rfl
        · exact .inl rfl
        · exact .inr rfl
      · obtain ⟨g, hg, h1, h2, -⟩ := (hpart r hr).2 hle
        beta_reduce
        unfold groupsOf
        rw [hg, hc.width]
        exact ⟨h2, h1⟩
    · intro e
      exact hc.possible R e hRl hR
    · rintro rfl
      exact ⟨hc.pos hC, fun r hr => ⟨hc.repS r hr, fun e => hc.live e r⟩⟩

theorem possible_none {e : Row} (h : Leaves μ leaves C Rl) (he : ∀ v, e v = none) : Possible leaves e := by
  intro m hm i hi ch hch r hr
  obtain ⟨q, d, rfl⟩ := h.leaf m hm
  rw [featAt_leaf (List.getElem?_eq_getElem hi), he]
  simp

/-! ### Sampling from NaN -/

namespace Net

theorem pickNan_none {m F : ℕ} {l : ℕ → Option (ℕ → LogV)} (h : ∃ f < F, l f = none) : pickNan m l F = .fail .valueError := by
  unfold pickNan
  rw [if_neg]
  intro hall
  rw [List.all_eq_true] at hall
  obtain ⟨f, hf, hn⟩ := h
  have := hall f (List.mem_range.2 hf)
  rw [hn] at this
  cases this

theorem mixLogits_none {m : ℕ} {θ : ℕ → LogV} {u : ℕ → Option LogV} (h : ∃ i < m, u i = none) : mixLogits m θ (some u) = none := by
  unfold mixLogits
  simp only
  rw [allSome_none h]
  rfl

theorem pair_none {T : NT} {F C r f0 c0 : ℕ} {A B : Prop}
    (h : ∀ f < F, (A ∨ f ≠ f0) → ∀ c < C, (B ∨ c = c0) → T f c r = none) (hc : c0 < C) (hF : 2 ≤ F) : pairLL T 0 r c0 c0 = none := by
  unfold pairLL
  by_cases h0 : f0 = 0
  · have : T (2 * 0 + 1) c0 r = none := h _ (by omega) (.inr (by omega)) c0 hc (.inr rfl)
    rw [this]
    cases T (2 * 0) c0 r <;> rfl
  · have : T (2 * 0) c0 r = none := h _ (by omega) (.inr (by omega)) c0 hc (.inr rfl)
    rw [this]
    cases T (2 * 0 + 1) c0 r <;> rfl

theorem posF {n : Net} (h : n.Good μ) (hw : n.Wide) : 0 < F n := by
  induction n with
  | fact c d R G => exact Nat.two_pow_pos d
  | prod n mode k outer ih =>
    obtain ⟨-, rfl, he⟩ := h
    obtain ⟨e1, e2⟩ := even_F he
    show 0 < prodF (F n) 2 outer
    rw [prodF_two e1 outer]
    exact e2
  | sum n Co θ ih => exact ih h.1 hw
  | einsum n Co p θ ih => exact (even_F h.2.1).2
  | linsum n Co θ ih => exact (even_F h.2.1).2
  | collapse n ih => exact Nat.one_pos

/-- A row on which a leaf component is impossible: below a mixing layer `_sample` raises, whatever is requested. -/
theorem sample_poisoned {n : Net} (h : n.Good μ) (hw : n.Wide) (hd : 1 ≤ n.depthOf) {e : Row} {r i ch0 : ℕ} (hr : r < R n)
    (hi : i < (leafOf n).F) (hch0 : ch0 < (leafOf n).C) (hbot : featAt (Circ.den (leafOf n)) i e r ch0 = ⊥) (hall : allC n)
    (ch : ℕ → ℕ) (mask : ℕ → Bool) (y : Row) : ∃ ex, sample (some e) r n ch mask y = .fail ex := by
  have hFd : ∀ k : Net, k.Good μ → k.Wide → 1 ≤ k.depthOf → (allF k ∨ 2 ≤ F k) := by
    intro k hk hkw hkd
    induction k with
    | fact c d R G =>
      right
      replace hkd : 1 ≤ d := hkd
      calc 2 = 2 ^ 1 := rfl
        _ ≤ 2 ^ d := Nat.pow_le_pow_right (by omega) hkd
    | prod n mode k outer ih => exact .inl trivial
    | sum n Co θ ih => exact ih hk.1 hkw hkd
    | einsum n Co p θ ih => exact .inl trivial
    | linsum n Co θ ih => exact .inl trivial
    | collapse n ih => exact .inl trivial
  induction n generalizing ch mask with
  | fact c d R G => exact hall.elim
  | prod n mode k outer ih =>
    rw [sample]
    beta_reduce
    split_ifs <;> try exact ⟨_, rfl⟩
    all_goals
      dsimp only
      split_ifs <;> first | exact ⟨_, rfl⟩ | exact ih h.1 hw hd hr hi hch0 hbot hall _ _
  | sum n Co θ ih =>
    obtain ⟨T, hT⟩ := logLik_ok h.1 e
    obtain ⟨f0, c0, hc0, hpo⟩ := poison h.1 hw hd hr hi hch0 hbot hT
    have hce : n.cachedLL (some e) = some T := by simp only [cachedLL, hT]
    have hF1 : ∃ f < F n, (allF n ∨ f ≠ f0) := by
      rcases hFd n h.1 hw hd with hF | hF
      · exact ⟨0, posF h.1 hw, .inl hF⟩
      · by_cases hz : f0 = 0
        · exact ⟨1, by omega, .inr (by omega)⟩
        · exact ⟨0, by omega, .inr (by omega)⟩
    obtain ⟨f, hf, hff⟩ := hF1
    rw [sample]
    beta_reduce
    split_ifs
    · exact ⟨_, rfl⟩
    · exact ⟨_, rfl⟩
    · rw [pickNan_none ⟨f, hf, ?_⟩]
      · exact ⟨_, rfl⟩
      · rw [hce]
        exact mixLogits_none ⟨c0, hc0, hpo f hf hff c0 hc0 (.inr rfl)⟩
  | einsum n Co p θ ih =>
    obtain ⟨T, hT⟩ := logLik_ok h.1 e
    obtain ⟨f0, c0, hc0, hpo⟩ := poison h.1 hw hd hr hi hch0 hbot hT
    have hce : n.cachedLL (some e) = some T := by simp only [cachedLL, hT]
    obtain ⟨e1, e2⟩ := even_F h.2.1
    rw [sample]
    beta_reduce
    split_ifs
    · exact ⟨_, rfl⟩
    · exact ⟨_, rfl⟩
    · rw [pickNan_none ⟨0, e2, ?_⟩]
      · exact ⟨_, rfl⟩
      · rw [hce]
        have hk : c0 * C n + c0 < C n * C n := by nlinarith
        have hk1 : (c0 * C n + c0) / C n = c0 := by
          rw [Nat.mul_comm, Nat.mul_add_div (by omega), Nat.div_eq_of_lt hc0, Nat.add_zero]
        have hk2 : (c0 * C n + c0) % C n = c0 := by
          rw [Nat.mul_comm, Nat.mul_add_mod, Nat.mod_eq_of_lt hc0]
        refine mixLogits_none ⟨c0 * C n + c0, hk, ?_⟩
        beta_reduce
        rw [hk1, hk2]
        exact pair_none hpo hc0 (by omega)
  | linsum n Co θ ih =>
    obtain ⟨T, hT⟩ := logLik_ok h.1 e
    obtain ⟨f0, c0, hc0, hpo⟩ := poison h.1 hw hd hr hi hch0 hbot hT
    have hce : n.cachedLL (some e) = some T := by simp only [cachedLL, hT]
    obtain ⟨e1, e2⟩ := even_F h.2.1
    rw [sample]
    beta_reduce
    split_ifs
    · exact ⟨_, rfl⟩
    · exact ⟨_, rfl⟩
    · rw [pickNan_none ⟨0, e2, ?_⟩]
      · exact ⟨_, rfl⟩
      · rw [hce]
        refine mixLogits_none ⟨c0, hc0, ?_⟩
        exact pair_none hpo hc0 (by omega)
  | collapse n ih =>
    rw [sample]
    beta_reduce
    split_ifs
    · exact ⟨_, rfl⟩
    · exact ih h hw.1 hd hr hi hch0 hbot hall _ _

end Net

/-! ### Models -/

/-- What the later theorems need about a constructed model: `K` classes, `R` repetitions, leaves with `Rl` repetitions,
root logits `wroot`. -/
structure Facts (μ : Var → Measure ℝ) (leaves : List Circ) (K R Rl : ℕ) (wroot : ℕ → LogV) (m : Model) : Prop where
  ok : m.Ok μ
  chans : m.net.C = K
  reps : m.net.R = R
  cls : m.cls = if 1 < K then some wroot else none
  vars : m.net.varsOf = scopeOf leaves
  alive : ∀ x, m.net.Alive x ↔ Possible leaves x
  samp : Rl = R → m.net.Samp

/-- The network passes NaN on to every entry of its output. -/
structure Poisons (m : Model) : Prop where
  wide : m.net.Wide
  depth : 1 ≤ m.net.depthOf
  allF : m.net.allF
  allC : m.net.allC

namespace Facts

variable {K R : ℕ} {wroot : ℕ → LogV} {m : Model}

theorem logLik (hf : Facts μ leaves K R Rl wroot m) {x : Row} (hx : Possible leaves x) :
    m.logLik x = .ok (some (m.den x)) ∧ m.den x ≠ ⊥ := by
  have ha := (hf.alive x).2 hx
  exact ⟨Model.logLik_alive hf.ok ha, Model.den_alive hf.ok ha⟩

theorem nan (hf : Facts μ leaves K R Rl wroot m) (hp : Poisons m) {x : Row} (hx : ¬ Possible leaves x) : m.logLik x = .ok none :=
  Model.logLik_nan hf.ok hp.wide hp.depth hp.allF hp.allC fun ha => hx ((hf.alive x).1 ha)

theorem withEvidence (hf : Facts μ leaves K R Rl wroot m) {e : Row} (he : Possible leaves e) :
    m.sampleWithEvidence e = m.sample (some e) e := by
  unfold Model.sampleWithEvidence
  rw [(hf.logLik he).1]

theorem normalised [∀ v, SigmaFinite (μ v)] (hf : Facts μ leaves K R Rl wroot m) :
    (∀ S ⊆ scopeOf leaves, ∀ x : Var → ℝ,
      (∫⋯∫⁻_S, (fun y => ENNReal.ofReal (expL (m.den fun v => some (y v)))) ∂μ) x =
        ENNReal.ofReal (expL (m.den (maskRow S x)))) ∧
    (∀ x : Var → ℝ, (∫⋯∫⁻_(scopeOf leaves), (fun y => ENNReal.ofReal (expL (m.den fun v => some (y v)))) ∂μ) x = 1) ∧
    ∀ x y : Row, (∀ v, InScope leaves v → x v = y v) → m.den x = m.den y := by
  have fam := Model.fam hf.ok
  rw [hf.vars] at fam
  refine ⟨fun S hS x => fam.marginal Nat.one_pos Nat.one_pos S hS x, fun x => ?_, fun x y hxy => ?_⟩
  · rw [fam.marginal Nat.one_pos Nat.one_pos _ (Finset.Subset.refl _) x,
      fam.miss 0 Nat.one_pos 0 Nat.one_pos _ (fun v hv => by simp [maskRow, hv]), ENNReal.ofReal_one]
  · exact fam.loc 0 Nat.one_pos 0 Nat.one_pos x y fun v hv => hxy v (mem_scopeOf.1 hv)

theorem posterior (hf : Facts μ leaves K R Rl wroot m) (x : Row) :
    (K = 1 → m.logPosterior x = .error .unsupported) ∧
    (1 < K → Possible leaves x → ∃ p, m.predictProba x = .ok p ∧
      (∀ k < K, p k = some (softmax K wroot k * expL (m.classDen k x) / expL (m.den x))) ∧
      ∑ k ∈ range K, softmax K wroot k * expL (m.classDen k x) / expL (m.den x) = 1) := by
  constructor
  · intro h1
    unfold Model.logPosterior
    rw [hf.cls, if_neg (by omega)]
  · intro h1 hx
    have hcls : m.cls = some wroot := by rw [hf.cls, if_pos h1]
    have ha := (hf.alive x).2 hx
    obtain ⟨T, hT, hv⟩ := Net.logLik_alive hf.ok.good ha
    have h0 : 0 < m.net.F := by rw [hf.ok.one]; exact Nat.one_pos
    have hcl : ∀ ch < m.net.C, m.classOf T ch = some (m.classDen ch x) := by
      intro ch hch
      unfold Model.classOf Model.classDen
      cases m.mix with
      | none => exact hv 0 h0 ch hch 0 hf.ok.reps
      | some θ => exact nanLse_some (fun r hr => hv 0 h0 ch hch r hr) _
    obtain ⟨u, hu, huv⟩ := allSome_some hcl
    have hden : lse m.net.C (fun k => u k + logSoftmax m.net.C wroot k) = m.den x := by
      unfold Model.den
      rw [hcls]
      exact lse_congr fun k hk => by rw [huv k hk]
    have hne := Model.den_alive hf.ok ha
    obtain ⟨l, hl⟩ : ∃ l : ℝ, m.den x = (l : LogV) := WithBot.ne_bot_iff_exists.1 hne |>.imp fun _ h => h.symm
    refine ⟨fun k => (Classify.logPosterior m.net.C u (logSoftmax m.net.C wroot) k).map expL, ?_, ?_, ?_⟩
    · unfold Model.predictProba Model.logPosterior
      rw [hcls]
      simp only [hT, bind, Except.bind, pure, Except.pure, hu, Option.bind_some]
    · intro k hk
      beta_reduce
      rw [← hf.chans] at hk ⊢
      have e1 : Classify.logPosterior m.net.C u (logSoftmax m.net.C wroot) k =
          some (u k + logSoftmax m.net.C wroot k + ((-l : ℝ) : LogV)) := by
        unfold Classify.logPosterior
        rw [hden, hl]
      rw [e1, Option.map_some, expL_add, expL_add, huv k hk, expL_logSoftmax_eq_softmax, hl]
      congr 1
      show _ * Real.exp (-l) = _ / Real.exp l
      rw [Real.exp_neg, div_eq_mul_inv, mul_comm (expL _)]
    · rw [← sum_div, ← hf.chans]
      have : expL (m.den x) = ∑ k ∈ range m.net.C, softmax m.net.C wroot k * expL (m.classDen k x) := by
        unfold Model.den
        rw [hcls]
        simp only
        rw [expL_lse]
        exact sum_congr rfl fun r _ => by rw [expL_add, expL_logSoftmax_eq_softmax, mul_comm]
      rw [← this]
      exact div_self (by rw [Ne, expL_eq_zero_iff]; exact hne)

/-! ### Sampling -/

theorem law_of (hf : Facts μ leaves K R Rl wroot m) (hRl : Rl = R) {ev : Option Row} {e : Row}
    (hev : Conv.Net.Ev ev e) (he : Possible leaves e) :
    (∀ y, ¬ Fails (m.sample ev y) ∧ ∀ z, Outcome (m.sample ev y) z → (∀ v, InScope leaves v → z v ≠ none) ∧
      (∀ v t, y v = some t → z v = some t) ∧ ∀ v, ¬ InScope leaves v → z v = y v) ∧
    ∀ x, Completes leaves e x → (m.sample ev e).prob x = ∑ ch ∈ range m.net.C,
      ENNReal.ofReal (m.clsProb ch) * ∑ r ∈ range m.net.R, ENNReal.ofReal (m.repProb ev r) * m.ratio e ch r x := by
  have hs := Model.spec hf.ok (hf.samp hRl) hev ((hf.alive e).2 he)
  have hset : {v | v ∈ m.net.varsOf} = {v | InScope leaves v} := by
    ext v
    show v ∈ m.net.varsOf ↔ InScope leaves v
    rw [hf.vars, mem_scopeOf]
  rw [hset] at hs
  constructor
  · intro y
    refine ⟨hs.noFail y, fun z hz => ?_⟩
    obtain ⟨a1, a2⟩ := hs.frames y z hz
    refine ⟨a1, fun v t hv => ?_, fun v hv => a2 v fun h' => hv h'.1⟩
    rw [a2 v fun h' => by rw [hv] at h'; exact absurd h'.2 (by simp), hv]
  · intro x hx
    refine hs.law e x (fun _ _ => rfl) hx.1 fun v hv => ?_
    by_cases hsc : InScope leaves v
    · rcases hev' : e v with _ | t
      · exact absurd ⟨hsc, hev'⟩ hv
      · exact hx.2.1 v t hev'
    · exact hx.2.2 v hsc

theorem fills (hf : Facts μ leaves K R Rl wroot m) (hl : Leaves μ leaves C Rl) (hRl : Rl = R) :
    (∀ y, ¬ Fails (m.sample none y) ∧ ∀ z, Outcome (m.sample none y) z → (∀ v, InScope leaves v → z v ≠ none) ∧
      (∀ v t, y v = some t → z v = some t) ∧ ∀ v, ¬ InScope leaves v → z v = y v) ∧
    ∀ e, Possible leaves e → ¬ Fails (m.sampleWithEvidence e) ∧ ∀ z, Outcome (m.sampleWithEvidence e) z →
      (∀ v, InScope leaves v → z v ≠ none) ∧ (∀ v t, e v = some t → z v = some t) ∧ ∀ v, ¬ InScope leaves v → z v = e v := by
  constructor
  · exact (hf.law_of hRl (e := fun _ => none) (.inr ⟨rfl, fun _ => rfl⟩) (possible_none hl fun _ => rfl)).1
  · intro e he
    have := hf.withEvidence he
    rw [this]
    exact (hf.law_of hRl (.inl rfl) he).1 e

theorem sampling (hf : Facts μ leaves K R Rl wroot m) (hl : Leaves μ leaves C Rl) (hRl : Rl = R) :
    (K = 1 ∨ R = 1 → ∀ x, Completes leaves (fun _ => none) x →
      (m.sample none fun _ => none).prob x = ENNReal.ofReal (expL (m.den x))) ∧
    (K = 1 → ∀ e x, Possible leaves e → Completes leaves e x →
      (m.sampleWithEvidence e).prob x = ENNReal.ofReal (expL (m.den x) / expL (m.den e))) := by
  have hpn : Possible leaves fun _ => none := possible_none hl fun _ => rfl
  have hone : K = 1 → m.cls = none := fun h1 => by rw [hf.cls, if_neg (by omega)]
  constructor
  · intro hor x hx
    rw [(hf.law_of hRl (.inr ⟨rfl, fun _ => rfl⟩) hpn).2 x hx]
    rcases hor with h1 | h1
    · rw [Model.law_single hf.ok (hone h1) (.inr ⟨rfl, fun _ => rfl⟩) ((hf.alive _).2 hpn) x]
      have : expL (m.den fun _ => none) = 1 := (Model.fam hf.ok).miss 0 Nat.one_pos 0 Nat.one_pos _ fun _ _ => rfl
      rw [this, div_one]
    · exact Model.law_one_rep hf.ok (by rw [hf.reps]; exact h1) (fun _ => rfl) x
  · intro h1 e x he hx
    have := hf.withEvidence he
    rw [this, (hf.law_of hRl (.inl rfl) he).2 x hx]
    exact Model.law_single hf.ok (hone h1) (.inl rfl) ((hf.alive _).2 he) x

theorem law (hf : Facts μ leaves K R Rl wroot m) (hRl : Rl = R) {e x : Row} (he : Possible leaves e)
    (hx : Completes leaves e x) :
    ((∀ v, e v = none) → (m.sample none e).prob x = ∑ ch ∈ range K, ENNReal.ofReal (m.clsProb ch) *
      ∑ r ∈ range R, ENNReal.ofReal (m.repProb none r) * ENNReal.ofReal (expL (m.net.den r 0 x ch))) ∧
    (m.sampleWithEvidence e).prob x = ∑ ch ∈ range K, ENNReal.ofReal (m.clsProb ch) *
      ∑ r ∈ range R, ENNReal.ofReal (m.repProb (some e) r) *
        ENNReal.ofReal (expL (m.net.den r 0 x ch) / expL (m.net.den r 0 e ch)) := by
  constructor
  · intro hn
    rw [(hf.law_of hRl (.inr ⟨rfl, hn⟩) he).2 x hx, hf.chans, hf.reps]
    refine sum_congr rfl fun ch hch => ?_
    congr 1
    refine sum_congr rfl fun r hr => ?_
    unfold Model.ratio
    rw [Model.den_none hf.ok hn (by rw [hf.reps]; exact mem_range.1 hr) (by rw [hf.chans]; exact mem_range.1 hch), div_one]
  · have := hf.withEvidence he
    rw [this, (hf.law_of hRl (.inl rfl) he).2 x hx, hf.chans, hf.reps]
    rfl

theorem raises (hf : Facts μ leaves K R Rl wroot m) (hp : Poisons m) {e : Row} (he : ¬ Possible leaves e) :
    Fails (m.sampleWithEvidence e) ∧ ∀ z, ¬ Outcome (m.sampleWithEvidence e) z := by
  have hna : ¬ m.net.Alive e := fun ha => he ((hf.alive e).1 ha)
  have hsw : m.sampleWithEvidence e = m.sample (some e) e := by
    unfold Model.sampleWithEvidence
    rw [hf.nan hp he]
  rw [hsw]
  rw [Net.alive_iff] at hna
  push Not at hna
  obtain ⟨r, hr, i, hi, ch, hch, hbot⟩ := hna
  obtain ⟨T, hT⟩ := Net.logLik_ok hf.ok.good e
  have h0 : 0 < m.net.F := by rw [hf.ok.one]; exact Nat.one_pos
  have hC := Net.posC hf.ok.good
  have hcl : ∀ ch, ∃ ex, m.sampleClass (some e) e ch = .fail ex := by
    intro ch'
    unfold Model.sampleClass
    cases hm : m.mix with
    | none =>
      have h1 := hf.ok.mix0 hm
      obtain rfl : r = 0 := by omega
      exact Net.sample_poisoned hf.ok.good hp.wide hp.depth hr hi hch hbot hp.allC _ _ _
    | some θ =>
      obtain ⟨f0, c0, _, hpo⟩ := Net.poison hf.ok.good hp.wide hp.depth hr hi hch hbot hT
      have hrep : m.repLogits θ (some e) = none := by
        have hce : m.net.cachedLL (some e) = some T := by simp only [Net.cachedLL, hT]
        unfold Model.repLogits
        rw [hce]
        simp only
        rw [if_neg]
        intro hall
        rw [List.all_eq_true] at hall
        have := hall 0 (List.mem_range.2 hC)
        rw [allSome_none ⟨r, hr, hpo 0 h0 (.inl hp.allF) 0 hC (.inl hp.allC)⟩] at this
        cases this
      simp only [hrep]
      exact ⟨_, rfl⟩
  unfold Model.sample
  cases hw : m.cls with
  | none =>
    obtain ⟨ex, hex⟩ := hcl 0
    simp only [hex]
    exact ⟨Fails.fail, fun z hz => by cases hz⟩
  | some w =>
    obtain ⟨ex, hex⟩ := hcl 0
    refine ⟨Fails.choose hC (by rw [hex]; exact Fails.fail), fun z hz => ?_⟩
    cases hz with
    | choose hd hi ho =>
      obtain ⟨ex, hex⟩ := hcl _
      beta_reduce at ho
      rw [hex] at ho
      cases ho

end Facts

end Verif.Rat

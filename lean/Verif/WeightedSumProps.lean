import Verif.WeightedSum
import Verif.SamplingLemmas
import Mathlib.Algebra.BigOperators.Field
import Mathlib.MeasureTheory.Integral.Lebesgue.Add

/-!
# C62: `WeightedSum` is the exact non-negative linear form of its inputs
-/

namespace Verif.WSum
open Verif Verif.Circ MeasureTheory

/-! ## Specification -/

/-- Entry `[f, ci, co, r]` of the weights argument, read with the missing axes supplied. -/
def Arg.entry : Arg → ℕ → ℕ → ℕ → ℕ → ℝ
  | .d1 _ v, _, i, _, _ => v i
  | .d2 _ _ v, _, i, o, _ => v i o
  | .d3 _ _ _ v, f, i, o, _ => v f i o
  | .d4 w, f, i, o, r => w.val f i o r
  | .other, _, _, _, _ => 0

/-- Its sizes `(features, in channels, out channels, repetitions)`. -/
def Arg.sizes : Arg → Option (ℕ × ℕ × ℕ × ℕ)
  | .d1 ci _ => some (1, ci, 1, 1)
  | .d2 ci co _ => some (1, ci, co, 1)
  | .d3 f ci co _ => some (f, ci, co, 1)
  | .d4 w => some (w.Fw, w.Ci, w.Co, w.R)
  | .other => none

theorem toFour_ok {a : Arg} {w : Weights} :
    toFour a = .ok w ↔ a.sizes = some (w.Fw, w.Ci, w.Co, w.R) ∧ w.val = a.entry := by
  cases w
  cases a with
  | d4 w => cases w; simp [toFour, Arg.sizes, Arg.entry, funext_iff, and_assoc, eq_comm]
  | _ => simp [toFour, Arg.sizes, Arg.entry, funext_iff, eq_comm, and_assoc]

/-- `torch.bmm`-style broadcast index of the feature axis: one row of weights serves all features. -/
def fIdx (Fw f : ℕ) : ℕ := if Fw = 1 then 0 else f

theorem mk_ok {inp : Inp} {a : Arg} {w' : Weights} (h : mk inp a = .ok w') :
    ∃ Fw, a.sizes = some (Fw, inp.C, w'.Co, w'.R) ∧ (Fw = inp.F ∨ (Fw = 1 ∧ 1 < inp.F)) ∧
      w'.Fw = inp.F ∧ w'.Ci = inp.C ∧
      (∀ f < Fw, ∀ ci < inp.C, ∀ co < w'.Co, ∀ r < w'.R, 0 ≤ a.entry f ci co r) ∧
      ∀ f < inp.F, ∀ ci co r, w'.val f ci co r = a.entry (fIdx Fw f) ci co r := by
  unfold mk at h
  cases ht : toFour a with
  | error e => rw [ht] at h; cases h
  | ok w =>
    rw [ht] at h
    obtain ⟨hs, hv⟩ := toFour_ok.1 ht
    simp only [bind, Except.bind, pure, Except.pure, throw, throwThe, MonadExceptOf.throw] at h
    by_cases hn : ∀ f < w.Fw, ∀ ci < w.Ci, ∀ co < w.Co, ∀ r < w.R, 0 ≤ w.val f ci co r
    · rw [if_neg (not_not.2 hn)] at h
      by_cases hb : w.Fw = 1 ∧ 1 < inp.F
      · simp only [if_pos hb] at h
        rw [if_neg (by simp)] at h
        by_cases hc : w.Ci = inp.C
        · rw [if_neg (by simpa using hc)] at h
          cases h
          refine ⟨w.Fw, by rw [hs, hc], Or.inr hb, rfl, hc, ?_, ?_⟩
          · intro f hf ci hci co hco r hr
            rw [← hv]; exact hn f hf ci (hc ▸ hci) co hco r hr
          · intro f hf ci co r
            simp [fIdx, hb.1, hv]
        · rw [if_pos (by simpa using hc)] at h; cases h
      · simp only [if_neg hb] at h
        by_cases hF : w.Fw = inp.F
        · rw [if_neg (by simpa using hF)] at h
          by_cases hc : w.Ci = inp.C
          · rw [if_neg (by simpa using hc)] at h
            cases h
            refine ⟨w'.Fw, by rw [hs, hc], Or.inl hF, hF, hc, ?_, ?_⟩
            · intro f hf ci hci co hco r hr
              rw [← hv]; exact hn f hf ci (hc ▸ hci) co hco r hr
            · intro f hf ci co r
              rw [hv]
              unfold fIdx
              split
              · have : f = 0 := by omega
                rw [this]
              · rfl
          · rw [if_pos (by simpa using hc)] at h; cases h
        · rw [if_pos (by simpa using hF)] at h; cases h
    · rw [if_pos hn] at h; cases h

/-- **C62, construction.** The weights argument is accepted exactly when it has one to four axes, no negative entry,
as many input channels as the input, and either as many feature rows as the input or a single one; the module then has
the input's features and the argument's output channels and repetitions, and every stored weight is the given entry (a
single feature row serves all features). -/
theorem C62_accepts_iff (inp : Inp) (a : Arg) :
    (∃ w, mk inp a = .ok w) ↔
      ∃ Fw Co R, a.sizes = some (Fw, inp.C, Co, R) ∧ (Fw = inp.F ∨ (Fw = 1 ∧ 1 < inp.F)) ∧
        ∀ f < Fw, ∀ ci < inp.C, ∀ co < Co, ∀ r < R, 0 ≤ a.entry f ci co r := by
  constructor
  · rintro ⟨w, h⟩
    obtain ⟨Fw, h1, h2, -, -, h3, -⟩ := mk_ok h
    exact ⟨Fw, w.Co, w.R, h1, h2, h3⟩
  · rintro ⟨Fw, Co, R, hs, hF, hn⟩
    have ht : toFour a = .ok ⟨Fw, inp.C, Co, R, a.entry⟩ := toFour_ok.2 ⟨hs, rfl⟩
    unfold mk
    rw [ht]
    simp only [bind, Except.bind, pure, Except.pure, throw, throwThe, MonadExceptOf.throw]
    rw [if_neg (not_not.2 hn)]
    by_cases hb : Fw = 1 ∧ 1 < inp.F
    · simp only [if_pos hb]
      rw [if_neg (by simp), if_neg (by simp)]
      exact ⟨_, rfl⟩
    · simp only [if_neg hb]
      rcases hF with hF | hF
      · rw [if_neg (by simpa using hF), if_neg (by simp)]
        exact ⟨_, rfl⟩
      · exact absurd hF hb

theorem C62_stored_weights {inp : Inp} {a : Arg} {w : Weights} (h : mk inp a = .ok w) :
    w.Fw = inp.F ∧ w.Ci = inp.C ∧ ∃ Fw, a.sizes = some (Fw, inp.C, w.Co, w.R) ∧
      ∀ f < inp.F, ∀ ci co r, w.val f ci co r = a.entry (if Fw = 1 then 0 else f) ci co r := by
  obtain ⟨Fw, h1, -, h3, h4, -, h6⟩ := mk_ok h
  exact ⟨h3, h4, Fw, h1, h6⟩

/-- **C62, likelihood.** For every input, every accepted weights tensor (zeros included, any scale) and every row, the
exponential of each output entry is exactly the weighted sum of the exponentials of the input channels. A repetition
axis of size one, in the input or in the weights, serves every repetition. -/
theorem C62_linear {inp : Inp} {a : Arg} {w : Weights} (h : mk inp a = .ok w) {R : ℕ}
    {g : Row → ℕ → ℕ → ℕ → LogV} (hl : logLik inp w = .ok (R, g)) (x : Row) {f co r : ℕ}
    (hf : f < inp.F) (hco : co < w.Co) (hr : r < R) :
    expL (g x f co r) = ∑ ci ∈ Finset.range inp.C,
      w.val f ci co (if w.R = 1 then 0 else r) * expL (inp.ll x f ci (if inp.R = 1 then 0 else r)) := by
  obtain ⟨Fw, h1, h2, -, -, hn, hv⟩ := mk_ok h
  unfold logLik at hl
  cases hb : bsize inp.R w.R with
  | error e => rw [hb] at hl; cases hl
  | ok R' =>
    rw [hb] at hl
    simp only [bind, Except.bind, pure, Except.pure] at hl
    injection hl with hl
    injection hl with hR hg
    subst hR hg
    rw [expL_lse]
    refine Finset.sum_congr rfl fun ci hci => ?_
    rw [expL_add, expL_logL, mul_comm]
    · rfl
    · have hrw : bc w.R r < w.R := by
        unfold bc
        unfold bsize at hb
        split at hb
        · injection hb with hb; split <;> omega
        · split at hb
          · injection hb with hb; split <;> omega
          · split at hb
            · injection hb with hb; rw [if_pos (by assumption)]; omega
            · cases hb
      rw [hv f hf]
      refine hn _ ?_ ci (Finset.mem_range.1 hci) co hco _ hrw
      unfold fIdx
      rcases h2 with h2 | h2 <;> split <;> omega

/-- Whatever the measure over completions, the total mass of an output channel is the weighted sum of the masses of
the input channels; in particular it is one when the input channels are normalised and the weights sum to one. -/
theorem C62_mass {Ω : Type} [MeasurableSpace Ω] (μ : Measure Ω) (rows : Ω → Row)
    {inp : Inp} {a : Arg} {w : Weights} (h : mk inp a = .ok w) {R : ℕ}
    {g : Row → ℕ → ℕ → ℕ → LogV} (hl : logLik inp w = .ok (R, g)) {f co r : ℕ}
    (hf : f < inp.F) (hco : co < w.Co) (hr : r < R)
    (hm : ∀ ci < inp.C, Measurable fun t => expL (inp.ll (rows t) f ci (if inp.R = 1 then 0 else r))) :
    ∫⁻ t, ENNReal.ofReal (expL (g (rows t) f co r)) ∂μ = ∑ ci ∈ Finset.range inp.C,
      ENNReal.ofReal (w.val f ci co (if w.R = 1 then 0 else r)) *
        ∫⁻ t, ENNReal.ofReal (expL (inp.ll (rows t) f ci (if inp.R = 1 then 0 else r))) ∂μ := by
  obtain ⟨Fw, h1, h2, -, -, hn, hv⟩ := mk_ok h
  have hpos : ∀ ci < inp.C, 0 ≤ w.val f ci co (if w.R = 1 then 0 else r) := by
    intro ci hci
    have hrw : (if w.R = 1 then 0 else r) < w.R := by
      unfold logLik at hl
      cases hb : bsize inp.R w.R with
      | error e => rw [hb] at hl; cases hl
      | ok R' =>
        rw [hb] at hl
        simp only [bind, Except.bind, pure, Except.pure] at hl
        injection hl with hl
        injection hl with hR hg
        subst hR
        unfold bsize at hb
        split at hb
        · injection hb with hb; split <;> omega
        · split at hb
          · injection hb with hb; split <;> omega
          · split at hb
            · injection hb with hb; rw [if_pos (by assumption)]; omega
            · cases hb
    rw [hv f hf]
    refine hn _ ?_ ci hci co hco _ hrw
    unfold fIdx
    rcases h2 with h2 | h2 <;> split <;> omega
  have e : ∀ t, ENNReal.ofReal (expL (g (rows t) f co r)) = ∑ ci ∈ Finset.range inp.C,
      ENNReal.ofReal (w.val f ci co (if w.R = 1 then 0 else r)) *
        ENNReal.ofReal (expL (inp.ll (rows t) f ci (if inp.R = 1 then 0 else r))) := by
    intro t
    rw [C62_linear h hl (rows t) hf hco hr, ENNReal.ofReal_sum_of_nonneg]
    · exact Finset.sum_congr rfl fun ci hci => ENNReal.ofReal_mul (hpos ci (Finset.mem_range.1 hci))
    · exact fun ci hci => mul_nonneg (hpos ci (Finset.mem_range.1 hci)) (expL_nonneg _)
  simp only [e]
  rw [lintegral_finsetSum']
  · refine Finset.sum_congr rfl fun ci hci => ?_
    rw [lintegral_const_mul]
    exact (hm ci (Finset.mem_range.1 hci)).ennreal_ofReal
  · intro ci hci
    exact ((hm ci (Finset.mem_range.1 hci)).ennreal_ofReal.const_mul _).aemeasurable

/-! ## Sampling -/

/-- **C62, sampling.** Sampling raises exactly when the weights of the requested channel sum to zero (or less), and
otherwise takes input channel `i` with probability `w_i / Σ w`. -/
theorem C62_route (inp : Inp) (w : Weights) (f co r : ℕ) (hn : ∀ ci < inp.C, 0 ≤ w.val f ci co r) :
    ((route inp w f co r).Fails ↔ (∑ ci ∈ Finset.range inp.C, w.val f ci co r) = 0) ∧
    (0 < (∑ ci ∈ Finset.range inp.C, w.val f ci co r) → ∀ i < inp.C,
      (route inp w f co r).prob i =
        ENNReal.ofReal (w.val f i co r / ∑ ci ∈ Finset.range inp.C, w.val f ci co r)) := by
  set S := ∑ ci ∈ Finset.range inp.C, w.val f ci co r with hS
  have hS0 : 0 ≤ S := Finset.sum_nonneg fun ci hci => hn ci (Finset.mem_range.1 hci)
  have key : 0 < S → ∀ i < inp.C, softmax inp.C (fun ci => logL (w.val f ci co r / S)) i = w.val f i co r / S := by
    intro hp i hi
    rw [softmax_eq]
    have e : ∀ j < inp.C, expL (logL (w.val f j co r / S)) = w.val f j co r / S :=
      fun j hj => expL_logL (div_nonneg (hn j hj) hS0)
    have : ∑ j ∈ Finset.range inp.C, expL (logL (w.val f j co r / S)) = 1 := by
      rw [Finset.sum_congr rfl fun j hj => e j (Finset.mem_range.1 hj), ← Finset.sum_div, ← hS, div_self hp.ne']
    rw [this, e i hi, div_one]
  constructor
  · constructor
    · intro hf
      by_contra hne
      have hp : 0 < S := lt_of_le_of_ne hS0 (Ne.symm hne)
      unfold route at hf
      rw [if_neg (not_le.2 hp)] at hf
      cases hf with
      | dead hd =>
        have : S = 0 := by
          rw [hS]
          refine Finset.sum_eq_zero fun ci hci => ?_
          have : logL (w.val f ci co r / ∑ ci ∈ Finset.range inp.C, w.val f ci co r) = ⊥ :=
            hd ci (Finset.mem_range.1 hci)
          have h2 := expL_logL (div_nonneg (hn ci (Finset.mem_range.1 hci)) hS0)
          rw [← hS] at this
          rw [this] at h2
          simp only [expL_bot] at h2
          rcases div_eq_zero_iff.1 h2.symm with h3 | h3
          · exact h3
          · exact absurd h3 hne
        exact hne this
      | choose hi hf => cases hf
    · intro h0
      unfold route
      rw [if_pos (by rw [← hS, h0])]
      exact .fail
  · intro hp i hi
    unfold route Prog.prob
    rw [if_neg (not_le.2 hp)]
    simp only [Prog.E]
    rw [Finset.sum_eq_single i]
    · rw [if_pos rfl, mul_one, ← hS, key hp i hi]
    · intro j _ hj
      rw [if_neg hj, mul_zero]
    · intro h; exact absurd (Finset.mem_range.2 hi) h

/-- If the input module, asked for channel `i`, returns `a` with probability `exp ll_i a` (its channels are normalised
and sample faithfully), then a WeightedSum with positive total weight returns `a` with probability
`exp (log_likelihood a) / Σ w`, i.e. it samples its own normalised likelihood. -/
theorem C62_sample_law {α : Type} {inp : Inp} {arg : Arg} {w : Weights} (h : mk inp arg = .ok w) {R : ℕ}
    {g : Row → ℕ → ℕ → ℕ → LogV} (hl : logLik inp w = .ok (R, g)) {co r : ℕ} (hF : inp.F = 1)
    (hco : co < w.Co) (hr : r < R) (hrw : w.R = R) (child : ℕ → Prog α) (a : α) (x : Row)
    (hpos : 0 < ∑ ci ∈ Finset.range inp.C, w.val 0 ci co r)
    (hc : ∀ ci < inp.C, (child ci).prob a = ENNReal.ofReal (expL (inp.ll x 0 ci (if inp.R = 1 then 0 else r)))) :
    (sampleOne inp w co r child).prob a =
      ENNReal.ofReal (expL (g x 0 co r) / ∑ ci ∈ Finset.range inp.C, w.val 0 ci co r) := by
  obtain ⟨Fw, h1, h2, -, -, hn, hv⟩ := mk_ok h
  set S := ∑ ci ∈ Finset.range inp.C, w.val 0 ci co r with hS
  have hw0 : ∀ ci < inp.C, 0 ≤ w.val 0 ci co r := by
    intro ci hci
    rw [hv 0 (by omega)]
    refine hn _ ?_ ci hci co hco r (by omega)
    unfold fIdx
    rcases h2 with h2 | h2 <;> split <;> omega
  have hri : (if w.R = 1 then 0 else r) = r := by split <;> omega
  rw [C62_linear h hl x (by omega) hco hr, hri]
  unfold sampleOne Prog.prob
  rw [Prog.E_bind]
  unfold route
  rw [if_neg (not_le.2 (hS ▸ hpos))]
  simp only [Prog.E]
  rw [Finset.sum_div, ENNReal.ofReal_sum_of_nonneg]
  · refine Finset.sum_congr rfl fun ci hci => ?_
    have hci' := Finset.mem_range.1 hci
    have e : ∀ j < inp.C, expL (logL (w.val 0 j co r / S)) = w.val 0 j co r / S :=
      fun j hj => expL_logL (div_nonneg (hw0 j hj) hpos.le)
    have h1' : ∑ j ∈ Finset.range inp.C, expL (logL (w.val 0 j co r / S)) = 1 := by
      rw [Finset.sum_congr rfl fun j hj => e j (Finset.mem_range.1 hj), ← Finset.sum_div, ← hS, div_self hpos.ne']
    rw [← hS, softmax_eq, h1', e ci hci', div_one]
    have := hc ci hci'
    unfold Prog.prob at this
    rw [this, ← ENNReal.ofReal_mul (div_nonneg (hw0 ci hci') hpos.le)]
    congr 1
    ring
  · exact fun ci hci => div_nonneg (mul_nonneg (hw0 ci (Finset.mem_range.1 hci)) (expL_nonneg _)) hpos.le

/-- `argmax` returns the first largest weight: the channel taken by MPE. -/
theorem C62_mpe (v : ℕ → ℝ) (n : ℕ) :
    argmax v n ≤ n ∧ (∀ j ≤ n, v j ≤ v (argmax v n)) ∧ ∀ j < argmax v n, v j < v (argmax v n) := by
  induction n with
  | zero =>
    refine ⟨le_rfl, fun j hj => ?_, fun j hj => ?_⟩
    · have : j = 0 := by omega
      rw [this]; exact le_rfl
    · simp [argmax] at hj
  | succ n ih =>
    obtain ⟨h1, h2, h3⟩ := ih
    unfold argmax
    split
    · rename_i hlt
      refine ⟨le_rfl, fun j hj => ?_, fun j hj => ?_⟩
      · rcases Nat.lt_or_ge j (n + 1) with h | h
        · exact (h2 j (by omega)).trans hlt.le
        · have : j = n + 1 := by omega
          rw [this]
      · exact (h2 j (by omega)).trans_lt hlt
    · rename_i hlt
      refine ⟨by omega, fun j hj => ?_, h3⟩
      rcases Nat.lt_or_ge j (n + 1) with h | h
      · exact h2 j (by omega)
      · have : j = n + 1 := by omega
        rw [this]; exact not_lt.1 hlt

/-! ## Setter -/

/-- The setter checks nothing but the shape: a negative weight, which the constructor rejects, is accepted, and the
likelihood then reads it as zero. -/
theorem C62_setter_negative (inp : Inp) (old new : Weights)
    (hs : new.Fw = old.Fw ∧ new.Ci = old.Ci ∧ new.Co = old.Co ∧ new.R = old.R) :
    setW old new = .ok new ∧ ∀ {R g}, logLik inp new = .ok (R, g) → ∀ x f co r,
      expL (g x f co r) = ∑ ci ∈ Finset.range inp.C,
        max 0 (new.val f ci co (if new.R = 1 then 0 else r)) *
          expL (inp.ll x f ci (if inp.R = 1 then 0 else r)) := by
  refine ⟨by unfold setW; rw [if_pos hs], ?_⟩
  intro R g hl x f co r
  unfold logLik at hl
  cases hb : bsize inp.R new.R with
  | error e => rw [hb] at hl; cases hl
  | ok R' =>
    rw [hb] at hl
    simp only [bind, Except.bind, pure, Except.pure] at hl
    injection hl with hl
    injection hl with hR hg
    subst hR hg
    rw [expL_lse]
    refine Finset.sum_congr rfl fun ci hci => ?_
    rw [expL_add, mul_comm]
    congr 1
    unfold bc
    by_cases hp : 0 < new.val f ci co (if new.R = 1 then 0 else r)
    · rw [expL_logL hp.le, max_eq_right hp.le]
    · unfold logL
      rw [if_neg hp, max_eq_left (not_lt.1 hp)]; rfl

/-! ## Marginalisation -/

theorem foldl_max_const (n k : ℕ) (hn : 0 < n) (f : ℕ → ℕ) (hf : ∀ r < n, f r = k) :
    ((List.range n).map f).foldl max 0 = k := by
  have e : (List.range n).map f = List.replicate n k := by
    rw [List.eq_replicate_iff]
    refine ⟨by simp, fun b hb => ?_⟩
    obtain ⟨r, hr, rfl⟩ := List.mem_map.1 hb
    exact hf r (List.mem_range.1 hr)
  rw [e]
  have aux : ∀ m a, a ≤ k → (List.replicate m k).foldl max a = if m = 0 then a else k := by
    intro m
    induction m with
    | zero => intro a _; simp
    | succ m ih =>
      intro a ha
      rw [List.replicate_succ, List.foldl_cons, max_eq_right ha, ih k le_rfl]
      simp
  rw [aux n 0 (Nat.zero_le _), if_neg (by omega)]

/-- **C62, marginalisation.** Let the kept features (those with an unmarginalised variable) be the same list `K` in
every repetition, and let the marginalised input have exactly those features, with the values of the original input at
the row where the marginalised variables are missing. Then `marginalize` succeeds for every non-negative weights tensor,
and the new module's likelihood at feature `j` is the old module's likelihood at feature `K[j]` on that row. -/
theorem C62_marginalize (inp inp' : Inp) (w : Weights) (fts : ℕ → ℕ → List Var) (scope marg : List Var)
    (K : List ℕ) (miss : Row → Row)
    (hw : w.Fw = inp.F ∧ w.Ci = inp.C)
    (hpos : ∀ f < w.Fw, ∀ ci < w.Ci, ∀ co < w.Co, ∀ r < w.R, 0 ≤ w.val f ci co r)
    (hR : 0 < w.R ∧ w.R ≤ inp.R)
    (hsome : ∃ v ∈ scope, v ∈ marg) (hrest : ∃ v ∈ scope, v ∉ marg)
    (hK : ∀ r < w.R, (List.range inp.F).filter
      (fun f => (fts f r).any fun v => ! (scope.contains v && marg.contains v)) = K)
    (hshape : inp'.F = K.length ∧ inp'.C = inp.C ∧ inp'.R = inp.R)
    (hval : ∀ x j f, K[j]? = some f → ∀ ci r, inp'.ll x j ci r = inp.ll (miss x) f ci r) :
    ∃ w', marginalize inp w fts scope marg (some inp') = .ok (some (inp', w')) ∧
      ∀ R g R' g', logLik inp w = .ok (R, g) → logLik inp' w' = .ok (R', g') →
        R' = R ∧ ∀ x j f, K[j]? = some f → ∀ co r, r < w.R ∨ w.R = 1 →
          g' x j co r = g (miss x) f co r := by
  have hkept : ∀ r < w.R, kept w.Fw fts (scope.filter fun v => marg.contains v) r = K := by
    intro r hr
    rw [← hK r hr, hw.1]
    unfold kept
    refine List.filter_congr fun f _ => ?_
    rw [Bool.eq_iff_iff]
    simp only [Bool.not_eq_true', List.isEmpty_eq_false_iff, List.any_eq_true, ne_eq, List.filter_eq_nil_iff]
    push Not
    constructor
    · rintro ⟨v, h1, h2⟩
      refine ⟨v, h1, ?_⟩
      simpa [List.contains_eq_mem] using h2
    · rintro ⟨v, h1, h2⟩
      refine ⟨v, h1, ?_⟩
      simpa [List.contains_eq_mem] using h2
  set m := scope.filter (fun v => marg.contains v) with hm
  have hFw : (margWeights w fts m).Fw = K.length := by
    show ((List.range w.R).map fun r => (kept w.Fw fts m r).length).foldl max 0 = _
    exact foldl_max_const _ _ hR.1 _ fun r hr => by rw [hkept r hr]
  have hKm : ∀ j f : ℕ, K[j]? = some f → f < inp.F := by
    intro j f hj
    have := List.mem_of_getElem? hj
    rw [← hK 0 hR.1] at this
    exact List.mem_range.1 (List.mem_filter.1 this).1
  have hacc : ∃ w', mk inp' (.d4 (margWeights w fts m)) = .ok w' := by
    refine (C62_accepts_iff _ _).2 ⟨K.length, w.Co, w.R, ?_, Or.inl hshape.1.symm, ?_⟩
    · show some ((margWeights w fts m).Fw, w.Ci, w.Co, w.R) = _
      rw [hFw, hw.2, hshape.2.1]
    · intro f hf ci hci co hco r hr
      show 0 ≤ (match (kept w.Fw fts m r)[f]? with
        | some g => w.val g ci co r
        | none => 0)
      rw [hkept r hr, List.getElem?_eq_getElem hf]
      have := hKm f _ (List.getElem?_eq_getElem hf)
      exact hpos _ (by rw [hw.1]; exact this) ci (by rw [hw.2, ← hshape.2.1]; exact hci) co hco r hr
  obtain ⟨w', hw'⟩ := hacc
  refine ⟨w', ?_, ?_⟩
  · unfold marginalize
    simp only [bind, Except.bind, pure, Except.pure, throw, throwThe, MonadExceptOf.throw, ← hm]
    rw [if_neg, if_neg, if_neg (by omega), hw']
    · obtain ⟨v, h1, h2⟩ := hsome
      rw [List.isEmpty_iff, hm]
      intro h
      have : v ∈ scope.filter fun v => marg.contains v := List.mem_filter.2 ⟨h1, by simpa using h2⟩
      rw [h] at this; cases this
    · obtain ⟨v, h1, h2⟩ := hrest
      intro h
      rw [hm] at h
      have := (List.filter_sublist (p := fun v => marg.contains v) (l := scope)).eq_of_length h
      have h3 : v ∈ scope.filter fun v => marg.contains v := by rw [this]; exact h1
      have := (List.mem_filter.1 h3).2
      exact h2 (by simpa using this)
  · obtain ⟨Fw, h1, h2, h3, h4, h5, h6⟩ := mk_ok hw'
    have hsz : Fw = K.length ∧ w'.Co = w.Co ∧ w'.R = w.R := by
      have e : some ((margWeights w fts m).Fw, w.Ci, w.Co, w.R) = some (Fw, inp'.C, w'.Co, w'.R) := h1
      injection e with e
      injection e with e1 e
      injection e with e2 e
      injection e with e3 e4
      exact ⟨by rw [← e1, hFw], e3.symm, e4.symm⟩
    intro R g R' g' hg hg'
    unfold logLik at hg hg'
    rw [hsz.2.2, hshape.2.2] at hg'
    cases hb : bsize inp.R w.R with
    | error e => rw [hb] at hg; cases hg
    | ok R0 =>
      rw [hb] at hg hg'
      simp only [bind, Except.bind, pure, Except.pure] at hg hg'
      injection hg with hg
      injection hg with hR1 hg
      injection hg' with hg'
      injection hg' with hR2 hg'
      subst hR1 hg hg'
      refine ⟨hR2.symm, ?_⟩
      intro x j f hj co r hr
      have hj' : j < inp'.F := by
        rw [hshape.1]
        by_contra hc
        rw [List.getElem?_eq_none (by omega)] at hj
        cases hj
      dsimp only
      rw [hshape.2.1]
      congr 1
      funext ci
      rw [hval x j f hj ci]
      congr 2
      rw [h6 j hj' ci co]
      have hidx : fIdx Fw j = j := by
        unfold fIdx
        split
        · omega
        · rfl
      rw [hidx]
      show (match (kept w.Fw fts m (bc w.R r))[j]? with
        | some g => w.val g ci co (bc w.R r)
        | none => 0) = _
      have : bc w.R r < w.R := by
        unfold bc; split <;> omega
      rw [hkept _ this, hj]

/-! ## Witnesses -/

theorem logLik_ok {inp : Inp} {w : Weights} {R : ℕ} (h : bsize inp.R w.R = .ok R) :
    ∃ g, logLik inp w = .ok (R, g) := by
  unfold logLik
  rw [h]
  exact ⟨_, rfl⟩

/-- Two Bernoulli-like channels with different values, weights `2` and `3`, one of them zero in the second output. -/
noncomputable def exInp : Inp := ⟨1, 2, 1, fun _ _ ci _ => logL (if ci = 0 then 1 / 2 else 1 / 4)⟩

noncomputable def exArg : Arg := .d2 2 2 fun i o => if o = 0 then (if i = 0 then 2 else 3) else (if i = 0 then 0 else 5)

example : ∃ w R g, mk exInp exArg = .ok w ∧ logLik exInp w = .ok (R, g) ∧ R = 1 ∧ w.Co = 2 := by
  obtain ⟨w, hw⟩ := (C62_accepts_iff exInp exArg).2
    ⟨1, 2, 1, rfl, Or.inl rfl, by
      intro f _ ci _ co _ r _
      simp only [exArg, Arg.entry]
      split <;> split <;> norm_num⟩
  obtain ⟨-, -, Fw, hs, -⟩ := C62_stored_weights hw
  have e : some (1, 2, 2, 1) = some (Fw, 2, w.Co, w.R) := hs
  simp only [Option.some.injEq, Prod.mk.injEq] at e
  obtain ⟨-, -, h2, h3⟩ := e
  obtain ⟨g, hg⟩ := logLik_ok (show bsize exInp.R w.R = .ok 1 by rw [← h3]; rfl)
  exact ⟨w, 1, g, hw, hg, rfl, h2.symm⟩

/-- Variable `0` of a two-feature input is marginalised: feature `1` is kept. -/
example (d : ℕ → Option ℝ → LogV) (u : ℕ → ℝ) (hu : ∀ f, 0 ≤ u f) :
    let inp : Inp := ⟨2, 1, 1, fun x f _ _ => d f (x f)⟩
    let inp' : Inp := ⟨1, 1, 1, fun x _ _ _ => d 1 (x 1)⟩
    let w : Weights := ⟨2, 1, 1, 1, fun f _ _ _ => u f⟩
    ∃ w', marginalize inp w (fun f _ => [(f : Var)]) [0, 1] [0] (some inp') = .ok (some (inp', w')) := by
  intro inp inp' w
  obtain ⟨w', h, -⟩ := C62_marginalize inp inp' w (fun f _ => [(f : Var)]) [0, 1] [0] [1]
    (fun x => Function.update x 0 none) ⟨rfl, rfl⟩ (fun f _ _ _ _ _ _ _ => hu f) ⟨Nat.one_pos, le_rfl⟩
    ⟨0, by simp, by simp⟩ ⟨1, by simp, by simp⟩
    (by intro r _; rfl) ⟨rfl, rfl, rfl⟩ (by
      intro x j f hj ci r
      have hf : f = 1 := by
        have := List.mem_of_getElem? hj
        simpa using this
      subst hf
      show d 1 (x 1) = d 1 (Function.update x 0 none 1)
      rw [Function.update_of_ne (by decide)])
  exact ⟨w', h⟩

/-- Sampling ignores the masses of unnormalised inputs: with weights `1, 1` over channels of mass `3` and `1`, the
first channel is taken with probability `1/2` although it carries `3/4` of the mass. -/
theorem C62_sampling_ignores_child_mass :
    let inp : Inp := ⟨1, 2, 1, fun _ _ ci _ => logL (if ci = 0 then 3 else 1)⟩
    let w : Weights := ⟨1, 2, 1, 1, fun _ _ _ _ => 1⟩
    ∃ R g, logLik inp w = .ok (R, g) ∧ (∀ x, expL (g x 0 0 0) = 4) ∧
      (∀ x, expL (inp.ll x 0 0 0) = 3) ∧ (route inp w 0 0 0).prob 0 = ENNReal.ofReal (1 / 2) := by
  intro inp w
  refine ⟨1, _, rfl, ?_, ?_, ?_⟩
  · intro x
    show expL (lse 2 _) = 4
    rw [expL_lse, Finset.sum_range_succ, Finset.sum_range_one]
    show expL (logL 3 + logL 1) + expL (logL 1 + logL 1) = 4
    rw [expL_add, expL_add, expL_logL (by norm_num), expL_logL (by norm_num)]
    norm_num
  · intro x
    show expL (logL 3) = 3
    exact expL_logL (by norm_num)
  · have := (C62_route inp w 0 0 0 (fun _ _ => zero_le_one)).2
    have hs : ∑ ci ∈ Finset.range inp.C, w.val 0 ci 0 0 = 2 := by
      show ∑ ci ∈ Finset.range 2, (1 : ℝ) = 2
      simp
    rw [hs] at this
    exact this (by norm_num) 0 (by decide)

/-- The declared number of repetitions is that of the weights, not of the input: an input with two repetitions and a
weights matrix gives `out_shape.repetitions = 1` and a log-likelihood tensor with two repetitions. -/
theorem C62_declared_repetitions :
    ∃ (inp : Inp) (a : Arg) (w : Weights) (R : ℕ) (g : Row → ℕ → ℕ → ℕ → LogV),
      mk inp a = .ok w ∧ logLik inp w = .ok (R, g) ∧ w.R = 1 ∧ R = 2 := by
  let inp : Inp := ⟨1, 1, 2, fun _ _ _ _ => 0⟩
  obtain ⟨w, hw⟩ := (C62_accepts_iff inp (.d2 1 1 fun _ _ => 1)).2
    ⟨1, 1, 1, rfl, Or.inl rfl, fun f _ ci _ co _ r _ => zero_le_one⟩
  obtain ⟨-, -, Fw, hs, -⟩ := C62_stored_weights hw
  have e : some (1, 1, 1, 1) = some (Fw, 1, w.Co, w.R) := hs
  simp only [Option.some.injEq, Prod.mk.injEq] at e
  have hr : w.R = 1 := e.2.2.2.symm
  obtain ⟨g, hg⟩ := logLik_ok (show bsize inp.R w.R = .ok 2 by rw [hr]; rfl)
  exact ⟨inp, _, w, 2, g, hw, hg, hr, rfl⟩

end Verif.WSum

import Verif.RatSample

/-!
Helper lemmas for C67 and C68: a network with its mixing layer over the repetitions and its root over the classes.
-/

open MeasureTheory

namespace Verif.Conv

variable {μ : Var → Measure ℝ}

theorem Fam.pack {n C : ℕ} {s : ℕ → Finset Var} {u : ℕ → Row → ℕ → LogV}
    (h : ∀ ch < C, Fam μ n 1 s (fun f x _ => u f x ch)) (hC : 0 < C) : Fam μ n C s u where
  disj := (h 0 hC).disj
  loc f hf ch hch := (h ch hch).loc f hf 0 Nat.one_pos
  meas f hf ch hch := (h ch hch).meas f hf 0 Nat.one_pos
  miss f hf ch hch := (h ch hch).miss f hf 0 Nat.one_pos
  int f hf ch hch := (h ch hch).int f hf 0 Nat.one_pos
  mono f hf ch hch := (h ch hch).mono f hf 0 Nat.one_pos

end Verif.Conv

namespace Verif.Rat

open Finset Verif.Circ
open Verif.Prog hiding bind
open Verif.Conv (Fam ratiosU actU)

variable {μ : Var → Measure ℝ}

/-! ### Specification -/

namespace Model

/-- Log-density of class `ch`: the mixture over the repetitions. -/
noncomputable def classDen (m : Model) (ch : ℕ) (x : Row) : LogV := match m.mix with
  | none => m.net.den 0 0 x ch
  | some θ => lse m.net.R fun r => m.net.den r 0 x ch + logSoftmax m.net.R (θ ch) r

/-- Log-density of the model: the mixture over the classes. -/
noncomputable def den (m : Model) (x : Row) : LogV := match m.cls with
  | none => m.classDen 0 x
  | some w => lse m.net.C fun ch => m.classDen ch x + logSoftmax m.net.C w ch

/-- Log of the unnormalised probability of repetition `r`: the product over all classes of their mixing weights, resp. of
their posterior probabilities given the cached row. -/
noncomputable def repWeight (m : Model) (θ : ℕ → ℕ → LogV) (ev : Option Row) (r : ℕ) : LogV := match ev with
  | none => ∑ ch ∈ range m.net.C, θ ch r
  | some e => ∑ ch ∈ range m.net.C, logSoftmax m.net.R (fun r => θ ch r + m.net.den r 0 e ch) r

/-- Probability with which `sample` draws repetition `r`, whatever class was drawn. -/
noncomputable def repProb (m : Model) (ev : Option Row) (r : ℕ) : ℝ := match m.mix with
  | none => if r = 0 then 1 else 0
  | some θ => softmax m.net.R (m.repWeight θ ev) r

/-- Probability with which `sample` draws class `ch`. -/
noncomputable def clsProb (m : Model) (ch : ℕ) : ℝ := match m.cls with
  | none => if ch = 0 then 1 else 0
  | some w => softmax m.net.C w ch

/-- The parts fit together. -/
structure Ok (μ : Var → Measure ℝ) (m : Model) : Prop where
  good : m.net.Good μ
  one : m.net.F = 1
  reps : 1 ≤ m.net.R
  mix0 : m.mix = none → m.net.R = 1
  mixF : ∀ θ, m.mix = some θ → ∀ ch < m.net.C, ∀ r < m.net.R, θ ch r ≠ ⊥
  cls0 : m.cls = none → m.net.C = 1
  clsF : ∀ w, m.cls = some w → ∀ ch < m.net.C, w ch ≠ ⊥

end Model

/-! ### Scopes -/

namespace Net

theorem vars_cover {n : Net} (h : n.Good μ) {r : ℕ} (hr : r < R n) (v : Var) :
    (∃ f < F n, v ∈ vars r n f) ↔ ∃ i < (leafOf n).F, v ∈ Circ.fscope (leafOf n) i := by
  have two : ∀ (n : Net) (mode : Mode), 2 ∣ F n ∧ 2 ≤ F n → ((∃ f < F n / 2, ∃ j < F n, own mode (F n / 2) j = f ∧ v ∈ vars r n j) ↔
      ∃ f < F n, v ∈ vars r n f) := by
    intro n mode he
    constructor
    · rintro ⟨_, _, j, hj, _, hv⟩; exact ⟨j, hj, hv⟩
    · rintro ⟨j, hj, hv⟩
      have hj' := hj
      rw [(even_F he).1] at hj'
      exact ⟨_, (own_lt (mode := mode) hj').1, j, hj, rfl, hv⟩
  induction n with
  | fact c d R G =>
    obtain ⟨-, -, -, hG⟩ := h
    constructor
    · rintro ⟨o, _, hv⟩
      simp only [vars, mem_biUnion, mem_filter, mem_range] at hv
      obtain ⟨i, ⟨hi, _⟩, hv⟩ := hv
      exact ⟨i, hi, hv⟩
    · rintro ⟨i, hi, hv⟩
      refine ⟨Fact.owner (G r) i, ?_, ?_⟩
      · have := (Fact.C20_owner c.F (G r) (hG r hr).1 i hi).1
        rw [(hG r hr).2] at this
        exact this
      · simp only [vars, mem_biUnion, mem_filter, mem_range]
        exact ⟨i, ⟨hi, rfl⟩, hv⟩
  | prod n mode k outer ih =>
    obtain ⟨hn, rfl, he⟩ := h
    rw [show F (prod n mode 2 outer) = F n / 2 from prodF_two (even_F he).1 outer]
    refine Iff.trans ?_ (ih hn hr)
    refine Iff.trans ?_ (two n mode he)
    simp only [vars, mem_biUnion, mem_filter, mem_range, and_assoc]
  | sum n Co θ ih => exact ih h.1 hr
  | einsum n Co p θ ih =>
    refine Iff.trans ?_ (ih h.1 hr)
    refine Iff.trans ?_ (two n .interleaved h.2.1)
    simp only [vars, mem_biUnion, mem_filter, mem_range, and_assoc]
    rfl
  | linsum n Co θ ih =>
    refine Iff.trans ?_ (ih h.1 hr)
    refine Iff.trans ?_ (two n .interleaved h.2.1)
    simp only [vars, mem_biUnion, mem_filter, mem_range, and_assoc]
    rfl
  | collapse n ih =>
    refine Iff.trans ?_ (ih h hr)
    simp only [vars, mem_biUnion, mem_range]
    constructor
    · rintro ⟨_, _, h⟩; exact h
    · intro h; exact ⟨0, Nat.one_pos, h⟩

theorem good_leaf {n : Net} (h : n.Good μ) : Accepted (leafOf n) ∧ Aligned (leafOf n) ∧ LeafOk μ (leafOf n) := by
  induction n with
  | fact c d R G => exact h.1
  | prod n mode k outer ih => exact ih h.1
  | sum n Co θ ih => exact ih h.1
  | einsum n Co p θ ih => exact ih h.1
  | linsum n Co θ ih => exact ih h.1
  | collapse n ih => exact ih h

/-- The variables of the leaves. -/
noncomputable def varsOf (n : Net) : Finset Var := (Circ.scope (leafOf n)).query.toFinset

theorem mem_varsOf {n : Net} (v : Var) : v ∈ varsOf n ↔ v ∈ (Circ.scope (leafOf n)).query := by
  simp [varsOf]

theorem vars_root {n : Net} (h : n.Good μ) (h1 : F n = 1) {r : ℕ} (hr : r < R n) : vars r n 0 = varsOf n := by
  ext v
  rw [mem_varsOf, mem_scope_iff (good_leaf h).1, ← vars_cover h hr v, h1]
  constructor
  · intro hv; exact ⟨0, Nat.one_pos, hv⟩
  · rintro ⟨f, hf, hv⟩
    obtain rfl : f = 0 := by omega
    exact hv

end Net

/-! ### log_likelihood -/

namespace Model

theorem class_alive {m : Model} (h : m.Ok μ) {x : Row} (ha : m.net.Alive x) {ch : ℕ} (hch : ch < m.net.C) :
    m.classDen ch x ≠ ⊥ := by
  unfold classDen
  cases hm : m.mix with
  | none => exact Net.den_alive h.good ha (by have := h.reps; omega) 0 (by rw [h.one]; exact Nat.one_pos) ch hch
  | some θ =>
    exact mix_ne_bot (fun r hr => Net.den_alive h.good ha hr 0 (by rw [h.one]; exact Nat.one_pos) ch hch)
      ⟨0, h.reps, h.mixF θ hm ch hch 0 h.reps⟩

theorem den_alive {m : Model} (h : m.Ok μ) {x : Row} (ha : m.net.Alive x) : m.den x ≠ ⊥ := by
  have hC := Net.posC h.good
  unfold den
  cases hw : m.cls with
  | none => exact class_alive h ha hC
  | some w => exact mix_ne_bot (fun ch hch => class_alive h ha hch) ⟨0, hC, h.clsF w hw 0 hC⟩

theorem logLik_alive {m : Model} (h : m.Ok μ) {x : Row} (ha : m.net.Alive x) : m.logLik x = .ok (some (m.den x)) := by
  obtain ⟨T, hT, hv⟩ := Net.logLik_alive h.good ha
  have h0 : 0 < m.net.F := by rw [h.one]; exact Nat.one_pos
  have hC := Net.posC h.good
  have hcl : ∀ ch < m.net.C, m.classOf T ch = some (m.classDen ch x) := by
    intro ch hch
    unfold classOf classDen
    cases hm : m.mix with
    | none => exact hv 0 h0 ch hch 0 h.reps
    | some θ => exact nanLse_some (fun r hr => hv 0 h0 ch hch r hr) _
  unfold logLik den
  simp only [hT, bind, Except.bind, pure, Except.pure]
  cases hw : m.cls with
  | none => simp only; rw [hcl 0 hC]
  | some w => simp only; rw [nanLse_some hcl]

theorem logLik_nan {m : Model} (h : m.Ok μ) (hw : m.net.Wide) (hd : 1 ≤ m.net.depthOf) (hF : m.net.allF) (hCa : m.net.allC)
    {x : Row} (ha : ¬ m.net.Alive x) : m.logLik x = .ok none := by
  rw [Net.alive_iff] at ha
  push Not at ha
  obtain ⟨r, hr, i, hi, ch, hch, hbot⟩ := ha
  obtain ⟨T, hT⟩ := Net.logLik_ok h.good x
  obtain ⟨f0, c0, _, hp⟩ := Net.poison h.good hw hd hr hi hch hbot hT
  have h0 : 0 < m.net.F := by rw [h.one]; exact Nat.one_pos
  have hC := Net.posC h.good
  have hcl : ∀ ch < m.net.C, m.classOf T ch = none := by
    intro ch hch
    unfold classOf
    cases hm : m.mix with
    | none =>
      have h1 := h.mix0 hm
      obtain rfl : r = 0 := by omega
      exact hp 0 h0 (.inl hF) ch hch (.inl hCa)
    | some θ => exact nanLse_none ⟨r, hr, hp 0 h0 (.inl hF) ch hch (.inl hCa)⟩
  unfold logLik
  simp only [hT, bind, Except.bind, pure, Except.pure]
  cases hw : m.cls with
  | none => simp only; rw [hcl 0 hC]
  | some w => simp only; rw [nanLse_none ⟨0, hC, hcl 0 hC⟩]

/-! ### The density -/

theorem class_fam {m : Model} (h : m.Ok μ) : Fam μ 1 m.net.C (fun _ => m.net.varsOf) (fun _ x ch => m.classDen ch x) := by
  have hC := Net.posC h.good
  have hfam : ∀ r < m.net.R, Fam μ 1 m.net.C (fun _ => m.net.varsOf) (fun _ x ch => m.net.den r 0 x ch) := by
    intro r hr
    have := Net.fam h.good hr
    rw [h.one] at this
    have hv := Net.vars_root h.good h.one hr
    constructor
    · intro f hf g hg hne; omega
    all_goals
      intro f hf ch hch
      try rw [← hv]
    · exact this.loc 0 Nat.one_pos ch hch
    · exact this.meas 0 Nat.one_pos ch hch
    · exact this.miss 0 Nat.one_pos ch hch
    · exact this.int 0 Nat.one_pos ch hch
    · exact this.mono 0 Nat.one_pos ch hch
  cases hm : m.mix with
  | none =>
    refine (hfam 0 h.reps).congr fun f _ ch _ x => ?_
    unfold classDen; rw [hm]
  | some θ =>
    refine Fam.pack (fun ch hch => ?_) hC
    have hR : Fam μ 1 m.net.R (fun _ => m.net.varsOf) (fun _ x r => m.net.den r 0 x ch) := by
      refine Fam.pack (fun r hr => ?_) h.reps
      have := hfam r hr
      exact this.remap (κ := fun _ _ => ch) (fun _ _ _ _ => hch)
    refine hR.sum (w := fun _ _ r => softmax m.net.R (θ ch) r) (fun _ _ _ => softmax_nonneg _ _ _)
      (fun _ _ _ _ => sum_softmax ⟨0, h.reps, h.mixF θ hm ch hch 0 h.reps⟩) ?_
    intro f _ co _ x
    unfold classDen
    rw [hm]
    simp only
    rw [expL_lse]
    exact sum_congr rfl fun r _ => by rw [expL_add, expL_logSoftmax_eq_softmax, mul_comm]

theorem fam {m : Model} (h : m.Ok μ) : Fam μ 1 1 (fun _ => m.net.varsOf) (fun _ x _ => m.den x) := by
  have hC := Net.posC h.good
  have hc := class_fam h
  cases hw : m.cls with
  | none =>
    refine (hc.remap (C' := 1) (κ := fun _ _ => 0) (fun _ _ _ _ => hC)).congr fun f _ ch _ x => ?_
    unfold den; rw [hw]
  | some w =>
    refine hc.sum (w := fun _ _ ch => softmax m.net.C w ch) (fun _ _ _ => softmax_nonneg _ _ _)
      (fun _ _ _ _ => sum_softmax ⟨0, hC, h.clsF w hw 0 hC⟩) ?_
    intro f _ co _ x
    unfold den
    rw [hw]
    simp only
    rw [expL_lse]
    exact sum_congr rfl fun r _ => by rw [expL_add, expL_logSoftmax_eq_softmax, mul_comm]

end Model

/-! ### Sampling -/

theorem choose_spec {n : ℕ} {l : ℕ → LogV} {k : ℕ → Row → Prog Row} {A : Set Var} {e : Row} {ρ : ℕ → Row → ENNReal}
    (hl : ∃ i < n, l i ≠ ⊥) (h : ∀ i < n, Spec (k i) A e (ρ i)) :
    Spec (fun y => .choose n l fun i => k i y) A e (fun z => ∑ i ∈ range n, ENNReal.ofReal (softmax n l i) * ρ i z) := by
  refine ⟨?_, ?_, ?_⟩
  · intro y hf
    cases hf with
    | dead hd =>
      obtain ⟨i, hi, hne⟩ := hl
      exact hne (hd i hi)
    | choose hi hf => exact (h _ hi).noFail y hf
  · intro y z ho
    cases ho with
    | choose hd hi ho => exact (h _ hi).frames y z ho
  · intro y z h1 h2 h3
    show Prog.E _ _ = _
    rw [Prog.E]
    exact sum_congr rfl fun i hi => by rw [← (h i (mem_range.1 hi)).law y z h1 h2 h3]; rfl

namespace Model

/-- The ratio of densities for class `ch` in repetition `r`. -/
noncomputable def ratio (m : Model) (e : Row) (ch r : ℕ) (z : Row) : ENNReal :=
  ENNReal.ofReal (expL (m.net.den r 0 z ch) / expL (m.net.den r 0 e ch))

theorem net_spec {m : Model} (h : m.Ok μ) (hs : m.net.Samp) {ev : Option Row} {e : Row} (hev : Conv.Net.Ev ev e)
    (ha : m.net.Alive e) {r ch : ℕ} (hr : r < m.net.R) (hch : ch < m.net.C) :
    Spec (m.net.sample ev r (fun _ => ch) fun _ => true) {v | v ∈ m.net.varsOf} e (m.ratio e ch r) := by
  refine (Net.sample_spec h.good hs hev ha hr (fun _ => ch) (fun _ => true) fun _ _ => hch).congr ⟨?_, fun z => ?_⟩
  · ext v
    rw [← Net.vars_root h.good h.one hr]
    show v ∈ m.net.vars r 0 ↔ ∃ f < m.net.F, true = true ∧ v ∈ m.net.vars r f
    rw [h.one]
    constructor
    · intro hv; exact ⟨0, Nat.one_pos, rfl, hv⟩
    · rintro ⟨f, hf, -, hv⟩
      obtain rfl : f = 0 := by omega
      exact hv
  · unfold ratiosU ratio
    rw [h.one, prod_range_one, if_pos rfl]

theorem class_spec {m : Model} (h : m.Ok μ) (hs : m.net.Samp) {ev : Option Row} {e : Row} (hev : Conv.Net.Ev ev e)
    (ha : m.net.Alive e) {ch : ℕ} (hch : ch < m.net.C) :
    Spec (fun y => m.sampleClass ev y ch) {v | v ∈ m.net.varsOf} e
      (fun z => ∑ r ∈ range m.net.R, ENNReal.ofReal (m.repProb ev r) * m.ratio e ch r z) := by
  have h0 : 0 < m.net.F := by rw [h.one]; exact Nat.one_pos
  cases hm : m.mix with
  | none =>
    have es : (fun y => m.sampleClass ev y ch) = m.net.sample ev 0 (fun _ => ch) fun _ => true := by
      funext y; unfold sampleClass; rw [hm]
    rw [es]
    refine (net_spec h hs hev ha h.reps hch).congr ⟨rfl, fun z => ?_⟩
    rw [h.mix0 hm, sum_range_one]
    unfold repProb
    rw [hm]
    simp
  | some θ =>
    have hl : ∃ l, m.repLogits θ ev = some l ∧ (∀ r < m.net.R, l r ≠ ⊥) ∧
        ∀ r < m.net.R, softmax m.net.R l r = m.repProb ev r := by
      rcases hev with rfl | ⟨rfl, _⟩
      · obtain ⟨T, hT, hv⟩ := Net.cached_alive h.good ha
        have hall : ((List.range m.net.C).all fun ch => (Net.allSome m.net.R fun r => T 0 ch r).isSome) = true := by
          rw [List.all_eq_true]
          intro ch' hch'
          obtain ⟨v, hv', _⟩ := allSome_some fun r hr => hv 0 h0 ch' (List.mem_range.1 hch') r hr
          rw [hv']; rfl
        have hlr : ∀ r < m.net.R, (∑ c ∈ range m.net.C, logSoftmax m.net.R (fun r => θ c r + (T 0 c r).getD ⊥) r) =
            ∑ c ∈ range m.net.C, logSoftmax m.net.R (fun r => θ c r + m.net.den r 0 e c) r := by
          intro r hr
          refine sum_congr rfl fun c hc => ?_
          apply expL_injective
          rw [expL_logSoftmax_eq_softmax, expL_logSoftmax_eq_softmax, softmax_eq, softmax_eq,
            hv 0 h0 c (mem_range.1 hc) r hr]
          congr 1
          exact sum_congr rfl fun r' hr' => by rw [hv 0 h0 c (mem_range.1 hc) r' (mem_range.1 hr')]; rfl
        refine ⟨fun r => ∑ c ∈ range m.net.C, logSoftmax m.net.R (fun r => θ c r + (T 0 c r).getD ⊥) r, ?_, ?_, ?_⟩
        · unfold repLogits; rw [hT]; simp only [hall, if_true]
        · intro r hr
          beta_reduce
          rw [hlr r hr]
          refine sum_ne_bot fun c hc => ?_
          rw [Ne, ← expL_eq_zero_iff, expL_logSoftmax_eq_softmax]
          have hne : θ c r + m.net.den r 0 e c ≠ ⊥ := by
            rw [Ne, WithBot.add_eq_bot, not_or]
            exact ⟨h.mixF θ hm c (mem_range.1 hc) r hr, Net.den_alive h.good ha hr 0 h0 c (mem_range.1 hc)⟩
          exact (softmax_pos (f := fun r => θ c r + m.net.den r 0 e c) hr hne).ne'
        · intro r hr
          unfold repProb
          rw [hm]
          simp only
          rw [softmax_eq, softmax_eq, hlr r hr]
          show _ = expL (∑ c ∈ range m.net.C, logSoftmax m.net.R (fun r => θ c r + m.net.den r 0 e c) r) / _
          congr 1
          exact sum_congr rfl fun r' hr' => by rw [hlr r' (mem_range.1 hr')]; rfl
      · refine ⟨fun r => ∑ c ∈ range m.net.C, θ c r, rfl, ?_, ?_⟩
        · intro r hr
          exact sum_ne_bot fun c hc => h.mixF θ hm c (mem_range.1 hc) r hr
        · intro r _
          unfold repProb
          rw [hm]
          rfl
    obtain ⟨l, hl1, hl2, hl3⟩ := hl
    have es : (fun y => m.sampleClass ev y ch) =
        fun y => .choose m.net.R l fun r => m.net.sample ev r (fun _ => ch) (fun _ => true) y := by
      funext y; unfold sampleClass; rw [hm]; simp only [hl1]
    rw [es]
    refine (choose_spec ⟨0, h.reps, hl2 0 h.reps⟩ fun r hr => net_spec h hs hev ha hr hch).congr ⟨rfl, fun z => ?_⟩
    exact sum_congr rfl fun r hr => by rw [hl3 r (mem_range.1 hr)]

/-- The exact behaviour of `sample`. -/
theorem spec {m : Model} (h : m.Ok μ) (hs : m.net.Samp) {ev : Option Row} {e : Row} (hev : Conv.Net.Ev ev e)
    (ha : m.net.Alive e) : Spec (m.sample ev) {v | v ∈ m.net.varsOf} e (fun z => ∑ ch ∈ range m.net.C,
      ENNReal.ofReal (m.clsProb ch) * ∑ r ∈ range m.net.R, ENNReal.ofReal (m.repProb ev r) * m.ratio e ch r z) := by
  have hC := Net.posC h.good
  cases hw : m.cls with
  | none =>
    have es : m.sample ev = fun y => m.sampleClass ev y 0 := by
      funext y; unfold sample; rw [hw]
    rw [es]
    refine (class_spec h hs hev ha hC).congr ⟨rfl, fun z => ?_⟩
    rw [h.cls0 hw, sum_range_one]
    unfold clsProb
    rw [hw]
    simp
  | some w =>
    have es : m.sample ev = fun y => .choose m.net.C w fun ch => m.sampleClass ev y ch := by
      funext y; unfold sample; rw [hw]
    rw [es]
    refine (choose_spec ⟨0, hC, h.clsF w hw 0 hC⟩ fun ch hch => class_spec h hs hev ha hch).congr ⟨rfl, fun z => ?_⟩
    refine sum_congr rfl fun ch _ => ?_
    unfold clsProb
    rw [hw]

end Model

end Verif.Rat

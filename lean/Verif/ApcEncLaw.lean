import Verif.ApcEncProps

/-!
# C75: the laws of encode, decode and sample_prior_z
-/

open MeasureTheory

namespace Verif.Apc

open Finset Verif.Rat Verif.Circ Verif.Simple
open Verif.Prog hiding bind

/-- Expectations are sums over the results. -/
theorem E_tsum {α : Type} (p : Prog α) (h : α → ENNReal) : p.E h = ∑' a, p.prob a * h a := by
  classical
  induction p with
  | ret b =>
    unfold Prog.prob
    simp only [Prog.E]
    rw [tsum_eq_single b]
    · rw [if_pos rfl, one_mul]
    · intro a ha
      rw [if_neg (Ne.symm ha), zero_mul]
  | fail e => simp [Prog.prob, Prog.E]
  | choose n l k ih =>
    have e : ∀ a, (Prog.choose n l k).prob a * h a = ∑ i ∈ range n, ENNReal.ofReal (softmax n l i) * ((k i).prob a * h a) := fun a => by
      unfold Prog.prob
      simp only [Prog.E]
      rw [sum_mul]
      exact sum_congr rfl fun i _ => mul_assoc _ _ _
    simp only [e]
    rw [Prog.E, Summable.tsum_finsetSum fun i _ => ENNReal.summable]
    refine sum_congr rfl fun i _ => ?_
    rw [ENNReal.tsum_mul_left, ih]
  | draw d k ih =>
    have e : ∀ a, (Prog.draw d k).prob a * h a = ∑' t, ENNReal.ofReal (expL (d t)) * ((k t).prob a * h a) := fun a => by
      unfold Prog.prob
      simp only [Prog.E]
      rw [← ENNReal.tsum_mul_right]
      exact tsum_congr fun t => mul_assoc _ _ _
    simp only [e]
    rw [Prog.E, ENNReal.tsum_comm]
    refine tsum_congr fun t => ?_
    rw [ENNReal.tsum_mul_left, ih]

variable {a : EncArgs} {xf zf : List Var → ℕ → ℕ → Option Circ} {xl zl : Circ} {d : Draws} {μ : Var → Measure ℝ} {C Rl : ℕ}

open Classical in
/-- The law of a block of columns of a row completed by the encoder's circuit, at every temperature: the total density of the
completions that have the block `w`, divided by the density of the evidence. -/
theorem block_law (hf : Factories a xf zf xl zl) (h : ESetup μ [xl, zl] a.einet C Rl d) (hv : EValid a.einet) (hRl : Rl = a.R)
    {E : JointEnc} (hE : buildEncoder a xf zf d = .ok E) {tau : ℝ} (ht : 0 < tau) {e : Row} (he : Possible [xl, zl] e)
    (g : Row → ℕ → Option ℝ) (w : ℕ → Option ℝ) :
    gumbelProb tau (Prog.bind (E.pc.sampleWithEvidence e) fun y => .ret (g y)) w =
      ∑' y : Row, if Rat.Completes [xl, zl] e y ∧ g y = w then ENNReal.ofReal (expL (E.pc.den y) / expL (E.pc.den e)) else 0 := by
  obtain ⟨-, -, -, -, hm, -⟩ := built hf hE
  obtain ⟨nf, out⟩ := (C68_sampling_fills h hv hm hRl).2 e he
  have hlaw := (C68_sampling_partial h hv hm hRl).2 rfl e
  unfold gumbelProb
  rw [C73_program ht _ (not_fails_bind nf fun _ _ hc => by cases hc), E_bind, E_tsum]
  refine tsum_congr fun y => ?_
  rw [Prog.E]
  by_cases hy : Rat.Completes [xl, zl] e y
  · rw [hlaw y he hy]
    by_cases hg : g y = w
    · rw [if_pos hg, if_pos ⟨hy, hg⟩, mul_one]
    · rw [if_neg hg, if_neg (fun hc => hg hc.2), mul_zero]
  · rw [prob_eq_zero (s := fun _ => E.pc.sampleWithEvidence e) (y := e) (fun hc => hy (out y hc)), zero_mul,
      if_neg (fun hc => hy hc.1)]

/-! ### Encoding -/

/-- A row of complete values. -/
def full (n : ℕ) (x : ℕ → ℝ) : ℕ → Option ℝ := fun i => if i < n then some (x i) else none

/-- The joint row of complete values. -/
theorem completes_full {E : JointEnc} (hf : Factories a xf zf xl zl) (hE : buildEncoder a xf zf d = .ok E) {x : ℕ → Option ℝ}
    {z : ℕ → ℝ} (hx : ∀ i < E.nx, x i ≠ none) (y : Row) :
    Rat.Completes [xl, zl] (colRow E.nx E.nz x fun _ => none) y ∧ zPart E.nx E.nz y = full E.nz z ↔
      y = colRow E.nx E.nz x (full E.nz z) := by
  obtain ⟨-, -, -, -, -, hsc⟩ := built hf hE
  constructor
  · rintro ⟨⟨c1, c2, c3⟩, hz⟩
    funext v
    by_cases hv : 0 ≤ v ∧ v < ((E.nx + E.nz : ℕ) : ℤ)
    · rcases cols_cases hv with ⟨i, hi, rfl⟩ | ⟨j, hj, rfl⟩
      · rw [colRow_x _ _ _ _ hi]
        obtain ⟨t, ht⟩ := Option.ne_none_iff_exists'.1 (hx i hi)
        rw [ht]
        exact c2 _ t (by rw [colRow_x _ _ _ _ hi, ht])
      · rw [colRow_z _ _ _ _ hj, ← hz]
        simp [zPart, hj]
    · rw [colRow_out _ _ _ _ hv, c3 v (by rw [hsc]; exact hv), colRow_out _ _ _ _ hv]
  · rintro rfl
    refine ⟨⟨fun v hv => ?_, fun v t hv => ?_, fun v hv => ?_⟩, ?_⟩
    · rw [hsc] at hv
      rcases cols_cases hv with ⟨i, hi, rfl⟩ | ⟨j, hj, rfl⟩
      · rw [colRow_x _ _ _ _ hi]; exact hx i hi
      · rw [colRow_z _ _ _ _ hj]; simp [full, hj]
    · by_cases hv' : 0 ≤ v ∧ v < ((E.nx + E.nz : ℕ) : ℤ)
      · rcases cols_cases hv' with ⟨i, hi, rfl⟩ | ⟨j, hj, rfl⟩
        · rw [colRow_x _ _ _ _ hi] at hv ⊢; exact hv
        · rw [colRow_z _ _ _ _ hj] at hv; cases hv
      · rw [colRow_out _ _ _ _ hv'] at hv; cases hv
    · rw [hsc] at hv
      rw [colRow_out _ _ _ _ hv, colRow_out _ _ _ _ hv]
    · funext j
      unfold zPart
      by_cases hj : j < E.nz
      · rw [if_pos hj, colRow_z _ _ _ _ hj]
      · simp [full, hj]

open Classical in
/-- **encode samples the posterior** (discrete leaves, at every temperature). For a tensor of the right shape, row `b` of the result is
`z` with probability `p(x, z) / p(x)` if row `b` of `x` is complete; if it has NaNs, these are summed out. Both for rows at which no
leaf component is impossible. `p` is what `joint_log_likelihood` and `log_likelihood_x` return. -/
theorem C75_encode_partial (hf : Factories a xf zf xl zl) (h : ESetup μ [xl, zl] a.einet C Rl d) (hv : EValid a.einet) (hRl : Rl = a.R)
    {E : JointEnc} (hE : buildEncoder a xf zf d = .ok E) {tau : ℝ} (ht : 0 < tau) {B : ℕ} {x : Batch} (hx : Shaped E.nx B x) :
    ∃ prog, E.encode x = .ok (B, prog) ∧ ∀ b < B, Possible [xl, zl] (colRow E.nx E.nz (x.at2 b) nans) →
      (∀ w, gumbelProb tau (prog b) w = ∑' y : Row, if Rat.Completes [xl, zl] (colRow E.nx E.nz (x.at2 b) nans) y ∧
          zPart E.nx E.nz y = w then
        ENNReal.ofReal (expL (E.pc.den y) / expL (E.pc.den (colRow E.nx E.nz (x.at2 b) nans))) else 0) ∧
      ((∀ i < E.nx, x.at2 b i ≠ none) → ∀ z : ℕ → ℝ, gumbelProb tau (prog b) (full E.nz z) =
        ENNReal.ofReal (expL (E.pc.den (colRow E.nx E.nz (x.at2 b) (full E.nz z))) / expL (E.pc.den (colRow E.nx E.nz (x.at2 b) nans)))) := by
  refine ⟨fun b => Prog.bind (E.pc.sampleWithEvidence (colRow E.nx E.nz (x.at2 b) nans)) fun y => .ret (zPart E.nx E.nz y), ?_, ?_⟩
  · unfold JointEnc.encode buildEvidence
    rw [flatten_ok hx]
    rfl
  · intro b _ hp
    have hb := block_law hf h hv hRl hE ht hp (zPart E.nx E.nz)
    refine ⟨hb, fun hc z => ?_⟩
    rw [hb]
    have e := fun y => completes_full hf hE (z := z) hc y
    simp only [show (nans : ℕ → Option ℝ) = fun _ => none from rfl, e]
    rw [tsum_eq_single (colRow E.nx E.nz (x.at2 b) (full E.nz z)) fun y hy => if_neg hy, if_pos rfl]

/-! ### Decoding -/

theorem completes_x {E : JointEnc} (hf : Factories a xf zf xl zl) (hE : buildEncoder a xf zf d = .ok E) {x z : ℕ → Option ℝ}
    {w : ℕ → ℝ} (hz : ∀ j < E.nz, z j ≠ none) (hw : ∀ i < E.nx, ∀ t, x i = some t → w i = t) (y : Row) :
    Rat.Completes [xl, zl] (colRow E.nx E.nz x z) y ∧ xPart E.nx y = full E.nx w ↔ y = colRow E.nx E.nz (full E.nx w) z := by
  obtain ⟨-, -, -, -, -, hsc⟩ := built hf hE
  constructor
  · rintro ⟨⟨c1, c2, c3⟩, hx⟩
    funext v
    by_cases hv : 0 ≤ v ∧ v < ((E.nx + E.nz : ℕ) : ℤ)
    · rcases cols_cases hv with ⟨i, hi, rfl⟩ | ⟨j, hj, rfl⟩
      · rw [colRow_x _ _ _ _ hi, ← hx]
        simp [xPart, hi]
      · rw [colRow_z _ _ _ _ hj]
        obtain ⟨t, ht⟩ := Option.ne_none_iff_exists'.1 (hz j hj)
        rw [ht]
        exact c2 _ t (by rw [colRow_z _ _ _ _ hj, ht])
    · rw [colRow_out _ _ _ _ hv, c3 v (by rw [hsc]; exact hv), colRow_out _ _ _ _ hv]
  · rintro rfl
    refine ⟨⟨fun v hv => ?_, fun v t hv => ?_, fun v hv => ?_⟩, ?_⟩
    · rw [hsc] at hv
      rcases cols_cases hv with ⟨i, hi, rfl⟩ | ⟨j, hj, rfl⟩
      · rw [colRow_x _ _ _ _ hi]; simp [full, hi]
      · rw [colRow_z _ _ _ _ hj]; exact hz j hj
    · by_cases hv' : 0 ≤ v ∧ v < ((E.nx + E.nz : ℕ) : ℤ)
      · rcases cols_cases hv' with ⟨i, hi, rfl⟩ | ⟨j, hj, rfl⟩
        · rw [colRow_x _ _ _ _ hi] at hv ⊢
          simp [full, hi, hw i hi t hv]
        · rw [colRow_z _ _ _ _ hj] at hv ⊢; exact hv
      · rw [colRow_out _ _ _ _ hv'] at hv; cases hv
    · rw [hsc] at hv
      rw [colRow_out _ _ _ _ hv, colRow_out _ _ _ _ hv]
    · funext i
      unfold xPart
      by_cases hi : i < E.nx
      · rw [if_pos hi, colRow_x _ _ _ _ hi]
      · simp [full, hi]

/-- The entries of the optional evidence. -/
def given (x : Option Batch) (b : ℕ) : ℕ → Option ℝ :=
  match x with
  | none => nans
  | some x => x.at2 b

theorem decode_eq (E : JointEnc) {B : ℕ} {z : Batch} (hz : Shaped E.nz B z) {x : Option Batch} (hx : ∀ t, x = some t → Shaped E.nx B t)
    (fill : Bool) : ∃ prog, E.decode z x fill = .ok (B, prog) ∧ ∀ b, prog b =
      Prog.bind (E.pc.sampleWithEvidence (colRow E.nx E.nz (given x b) (z.at2 b))) fun y =>
        .ret (fillRow fill (x.map fun t => ⟨B, t.at2⟩) b (xPart E.nx y)) := by
  cases x with
  | none =>
    refine ⟨_, ?_, fun b => rfl⟩
    unfold JointEnc.decode buildEvidence flattenOpt
    rw [flatten_ok hz]
    rfl
  | some t =>
    refine ⟨_, ?_, fun b => rfl⟩
    unfold JointEnc.decode buildEvidence
    rw [flatten_ok hz]
    simp only [flattenOpt_ok (hx t rfl), ne_eq, not_true_eq_false, if_false]
    rfl

/-- **decode samples `x` given `z`** and whatever entries of `x` are passed as evidence: the completion `w` of row `b` is returned with
probability `p(w, z) / p(x, z)`. -/
theorem C75_decode_partial (hf : Factories a xf zf xl zl) (h : ESetup μ [xl, zl] a.einet C Rl d) (hv : EValid a.einet) (hRl : Rl = a.R)
    {E : JointEnc} (hE : buildEncoder a xf zf d = .ok E) {tau : ℝ} (ht : 0 < tau) {B : ℕ} {z : Batch} (hz : Shaped E.nz B z)
    {x : Option Batch} (hx : ∀ t, x = some t → Shaped E.nx B t) :
    ∃ prog, E.decode z x false = .ok (B, prog) ∧ ∀ b < B, (∀ j < E.nz, z.at2 b j ≠ none) →
      Possible [xl, zl] (colRow E.nx E.nz (given x b) (z.at2 b)) →
      ∀ w : ℕ → ℝ, (∀ i < E.nx, ∀ t, given x b i = some t → w i = t) → gumbelProb tau (prog b) (full E.nx w) =
        ENNReal.ofReal (expL (E.pc.den (colRow E.nx E.nz (full E.nx w) (z.at2 b))) /
          expL (E.pc.den (colRow E.nx E.nz (given x b) (z.at2 b)))) := by
  classical
  obtain ⟨prog, hp, hprog⟩ := decode_eq E hz hx false
  refine ⟨prog, hp, fun b _ hzb hpos w hw => ?_⟩
  have hb := block_law hf h hv hRl hE ht hpos (xPart E.nx) (full E.nx w)
  rw [hprog b]
  have hfr : ∀ r, fillRow false (x.map fun t => (⟨B, t.at2⟩ : Flat)) b r = r := fun r => rfl
  simp only [hfr]
  rw [hb]
  have e := fun y => completes_x hf hE hzb hw y
  simp only [e]
  rw [tsum_eq_single (colRow E.nx E.nz (full E.nx w) (z.at2 b)) fun y hy => if_neg hy, if_pos rfl]

/-- The given entries of `x` are returned unchanged and every other entry is filled, with and without `fill_evidence`, which has
no effect. -/
theorem C75_decode_keeps (hf : Factories a xf zf xl zl) (h : ESetup μ [xl, zl] a.einet C Rl d) (hv : EValid a.einet) (hRl : Rl = a.R)
    {E : JointEnc} (hE : buildEncoder a xf zf d = .ok E) {B : ℕ} {z : Batch} (hz : Shaped E.nz B z)
    {x : Option Batch} (hx : ∀ t, x = some t → Shaped E.nx B t) :
    ∃ prog prog', E.decode z x false = .ok (B, prog) ∧ E.decode z x true = .ok (B, prog') ∧
      ∀ b < B, Possible [xl, zl] (colRow E.nx E.nz (given x b) (z.at2 b)) →
        ¬ Fails (prog b) ∧ ¬ Fails (prog' b) ∧
        (∀ r, Outcome (prog b) r → ∀ i < E.nx, r i ≠ none ∧ ∀ t, given x b i = some t → r i = some t) ∧
        ∀ r : ℕ → Option ℝ, (∀ i, E.nx ≤ i → given x b i = none) → (Outcome (prog b) r ↔ Outcome (prog' b) r) := by
  obtain ⟨prog, hp, hprog⟩ := decode_eq E hz hx false
  obtain ⟨prog', hp', hprog'⟩ := decode_eq E hz hx true
  obtain ⟨-, -, -, -, hm, hsc⟩ := built hf hE
  refine ⟨prog, prog', hp, hp', fun b _ hpos => ?_⟩
  obtain ⟨nf, out⟩ := (C68_sampling_fills h hv hm hRl).2 _ hpos
  have keep : ∀ y, Outcome (E.pc.sampleWithEvidence (colRow E.nx E.nz (given x b) (z.at2 b))) y → ∀ i < E.nx,
      xPart E.nx y i ≠ none ∧ ∀ t, given x b i = some t → xPart E.nx y i = some t := by
    intro y hy i hi
    obtain ⟨c1, c2, -⟩ := out y hy
    unfold xPart
    rw [if_pos hi]
    refine ⟨c1 _ (by rw [hsc]; push_cast; omega), fun t htt => c2 _ t (by rw [colRow_x _ _ _ _ hi]; exact htt)⟩
  rw [hprog b, hprog' b]
  refine ⟨not_fails_bind nf (fun _ _ hc => by cases hc), not_fails_bind nf (fun _ _ hc => by cases hc), fun r hr => ?_, fun r hout => ?_⟩
  · rw [outcome_bind] at hr
    obtain ⟨y, hy, hr⟩ := hr
    cases hr
    exact keep y hy
  · have e : ∀ y, Outcome (E.pc.sampleWithEvidence (colRow E.nx E.nz (given x b) (z.at2 b))) y →
        fillRow true (x.map fun t => (⟨B, t.at2⟩ : Flat)) b (xPart E.nx y) =
          fillRow false (x.map fun t => (⟨B, t.at2⟩ : Flat)) b (xPart E.nx y) := by
      intro y hy
      cases x with
      | none => rfl
      | some t =>
        funext i
        show (match t.at2 b i with
          | some s => some s
          | none => xPart E.nx y i) = xPart E.nx y i
        cases hti : t.at2 b i with
        | none => rfl
        | some s =>
          by_cases hi : i < E.nx
          · exact ((keep y hy i hi).2 s hti).symm
          · have : t.at2 b i = none := hout i (by omega)
            rw [this] at hti; cases hti
    rw [outcome_bind, outcome_bind]
    constructor
    · rintro ⟨y, hy, hr⟩
      rw [← e y hy] at hr
      exact ⟨y, hy, hr⟩
    · rintro ⟨y, hy, hr⟩
      rw [e y hy] at hr
      exact ⟨y, hy, hr⟩

/-! ### The prior -/

open Classical in
/-- **sample_prior_z** draws `z` with probability `p(z)`, the sum of `p(x, z)` over all `x`; InvalidParameterError unless
`num_samples` is positive. -/
theorem C75_prior_partial [∀ v, SigmaFinite (μ v)] (hf : Factories a xf zf xl zl) (h : ESetup μ [xl, zl] a.einet C Rl d)
    (hv : EValid a.einet) (hRl : Rl = a.R) {E : JointEnc} (hE : buildEncoder a xf zf d = .ok E) {tau : ℝ} (ht : 0 < tau) (n : ℤ) :
    (n ≤ 0 → E.prior n = .error .invalidParameter) ∧
    (0 < n → ∃ prog, E.prior n = .ok (n.toNat, prog) ∧ ∀ b < n.toNat, ∀ z : ℕ → ℝ, gumbelProb tau (prog b) (full E.nz z) =
      ∑' y : Row, if Rat.Completes [xl, zl] (fun _ => none) y ∧ zPart E.nx E.nz y = full E.nz z then
        ENNReal.ofReal (expL (E.pc.den y)) else 0) := by
  obtain ⟨-, -, -, -, hm, hsc⟩ := built hf hE
  have hrow : colRow E.nx E.nz (fun _ => none) (fun _ => none) = fun _ => none := by
    funext v
    unfold colRow
    split_ifs <;> rfl
  refine ⟨fun hn => by unfold JointEnc.prior; rw [if_pos hn], fun hn => ?_⟩
  refine ⟨fun b => Prog.bind (E.pc.sampleWithEvidence fun _ => none) fun y => .ret (zPart E.nx E.nz y), ?_, fun b _ z => ?_⟩
  · unfold JointEnc.prior buildEvidence
    rw [if_neg (by omega)]
    simp only [hrow]
  · have hone : expL (E.pc.den fun _ => none) = 1 := by
      obtain ⟨n1, n2, n3⟩ := C68_normalised h hv hm
      have e1 := n1 (scopeOf [xl, zl]) (Subset.refl _) fun _ => 0
      rw [n2] at e1
      have e2 : E.pc.den (maskRow (scopeOf [xl, zl]) fun _ => 0) = E.pc.den fun _ => none :=
        n3 _ _ fun v hv => if_pos (mem_scopeOf.2 hv)
      rw [e2] at e1
      rw [← ENNReal.toReal_ofReal (expL_nonneg (E.pc.den fun _ => none)), ← e1, ENNReal.toReal_one]
    have hpos : Possible [xl, zl] (fun _ => none) := possible_none h.leafOk fun _ => rfl
    rw [block_law hf h hv hRl hE ht hpos]
    simp only [hone, div_one]

end Verif.Apc

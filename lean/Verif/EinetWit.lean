import Verif.EinetProps
import Verif.RatSpnWit

/-!
C68: counterexamples and witnesses.
-/

open MeasureTheory

namespace Verif.Rat.EWit

open Finset Verif.Circ
open Verif.Prog hiding bind
open Verif.Rat.Wit

/-- What is drawn: the logits of `Wit`. -/
noncomputable def draws : Draws where
  sizes := [1, 1]
  perms := fun _ => [0, 1]
  path := fun _ => .dense
  We := fun _ _ co r i j => logL (pr ((i + j + co + r) % 2 == 0))
  Wl := fun _ f co r c => W 0 f c co r
  W0 := W 0
  Wc := W 0
  wmix := wmix
  wroot := fun _ => 0

def eargs (K R : ℕ) (l : Layer) (s : Struct) : EArgs := ⟨K, 2, 2, 1, R, l, s⟩

theorem evalid (K R : ℕ) (l : Layer) (s : Struct) (hK : 1 ≤ K) (hR : 1 ≤ R) (hl : l ≠ .other) (hs : s ≠ .other) : EValid (eargs K R l s) :=
  ⟨hK, show 1 ≤ 2 by omega, show 1 ≤ 2 by omega, show (0 : ℤ) ≤ 1 by omega, hR, hl, hs⟩

theorem fact_depth (q : ℕ → ℝ) (K R : ℕ) (l : Layer) (s : Struct) : factDepth [gleaf q R] (eargs K R l s) = 1 := by
  unfold factDepth
  have hw : width [gleaf q R] = 2 := rfl
  rw [hw]
  split_ifs
  · rfl
  · decide

/-- The hypotheses of the C68 theorems are met by both structures and both layer types, for any numbers of classes and
repetitions. -/
theorem esetup (q : ℕ → ℝ) (hq : ∀ ch, 0 ≤ q ch ∧ q ch ≤ 1) (K R : ℕ) (l : Layer) (s : Struct) :
    ESetup μ [gleaf q R] (eargs K R l s) 2 R draws :=
  ⟨gleaves_ok q hq R, by decide, .inl rfl, by rw [fact_depth]; exact gsizes_ok q R, fun _ _ => List.Perm.refl _,
    fun _ _ _ _ _ _ => logL_pr_ne _, fun _ _ _ _ _ => logL_pr_ne _, fun _ _ _ _ => logL_pr_ne _, fun _ _ _ _ => logL_pr_ne _,
    fun _ _ => logL_pr_ne _, fun _ => by simp [draws]⟩

/-- For instance, a bottom-up network of EinsumLayers with three classes and two repetitions is built. -/
example : ∃ m, buildEinet [leaf 2] (eargs 3 2 .einsum .bottomUp) draws = .ok m :=
  (C68_constructor (esetup q0 q0_ok 3 2 .einsum .bottomUp) (evalid 3 2 _ _ (by omega) (by omega) (by decide) (by decide))).2 (le_refl 2)

/-! ### The running example: top-down, LinsumLayer -/

noncomputable def enet (q : ℕ → ℝ) (K R : ℕ) : Net := .linsum (gbase q R) K (draws.Wl 0)

noncomputable def emodel (q : ℕ → ℝ) (K R : ℕ) : Model :=
  ⟨enet q K R, if 1 < R then some wmix else none, if 1 < K then some fun _ => 0 else none⟩

theorem build_emodel (q : ℕ → ℝ) (K R : ℕ) (hK : 1 ≤ K) (hR : 1 ≤ R) :
    buildEinet [gleaf q R] (eargs K R .linsum .topDown) draws = .ok (emodel q K R) := by
  unfold buildEinet
  simp only [bind, Except.bind, throw, throwThe, MonadExceptOf.throw]
  rw [if_neg (show ¬ (eargs K R .linsum .topDown).classes < 1 by show ¬ K < 1; omega), if_neg (show ¬ (eargs K R .linsum .topDown).sums < 1 by show ¬ 2 < 1; omega),
    if_neg (show ¬ (eargs K R .linsum .topDown).leaves < 1 by show ¬ 2 < 1; omega), if_neg (show ¬ (eargs K R .linsum .topDown).depth < 0 by show ¬ (1 : ℤ) < 0; omega),
    if_neg (show ¬ (eargs K R .linsum .topDown).R < 1 by show ¬ R < 1; omega), if_neg (show ¬ (eargs K R .linsum .topDown).layer = .other by show ¬ Layer.linsum = .other; decide),
    if_neg (show ¬ (eargs K R .linsum .topDown).struct = .other by show ¬ Struct.topDown = .other; decide)]
  rw [show Scope.joinAll ([gleaf q R].map scope) = .ok ⟨[0, 1], []⟩ from rfl]
  simp only
  rw [if_neg (show ¬ [(0 : Var), 1].length < 2 ^ (eargs K R .linsum .topDown).depth.toNat by show ¬ 2 < 2 ^ 1; omega),
    if_pos (show (eargs K R .linsum .topDown).struct = .topDown from rfl)]
  have hl : eLayers .linsum K 2 draws 1 (gbase q R) = .ok (enet q K R) := by
    show (addLayer .linsum K draws 0 (gbase q R) >>= fun p => Except.ok p) = _
    have : addLayer .linsum K draws 0 (gbase q R) = .ok (enet q K R) := by
      unfold addLayer
      rw [if_neg (show ¬ (gbase q R).F < 2 by show ¬ 2 < 2; omega), if_neg (show ¬ (gbase q R).F % 2 ≠ 0 by show ¬ 2 % 2 ≠ 0; omega),
        if_neg (show ¬ K < 1 by omega), if_neg (by decide)]
      rfl
    rw [this]; rfl
  unfold buildTopDown
  rw [show addFact [gleaf q R] (eargs K R .linsum .topDown).depth.toNat (eargs K R .linsum .topDown).R draws.sizes draws.perms =
    .ok (gbase q R) from rfl]
  simp only [bind, Except.bind, pure, Except.pure]
  rw [if_neg (show ¬ (eargs K R .linsum .topDown).depth.toNat = 0 by show ¬ (1 : ℤ).toNat = 0; decide)]
  rw [show eLayers (eargs K R .linsum .topDown).layer (eargs K R .linsum .topDown).classes (eargs K R .linsum .topDown).sums draws
    (eargs K R .linsum .topDown).depth.toNat (gbase q R) = .ok (enet q K R) from hl]
  simp only
  unfold finalize
  rw [if_neg (by simp)]
  simp only
  rw [if_neg (show ¬ (enet q K R).C ≠ (eargs K R .linsum .topDown).classes by show ¬ K ≠ K; simp)]
  rfl

theorem enet_val (q : ℕ → ℝ) (K R r co : ℕ) (x : Row) : expL ((enet q K R).den r 0 x co) =
    ∑ ci ∈ range 2, pr ((ci + co + r) % 2 == 0) * (gcell q ci (x 0) * gcell q ci (x 1)) := by
  show expL (lse 2 fun c => ((gbase q R).den r (2 * 0) x c + (gbase q R).den r (2 * 0 + 1) x c) +
    logSoftmax 2 (fun c => logL (pr ((c + co + r) % 2 == 0))) c) = _
  rw [expL_lse]
  refine sum_congr rfl fun ci hci => ?_
  rw [mem_range] at hci
  have hs := softmax_pr (fun i => (i + co + r) % 2 == 0) (by
    simp only [Nat.zero_add]
    intro h
    rw [Bool.eq_iff_iff, beq_iff_eq, beq_iff_eq] at h
    omega) hci
  rw [expL_add, expL_logSoftmax_eq_softmax, hs, mul_comm, expL_add, gbase_val q R _ r ci (by omega), gbase_val q R _ r ci (by omega)]
  rfl

theorem enet_eq (K R r co : ℕ) (x : Row) : expL ((enet q0 K R).den r 0 x co) = expL ((net K R).den r 0 x co) := by
  rw [enet_val, net_val]

theorem emodel_den (R : ℕ) (x : Row) : expL ((emodel q0 2 R).den x) =
    1/2 * expL ((emodel q0 2 R).classDen 0 x) + 1/2 * expL ((emodel q0 2 R).classDen 1 x) := by
  show expL (lse 2 fun ch => (emodel q0 2 R).classDen ch x + logSoftmax 2 (fun _ => (0 : LogV)) ch) = _
  rw [expL_lse]
  simp only [sum_range_succ, range_zero, sum_empty, zero_add]
  have e : ∀ i, softmax 2 (fun _ => (0 : LogV)) i = 1/2 := fun i => by rw [softmax_eq]; simp
  rw [expL_add, expL_add, expL_logSoftmax_eq_softmax, expL_logSoftmax_eq_softmax, e, e]
  ring

theorem eclsProb (R ch : ℕ) : (emodel q0 2 R).clsProb ch = 1/2 := by
  show softmax 2 (fun _ => (0 : LogV)) ch = _
  rw [softmax_eq]
  simp

theorem eclass_den (ch : ℕ) (x : Row) : expL ((emodel q0 2 2).classDen ch x) =
    ∑ r ∈ range 2, pr ((ch + r) % 2 == 0) * expL ((net 2 2).den r 0 x ch) := by
  show expL (lse 2 fun r => (enet q0 2 2).den r 0 x ch + logSoftmax 2 (wmix ch) r) = _
  rw [expL_lse]
  refine sum_congr rfl fun r hr => ?_
  rw [expL_add, expL_logSoftmax_eq_softmax, mul_comm, enet_eq]
  congr 1
  refine softmax_pr (fun i => (ch + i) % 2 == 0) ?_ (mem_range.1 hr)
  intro h
  rw [Bool.eq_iff_iff, beq_iff_eq, beq_iff_eq] at h
  omega

/-- C68 is FALSE for several classes and repetitions: this Einet meets every hypothesis, but `sample()` draws (1, 1) with
probability 5/16 although `exp(log_likelihood)` says 6/16. -/
theorem C68_several_classes_wrong : ∃ leaves a C Rl d m x, ESetup μ leaves a C Rl d ∧ EValid a ∧ Rl = a.R ∧ a.classes = 2 ∧
    buildEinet leaves a d = .ok m ∧ Completes leaves (fun _ => none) x ∧
    (∃ l, m.logLik x = .ok (some l) ∧ expL l = 6/16) ∧ (m.sample none fun _ => none).prob x = ENNReal.ofReal (5/16) := by
  have hx : Completes [leaf 2] (fun _ => none) ones := completes_ones 2 _ fun _ => .inl rfl
  have hp1 : Possible [leaf 2] ones := possible 2 ones (by
    intro v hv; right; unfold ones; rw [if_pos (by simpa using hv)])
  have hb := build_emodel q0 2 2 (by omega) (by omega)
  have hs := esetup q0 q0_ok 2 2 .linsum .topDown
  have hv := evalid 2 2 .linsum .topDown (by omega) (by omega) (by decide) (by decide)
  refine ⟨_, _, _, _, _, emodel q0 2 2, ones, hs, hv, rfl, rfl, hb, hx, ⟨_, (C68_log_likelihood_partial hs hv hb hp1).1, ?_⟩, ?_⟩
  · rw [emodel_den, eclass_den, eclass_den]
    simp only [sum_range_succ, range_zero, sum_empty, zero_add]
    rw [net_ones, net_ones, net_ones, net_ones]
    simp [pr]; norm_num
  · rw [(C68_sampling_law hs hv hb rfl (possible 2 _ fun _ _ => .inl rfl) hx).1 fun _ => rfl]
    show (∑ ch ∈ range 2, ENNReal.ofReal ((emodel q0 2 2).clsProb ch) * ∑ r ∈ range 2,
      ENNReal.ofReal (softmax 2 ((model 2 2).repWeight wmix none) r) * ENNReal.ofReal (expL ((enet q0 2 2).den r 0 ones ch))) = _
    simp only [sum_range_succ, range_zero, sum_empty, zero_add]
    rw [eclsProb, eclsProb, softmax_half.1, softmax_half.2, enet_eq, enet_eq, enet_eq, enet_eq, net_ones, net_ones, net_ones, net_ones]
    simp only [← ENNReal.ofReal_mul (show (0 : ℝ) ≤ 1/2 by norm_num)]
    norm_num
    rw [← ENNReal.ofReal_add (by norm_num) (by norm_num), ← ENNReal.ofReal_add (by norm_num) (by norm_num),
      ← ENNReal.ofReal_mul (by norm_num), ← ENNReal.ofReal_mul (by norm_num), ← ENNReal.ofReal_add (by norm_num) (by norm_num)]
    norm_num

/-- C68 is FALSE for several classes under evidence, even with one repetition: the class is drawn from its prior.  Given that
variable 0 is one, `sample(data)` completes with variable 1 being one with probability 6/10, but the model's conditional
probability is 10/16. -/
theorem C68_class_ignores_evidence : ∃ leaves a C Rl d m e x, ESetup μ leaves a C Rl d ∧ EValid a ∧ Rl = a.R ∧ a.classes = 2 ∧ a.R = 1 ∧
    buildEinet leaves a d = .ok m ∧ Possible leaves e ∧ Completes leaves e x ∧
    (∃ lx le, m.logLik x = .ok (some lx) ∧ m.logLik e = .ok (some le) ∧ expL lx / expL le = 10/16) ∧
    (m.einetSample 2 [e] e).prob x = ENNReal.ofReal (6/10) := by
  have hx : Completes [leaf 1] first ones := completes_ones 1 _ fun v => by
    unfold first
    by_cases h : v = 0
    · rw [if_pos h]; exact .inr ⟨rfl, .inl h⟩
    · rw [if_neg h]; exact .inl rfl
  have hp1 : Possible [leaf 1] ones := possible 1 ones (by
    intro v hv; right; unfold ones; rw [if_pos (by simpa using hv)])
  have hpe : Possible [leaf 1] first := possible 1 first (by
    intro v hv; unfold first
    by_cases h : v = 0
    · rw [if_pos h]; exact .inr rfl
    · rw [if_neg h]; exact .inl rfl)
  have hb := build_emodel q0 2 1 (by omega) (by omega)
  have hs := esetup q0 q0_ok 2 1 .linsum .topDown
  have hv := evalid 2 1 .linsum .topDown (by omega) (by omega) (by decide) (by decide)
  have hcd : ∀ ch x, expL ((emodel q0 2 1).classDen ch x) = expL ((net 2 1).den 0 0 x ch) := fun ch x => enet_eq 2 1 0 ch x
  refine ⟨_, _, _, _, _, emodel q0 2 1, first, ones, hs, hv, rfl, rfl, rfl, hb, hpe, hx,
    ⟨_, _, (C68_log_likelihood_partial hs hv hb hp1).1, (C68_log_likelihood_partial hs hv hb hpe).1, ?_⟩, ?_⟩
  · rw [emodel_den, emodel_den, hcd, hcd, hcd, hcd, net_ones, net_ones, net_first, net_first]
    norm_num
  · have hpart : partialEvidence 2 [first] = true := rfl
    have hes : (emodel q0 2 1).einetSample 2 [first] first = (emodel q0 2 1).sampleWithEvidence first := by
      unfold Model.einetSample
      rw [if_pos hpart]
    rw [hes, (C68_sampling_law hs hv hb rfl hpe hx).2]
    have hrep : (emodel q0 2 1).repProb (some first) 0 = 1 := by
      show (if (0 : ℕ) = 0 then (1 : ℝ) else 0) = 1
      rw [if_pos rfl]
    show (∑ ch ∈ range 2, ENNReal.ofReal ((emodel q0 2 1).clsProb ch) * ∑ r ∈ range 1, ENNReal.ofReal ((emodel q0 2 1).repProb (some first) r) *
        ENNReal.ofReal (expL ((enet q0 2 1).den r 0 ones ch) / expL ((enet q0 2 1).den r 0 first ch))) = _
    simp only [sum_range_one]
    simp only [sum_range_succ, range_zero, sum_empty, zero_add]
    rw [eclsProb, eclsProb, hrep, enet_eq, enet_eq, enet_eq, enet_eq, net_ones, net_ones, net_first, net_first, ENNReal.ofReal_one, one_mul,
      one_mul, ← ENNReal.ofReal_mul (by norm_num), ← ENNReal.ofReal_mul (by norm_num)]
    rw [← ENNReal.ofReal_add (by norm_num) (by norm_num)]
    norm_num

/-- C68 is FALSE for leaves that exclude a value in one component: the row (0, 0) has positive probability under this Einet, but
its `log_likelihood` is NaN. -/
theorem C68_nan_wrong : ∃ leaves a C Rl d m x, ESetup μ leaves a C Rl d ∧ EValid a ∧ Rl = a.R ∧ buildEinet leaves a d = .ok m ∧
    Completes leaves (fun _ => none) x ∧ 0 < expL (m.den x) ∧ m.logLik x = .ok none := by
  have hb := build_emodel q1 1 1 (by omega) (by omega)
  have hs := esetup q1 q1_ok 1 1 .linsum .topDown
  have hv := evalid 1 1 .linsum .topDown (by omega) (by omega) (by decide) (by decide)
  have c0 : gcell q1 0 (some 0) = 0 := by
    show expL (Leaves.bernoulliLL (q1 0) 0) = 0
    unfold Leaves.bernoulliLL q1
    simp [logL]
  have c1 : gcell q1 1 (some 0) = 1/2 := by
    show expL (Leaves.bernoulliLL (q1 1) 0) = 1/2
    unfold Leaves.bernoulliLL q1
    rw [if_neg (by norm_num), if_pos rfl, if_neg (by norm_num), expL_logL (by norm_num)]
    norm_num
  refine ⟨_, _, _, _, _, emodel q1 1 1, zeros, hs, hv, rfl, hb, ⟨fun v hv => ?_, fun _ _ h => (by cases h), fun v hv => ?_⟩, ?_,
    C68_impossible_component_nan hs hv hb (by rw [fact_depth]) fun hp => ?_⟩
  · rw [ginScope] at hv
    unfold zeros; rw [if_pos hv]; simp
  · rw [ginScope] at hv
    unfold zeros; rw [if_neg hv]
  · show 0 < expL ((enet q1 1 1).den 0 0 zeros 0)
    rw [enet_val]
    simp only [sum_range_succ, range_zero, sum_empty, zero_add]
    rw [show zeros 0 = some 0 from rfl, show zeros 1 = some 0 from rfl, c0, c1]
    have := pr_pos ((1 + 0 + 0) % 2 == 0)
    nlinarith
  · have := hp (gleaf q1 1) (by simp) 0 (show 0 < 2 by omega) 0 (show 0 < 2 by omega) 0 (show 0 < 1 by omega)
    rw [Ne, ← expL_eq_zero_iff, gleaf_val q1 1 0 0 0 (by omega)] at this
    exact this c0

end Verif.Rat.EWit

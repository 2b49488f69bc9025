import Verif.RatSpnProps

/-!
C67: counterexamples and witnesses.
-/

open MeasureTheory

namespace Verif.Rat.Wit

open Finset Verif.Circ
open Verif.Prog hiding bind

/-- Probability 3/4 or 1/4. -/
noncomputable def pr (b : Bool) : ℝ := if b then 3/4 else 1/4

theorem pr_pos (b : Bool) : 0 < pr b := by unfold pr; split_ifs <;> norm_num

theorem pr_le (b : Bool) : pr b ≤ 1 := by unfold pr; split_ifs <;> norm_num

/-- Two binary variables, two channels: channel `ch` says one with probability `q ch`. -/
noncomputable def gleaf (q : ℕ → ℝ) (R : ℕ) : Circ := .leaf [0, 1] 2 R fun _ ch _ => Leaves.bernoulliLL (q ch)

/-- The logits of the region node: 3/4 on one channel, depending on class and repetition. -/
noncomputable def W (_l _f ci co r : ℕ) : LogV := logL (pr ((ci + co + r) % 2 == 0))

/-- The logits of the mixture over repetitions: class 0 prefers repetition 0, class 1 repetition 1. -/
noncomputable def wmix (ch r : ℕ) : LogV := logL (pr ((ch + r) % 2 == 0))

theorem logL_pr_ne (b : Bool) : logL (pr b) ≠ ⊥ := by
  rw [Ne, ← expL_eq_zero_iff, expL_logL (pr_pos b).le]
  exact (pr_pos b).ne'

def args (nRoot R : ℕ) : Args := ⟨nRoot, 1, R, 1, false, none, 2⟩

noncomputable def gbase (q : ℕ → ℝ) (R : ℕ) : Net := .fact (gleaf q R) 1 R fun _ => [[0], [1]]

noncomputable def gnet (q : ℕ → ℝ) (nRoot R : ℕ) : Net := .sum (.prod (gbase q R) .consecutive 2 false) nRoot (W 0)

noncomputable def gmodel (q : ℕ → ℝ) (nRoot R : ℕ) : Model := ⟨gnet q nRoot R, some wmix, if 1 < nRoot then some fun _ => 0 else none⟩

theorem gbuild_model (q : ℕ → ℝ) (nRoot R : ℕ) (h : 1 ≤ nRoot) :
    build [gleaf q R] (args nRoot R) [1, 1] (fun _ => [0, 1]) W wmix (fun _ => 0) = .ok (gmodel q nRoot R) := by
  have hl : layers (args nRoot R).mode (args nRoot R).parts (args nRoot R).outer (args nRoot R).nRoot (args nRoot R).nRegion W
      (args nRoot R).depth (gbase q R) = .ok (gnet q nRoot R) := by
    show (addProd (gbase q R) .consecutive 2 false >>= fun p => Except.ok (Net.sum p nRoot (W 0))) = _
    rw [addProd_two (d := 0) rfl, if_neg (by omega)]
    rfl
  unfold build
  simp only [bind, Except.bind, pure, Except.pure, throw, throwThe, MonadExceptOf.throw]
  rw [if_neg (show ¬ (args nRoot R).parts < 2 by show ¬ 2 < 2; omega)]
  rw [show Scope.joinAll ([gleaf q R].map scope) = .ok ⟨[0, 1], []⟩ from rfl]
  simp only
  rw [if_neg (show ¬ (args nRoot R).nRoot < 1 by show ¬ nRoot < 1; omega), if_neg (show ¬ (args nRoot R).nRegion < 1 by show ¬ 1 < 1; omega),
    if_neg (show ¬ (gleaf q R).C < 1 by show ¬ 2 < 1; omega), if_neg (show ¬ (args nRoot R).numSplits < 2 by show ¬ 2 < 2; omega)]
  rw [show addFact [gleaf q R] (args nRoot R).depth (args nRoot R).R [1, 1] (fun _ => [0, 1]) = .ok (gbase q R) from rfl]
  simp only [hl]
  rfl

/-- Counting measure on {0, 1}. -/
noncomputable def μ : Var → Measure ℝ := fun _ => Leaves.countBelow 2

theorem gleaves_ok (q : ℕ → ℝ) (hq : ∀ ch, 0 ≤ q ch ∧ q ch ≤ 1) (R : ℕ) : Leaves μ [gleaf q R] 2 R := by
  have hmk : mkLeaf [0, 1] 2 R (fun _ ch _ => Leaves.bernoulliLL (q ch)) = .ok (gleaf q R) := rfl
  refine ⟨by simp, fun m hm => ?_, fun m hm => ?_, fun m hm => ?_, by simp⟩
  all_goals obtain rfl : m = gleaf q R := by simpa using hm
  · exact ⟨_, _, rfl⟩
  · exact hmk
  · exact fun i _ ch _ r _ => ⟨Leaves.bernoulli_measurable _, Leaves.bernoulli_normalised (hq _).1 (hq _).2⟩

theorem gsizes_ok (q : ℕ → ℝ) (R : ℕ) : [1, 1].Perm (Fact.groupSizes (width [gleaf q R]) (2 ^ 1)) := by
  have hw : width [gleaf q R] = 2 := rfl
  rw [hw]
  decide

/-- The hypotheses of the C67 theorems are met, with several root nodes and repetitions. -/
theorem gsetup (q : ℕ → ℝ) (hq : ∀ ch, 0 ≤ q ch ∧ q ch ≤ 1) (nRoot R : ℕ) (hR : 1 ≤ R) :
    Setup μ [gleaf q R] (args nRoot R) 2 R [1, 1] (fun _ => [0, 1]) W wmix (fun _ => 0) :=
  ⟨gleaves_ok q hq R, by decide, hR, .inl rfl, gsizes_ok q R, fun _ _ => List.Perm.refl _, fun _ _ _ _ _ => logL_pr_ne _,
    fun _ _ => logL_pr_ne _, fun _ => by simp⟩

theorem two (nRoot R : ℕ) (h : 1 ≤ nRoot) : TwoParts (args nRoot R) := ⟨h, le_refl _, le_refl _, rfl⟩

/-! ### Values -/

/-- Probability of cell `x` under channel `ch`. -/
noncomputable def gcell (q : ℕ → ℝ) (ch : ℕ) : Option ℝ → ℝ
  | none => 1
  | some t => expL (Leaves.bernoulliLL (q ch) t)

theorem gleaf_val (q : ℕ → ℝ) (R i r ch : ℕ) (hi : i < 2) (x : Row) : expL (featAt (den (gleaf q R)) i x r ch) = gcell q ch (x i) := by
  have hq : [(0 : Var), 1][i]? = some (i : ℤ) := by interval_cases i <;> rfl
  unfold gleaf
  rw [featAt_leaf hq]
  cases x (i : ℤ) with
  | none => simp [gcell]
  | some t => rfl

theorem gbase_val (q : ℕ → ℝ) (R o r ch : ℕ) (ho : o < 2) (x : Row) : expL ((gbase q R).den r o x ch) = gcell q ch (x o) := by
  show expL (∑ i ∈ (range 2).filter (fun i => Fact.owner [[0], [1]] i = o), featAt (den (gleaf q R)) i x r ch) = _
  have : (range 2).filter (fun i => Fact.owner [[0], [1]] i = o) = {o} := by
    interval_cases o <;> decide
  rw [this, sum_singleton, gleaf_val q R o r ch ho]

theorem softmax_pr (f : ℕ → Bool) (hf : f 0 ≠ f 1) {i : ℕ} (_hi : i < 2) : softmax 2 (fun i => logL (pr (f i))) i = pr (f i) := by
  rw [softmax_eq]
  simp only [sum_range_succ, range_zero, sum_empty, zero_add]
  rw [expL_logL (pr_pos _).le, expL_logL (pr_pos _).le, expL_logL (pr_pos _).le]
  have : pr (f 0) + pr (f 1) = 1 := by
    cases h0 : f 0 <;> cases h1 : f 1
    · exact absurd (h0.trans h1.symm) hf
    · simp [pr]; norm_num
    · simp [pr]; norm_num
    · exact absurd (h0.trans h1.symm) hf
  rw [this, div_one]

theorem gnet_val (q : ℕ → ℝ) (nRoot R r co : ℕ) (x : Row) : expL ((gnet q nRoot R).den r 0 x co) =
    ∑ ci ∈ range 2, pr ((ci + co + r) % 2 == 0) * (gcell q ci (x 0) * gcell q ci (x 1)) := by
  show expL (lse 2 fun ci => (Net.prod (gbase q R) .consecutive 2 false).den r 0 x ci + logSoftmax 2 (fun i => W 0 0 i co r) ci) = _
  rw [expL_lse]
  refine sum_congr rfl fun ci hci => ?_
  rw [mem_range] at hci
  have hs := softmax_pr (fun i => (i + co + r) % 2 == 0) (by
    simp only [Nat.zero_add]
    intro h
    rw [Bool.eq_iff_iff, beq_iff_eq, beq_iff_eq] at h
    omega) hci
  rw [expL_add, expL_logSoftmax_eq_softmax, show (fun i => W 0 0 i co r) = fun i => logL (pr ((i + co + r) % 2 == 0)) from rfl,
    hs, mul_comm]
  congr 1
  rw [Net.den_prod (n := gbase q R) (show 2 ∣ 2 ∧ 2 ≤ 2 by decide) r (f := 0) (show 0 < 2 / 2 by decide), expL_add]
  have hF : (gbase q R).F = 2 := rfl
  rw [hF]
  show expL ((gbase q R).den r 0 x ci) * expL ((gbase q R).den r 1 x ci) = _
  rw [gbase_val q R 0 r ci (by omega), gbase_val q R 1 r ci (by omega)]
  rfl

/-! ### The running example: channel 0 says one with probability 3/4, channel 1 with probability 1/4 -/

noncomputable def q0 (ch : ℕ) : ℝ := pr (ch == 0)

theorem q0_ok (ch : ℕ) : 0 ≤ q0 ch ∧ q0 ch ≤ 1 := ⟨(pr_pos _).le, pr_le _⟩

noncomputable abbrev leaf (R : ℕ) : Circ := gleaf q0 R
noncomputable abbrev base (R : ℕ) : Net := gbase q0 R
noncomputable abbrev net (nRoot R : ℕ) : Net := gnet q0 nRoot R
noncomputable abbrev model (nRoot R : ℕ) : Model := gmodel q0 nRoot R
noncomputable abbrev cell (ch : ℕ) (x : Option ℝ) : ℝ := gcell q0 ch x

theorem build_model (nRoot R : ℕ) (h : 1 ≤ nRoot) :
    build [leaf R] (args nRoot R) [1, 1] (fun _ => [0, 1]) W wmix (fun _ => 0) = .ok (model nRoot R) := gbuild_model q0 nRoot R h

theorem setup (nRoot R : ℕ) (hR : 1 ≤ R) :
    Setup μ [leaf R] (args nRoot R) 2 R [1, 1] (fun _ => [0, 1]) W wmix (fun _ => 0) := gsetup q0 q0_ok nRoot R hR

theorem leaf_val (R i r ch : ℕ) (hi : i < 2) (x : Row) : expL (featAt (den (leaf R)) i x r ch) = cell ch (x i) :=
  gleaf_val q0 R i r ch hi x

theorem net_val (nRoot R r co : ℕ) (x : Row) : expL ((net nRoot R).den r 0 x co) =
    ∑ ci ∈ range 2, pr ((ci + co + r) % 2 == 0) * (cell ci (x 0) * cell ci (x 1)) := gnet_val q0 nRoot R r co x

theorem cell_one (ch : ℕ) : cell ch (some 1) = pr (ch == 0) := by
  show expL (Leaves.bernoulliLL (q0 ch) 1) = _
  unfold Leaves.bernoulliLL
  simp only [if_true]
  rw [q0, expL_logL (pr_pos _).le]

/-- Both variables one. -/
def ones : Row := fun v => if v = 0 ∨ v = 1 then some 1 else none

/-- Variable 0 is one, variable 1 is missing. -/
def first : Row := fun v => if v = 0 then some 1 else none

theorem net_ones (nRoot R r co : ℕ) : expL ((net nRoot R).den r 0 ones co) = if (co + r) % 2 = 0 then 7/16 else 3/16 := by
  rw [net_val]
  simp only [sum_range_succ, range_zero, sum_empty, zero_add]
  rw [show ones 0 = some 1 from rfl, show ones 1 = some 1 from rfl, cell_one, cell_one]
  by_cases h : (co + r) % 2 = 0
  · have h' : (1 + co + r) % 2 ≠ 0 := by omega
    simp [h, h', pr]; norm_num
  · have h' : (1 + co + r) % 2 = 0 := by omega
    simp [h, h', pr]; norm_num

theorem net_first (nRoot R r co : ℕ) : expL ((net nRoot R).den r 0 first co) = if (co + r) % 2 = 0 then 5/8 else 3/8 := by
  rw [net_val]
  simp only [sum_range_succ, range_zero, sum_empty, zero_add]
  rw [show first 0 = some 1 from rfl, show first 1 = none from rfl, cell_one, cell_one]
  by_cases h : (co + r) % 2 = 0
  · have h' : (1 + co + r) % 2 ≠ 0 := by omega
    simp [h, h', pr, gcell]; norm_num
  · have h' : (1 + co + r) % 2 = 0 := by omega
    simp [h, h', pr, gcell]; norm_num

theorem possible (R : ℕ) (x : Row) (h : ∀ v ∈ [(0 : Var), 1], x v = none ∨ x v = some 1) : Possible [leaf R] x := by
  intro m hm i hi ch hch r hr
  obtain rfl : m = leaf R := by simpa using hm
  replace hi : i < 2 := hi
  rw [Ne, ← expL_eq_zero_iff, leaf_val R i r ch hi]
  have hmem : (i : ℤ) ∈ [(0 : Var), 1] := by interval_cases i <;> simp
  rcases h i hmem with h | h
  · rw [h]; simp [gcell]
  · rw [h, cell_one]; exact (pr_pos _).ne'

theorem ginScope (q : ℕ → ℝ) (R : ℕ) (v : Var) : InScope [gleaf q R] v ↔ v = 0 ∨ v = 1 := by
  unfold InScope
  show (∃ m ∈ [gleaf q R], v ∈ (scope m).query) ↔ _
  simp only [List.mem_singleton, exists_eq_left]
  show v ∈ [(0 : Var), 1] ↔ _
  simp

theorem inScope (R : ℕ) (v : Var) : InScope [leaf R] v ↔ v = 0 ∨ v = 1 := ginScope q0 R v

theorem clsProb (R ch : ℕ) (_hch : ch < 2) : (model 2 R).clsProb ch = 1/2 := by
  show softmax 2 (fun _ => (0 : LogV)) ch = _
  rw [softmax_eq]
  simp

theorem class_den (nRoot ch : ℕ) (x : Row) : expL ((model nRoot 2).classDen ch x) =
    ∑ r ∈ range 2, pr ((ch + r) % 2 == 0) * expL ((net nRoot 2).den r 0 x ch) := by
  show expL (lse 2 fun r => (net nRoot 2).den r 0 x ch + logSoftmax 2 (wmix ch) r) = _
  rw [expL_lse]
  refine sum_congr rfl fun r hr => ?_
  rw [expL_add, expL_logSoftmax_eq_softmax, mul_comm]
  congr 1
  refine softmax_pr (fun i => (ch + i) % 2 == 0) ?_ (mem_range.1 hr)
  intro h
  rw [Bool.eq_iff_iff, beq_iff_eq, beq_iff_eq] at h
  omega

theorem model_den (R : ℕ) (x : Row) : expL ((model 2 R).den x) =
    1/2 * expL ((model 2 R).classDen 0 x) + 1/2 * expL ((model 2 R).classDen 1 x) := by
  show expL (lse 2 fun ch => (model 2 R).classDen ch x + logSoftmax 2 (fun _ => (0 : LogV)) ch) = _
  rw [expL_lse]
  simp only [sum_range_succ, range_zero, sum_empty, zero_add]
  rw [expL_add, expL_add, expL_logSoftmax_eq_softmax, expL_logSoftmax_eq_softmax]
  have h0 := clsProb R 0 (by omega)
  have h1 := clsProb R 1 (by omega)
  have e0 : softmax 2 (fun _ => (0 : LogV)) 0 = 1/2 := h0
  have e1 : softmax 2 (fun _ => (0 : LogV)) 1 = 1/2 := h1
  rw [e0, e1]; ring

theorem class_den_one (ch : ℕ) (x : Row) : expL ((model 2 1).classDen ch x) = expL ((net 2 1).den 0 0 x ch) := by
  show expL (lse 1 fun r => (net 2 1).den r 0 x ch + logSoftmax 1 (wmix ch) r) = _
  rw [expL_lse, sum_range_one, expL_add, expL_logSoftmax_eq_softmax, softmax_eq, sum_range_one,
    div_self (by rw [Ne, expL_eq_zero_iff]; exact logL_pr_ne _), mul_one]

theorem completes_ones (R : ℕ) (e : Row) (he : ∀ v, e v = none ∨ (e v = some 1 ∧ (v = 0 ∨ v = 1))) : Completes [leaf R] e ones := by
  refine ⟨fun v hv => ?_, fun v t hv => ?_, fun v hv => ?_⟩
  · rw [inScope] at hv
    unfold ones; rw [if_pos hv]; simp
  · rcases he v with h | ⟨h, h'⟩
    · rw [h] at hv; cases hv
    · rw [h] at hv; cases hv
      unfold ones; rw [if_pos h']
  · rw [inScope] at hv
    unfold ones; rw [if_neg hv]
    rcases he v with h | ⟨_, h'⟩
    · exact h.symm
    · exact absurd h' hv

theorem softmax_half : softmax 2 ((model 2 2).repWeight wmix none) 0 = 1/2 ∧ softmax 2 ((model 2 2).repWeight wmix none) 1 = 1/2 := by
  have he : ∀ r < 2, expL ((model 2 2).repWeight wmix none r) = 3/16 := by
    intro r hr
    show expL (∑ ch ∈ range 2, wmix ch r) = _
    rw [expL_sum]
    simp only [prod_range_succ, range_zero, prod_empty, one_mul]
    unfold wmix
    rw [expL_logL (pr_pos _).le, expL_logL (pr_pos _).le]
    interval_cases r <;> simp [pr] <;> norm_num
  rw [softmax_eq, softmax_eq]
  simp only [sum_range_succ, range_zero, sum_empty, zero_add]
  rw [he 0 (by omega), he 1 (by omega)]
  norm_num

/-- C67 is FALSE for several root nodes and repetitions: this RatSPN (two root nodes, two repetitions, two binary variables,
depth 1) meets every hypothesis, but `sample()` draws (1, 1) with probability 5/16 although `exp(log_likelihood)` says 6/16:
the repetition is drawn from one distribution for all classes. -/
theorem C67_several_roots_wrong : ∃ leaves a C Rl sizes perms W wmix wroot m x, Setup μ leaves a C Rl sizes perms W wmix wroot ∧
    TwoParts a ∧ Rl = a.R ∧ a.nRoot = 2 ∧ build leaves a sizes perms W wmix wroot = .ok m ∧ Completes leaves (fun _ => none) x ∧
    (∃ l, m.logLik x = .ok (some l) ∧ expL l = 6/16) ∧ (m.sample none fun _ => none).prob x = ENNReal.ofReal (5/16) := by
  have hx : Completes [leaf 2] (fun _ => none) ones := completes_ones 2 _ fun _ => .inl rfl
  have hp1 : Possible [leaf 2] ones := possible 2 ones (by
    intro v hv; right; unfold ones; rw [if_pos (by simpa using hv)])
  have hb := build_model 2 2 (by omega)
  refine ⟨_, _, _, _, _, _, _, _, _, model 2 2, ones, setup 2 2 (by omega), two 2 2 (by omega), rfl, rfl, hb, hx,
    ⟨_, (C67_log_likelihood_partial (setup 2 2 (by omega)) (two 2 2 (by omega)) hb hp1).1, ?_⟩, ?_⟩
  · rw [model_den, class_den, class_den]
    simp only [sum_range_succ, range_zero, sum_empty, zero_add]
    rw [net_ones, net_ones, net_ones, net_ones]
    simp [pr]; norm_num
  · rw [(C67_sampling_law (setup 2 2 (by omega)) (two 2 2 (by omega)) hb rfl
      (possible 2 _ fun _ _ => .inl rfl) hx).1 fun _ => rfl]
    show (∑ ch ∈ range 2, ENNReal.ofReal ((model 2 2).clsProb ch) * ∑ r ∈ range 2,
      ENNReal.ofReal (softmax 2 ((model 2 2).repWeight wmix none) r) * ENNReal.ofReal (expL ((net 2 2).den r 0 ones ch))) = _
    simp only [sum_range_succ, range_zero, sum_empty, zero_add]
    rw [clsProb 2 0 (by omega), clsProb 2 1 (by omega), softmax_half.1, softmax_half.2, net_ones, net_ones, net_ones, net_ones]
    simp only [← ENNReal.ofReal_mul (show (0 : ℝ) ≤ 1/2 by norm_num)]
    norm_num
    rw [← ENNReal.ofReal_add (by norm_num) (by norm_num), ← ENNReal.ofReal_add (by norm_num) (by norm_num),
      ← ENNReal.ofReal_mul (by norm_num), ← ENNReal.ofReal_mul (by norm_num), ← ENNReal.ofReal_add (by norm_num) (by norm_num)]
    norm_num

/-- C67 is FALSE for several root nodes under evidence, even with one repetition: the class is drawn from its prior.  Given
that variable 0 is one, `sample_with_evidence` completes with variable 1 being one with probability 6/10, but the model's
conditional probability is 10/16. -/
theorem C67_class_ignores_evidence : ∃ leaves a C Rl sizes perms W wmix wroot m e x,
    Setup μ leaves a C Rl sizes perms W wmix wroot ∧ TwoParts a ∧ Rl = a.R ∧ a.nRoot = 2 ∧ a.R = 1 ∧
    build leaves a sizes perms W wmix wroot = .ok m ∧ Possible leaves e ∧ Completes leaves e x ∧
    (∃ lx le, m.logLik x = .ok (some lx) ∧ m.logLik e = .ok (some le) ∧ expL lx / expL le = 10/16) ∧
    (m.sampleWithEvidence e).prob x = ENNReal.ofReal (6/10) := by
  have hx : Completes [leaf 1] first ones := completes_ones 1 _ fun v => by
    unfold first
    by_cases h : v = 0
    · rw [if_pos h]; exact .inr ⟨rfl, .inl h⟩
    · rw [if_neg h]; exact .inl rfl
  have hp1 : Possible [leaf 1] ones := possible 1 ones (by
    intro v hv; right; unfold ones; rw [if_pos (by simpa using hv)])
  have hpe : Possible [leaf 1] first := possible 1 first (by
    intro v hv; unfold first
    by_cases h : v = 0
    · rw [if_pos h]; exact .inr rfl
    · rw [if_neg h]; exact .inl rfl)
  have hb := build_model 2 1 (by omega)
  have hs := setup 2 1 (by omega)
  have ht := two 2 1 (by omega)
  refine ⟨_, _, _, _, _, _, _, _, _, model 2 1, first, ones, hs, ht, rfl, rfl, rfl, hb, hpe, hx,
    ⟨_, _, (C67_log_likelihood_partial hs ht hb hp1).1, (C67_log_likelihood_partial hs ht hb hpe).1, ?_⟩, ?_⟩
  · rw [model_den, model_den, class_den_one, class_den_one, class_den_one, class_den_one, net_ones, net_ones, net_first, net_first]
    norm_num
  · rw [(C67_sampling_law hs ht hb rfl hpe hx).2]
    have hr : ∀ g : ℕ → LogV, g 0 ≠ ⊥ → softmax 1 g 0 = 1 := fun g hg => by
      rw [softmax_eq, sum_range_one, div_self (by rw [Ne, expL_eq_zero_iff]; exact hg)]
    have hrep : (model 2 1).repProb (some first) 0 = 1 := by
      refine hr ((model 2 1).repWeight wmix (some first)) ?_
      rw [Ne, ← expL_eq_zero_iff]
      show expL (∑ ch ∈ range 2, logSoftmax 1 (fun r => wmix ch r + (net 2 1).den r 0 first ch) 0) ≠ 0
      rw [expL_sum, prod_ne_zero_iff]
      intro ch _
      rw [expL_logSoftmax_eq_softmax, hr]
      · exact one_ne_zero
      · rw [Ne, ← expL_eq_zero_iff, expL_add, net_first, mul_eq_zero, expL_eq_zero_iff, not_or]
        exact ⟨logL_pr_ne _, by split_ifs <;> norm_num⟩
    show (∑ ch ∈ range 2, ENNReal.ofReal ((model 2 1).clsProb ch) * ∑ r ∈ range 1, ENNReal.ofReal ((model 2 1).repProb (some first) r) *
        ENNReal.ofReal (expL ((net 2 1).den r 0 ones ch) / expL ((net 2 1).den r 0 first ch))) = _
    simp only [sum_range_one]
    simp only [sum_range_succ, range_zero, sum_empty, zero_add]
    rw [clsProb 1 0 (by omega), clsProb 1 1 (by omega), hrep, net_ones, net_ones, net_first, net_first, ENNReal.ofReal_one, one_mul,
      one_mul, ← ENNReal.ofReal_mul (by norm_num), ← ENNReal.ofReal_mul (by norm_num)]
    rw [← ENNReal.ofReal_add (by norm_num) (by norm_num)]
    norm_num

/-! ### A leaf with an impossible value in one component only -/

/-- Channel 0 is always one, channel 1 is a fair coin. -/
noncomputable def q1 (ch : ℕ) : ℝ := if ch = 0 then 1 else 1/2

theorem q1_ok (ch : ℕ) : 0 ≤ q1 ch ∧ q1 ch ≤ 1 := by unfold q1; split_ifs <;> norm_num

/-- Both variables zero. -/
def zeros : Row := fun v => if v = 0 ∨ v = 1 then some 0 else none

/-- C67 is FALSE for leaves that exclude a value in one component: the row (0, 0) has positive probability under this
RatSPN, but its `log_likelihood` is NaN. -/
theorem C67_nan_wrong : ∃ leaves a C Rl sizes perms W wmix wroot m x, Setup μ leaves a C Rl sizes perms W wmix wroot ∧
    TwoParts a ∧ Rl = a.R ∧ build leaves a sizes perms W wmix wroot = .ok m ∧ Completes leaves (fun _ => none) x ∧
    0 < expL (m.den x) ∧ m.logLik x = .ok none := by
  have hb := gbuild_model q1 1 1 (by omega)
  have hs := gsetup q1 q1_ok 1 1 (by omega)
  have ht := two 1 1 (by omega)
  have c0 : gcell q1 0 (some 0) = 0 := by
    show expL (Leaves.bernoulliLL (q1 0) 0) = 0
    unfold Leaves.bernoulliLL q1
    simp [logL]
  have c1 : gcell q1 1 (some 0) = 1/2 := by
    show expL (Leaves.bernoulliLL (q1 1) 0) = 1/2
    unfold Leaves.bernoulliLL q1
    rw [if_neg (by norm_num), if_pos rfl, if_neg (by norm_num), expL_logL (by norm_num)]
    norm_num
  refine ⟨_, _, _, _, _, _, _, _, _, gmodel q1 1 1, zeros, hs, ht, rfl, hb, ⟨fun v hv => ?_, fun _ _ h => (by cases h), fun v hv => ?_⟩, ?_,
    C67_impossible_component_nan hs ht hb fun hp => ?_⟩
  · rw [ginScope] at hv
    unfold zeros; rw [if_pos hv]; simp
  · rw [ginScope] at hv
    unfold zeros; rw [if_neg hv]
  · show 0 < expL (lse 1 fun r => (gnet q1 1 1).den r 0 zeros 0 + logSoftmax 1 (wmix 0) r)
    rw [expL_lse, sum_range_one, expL_add, gnet_val]
    refine mul_pos ?_ ?_
    · simp only [sum_range_succ, range_zero, sum_empty, zero_add]
      rw [show zeros 0 = some 0 from rfl, show zeros 1 = some 0 from rfl, c0, c1]
      have := pr_pos ((1 + 0 + 0) % 2 == 0)
      nlinarith
    · rw [expL_logSoftmax_eq_softmax]
      exact softmax_pos Nat.one_pos (logL_pr_ne _)
  · have := hp (gleaf q1 1) (by simp) 0 (show 0 < 2 by omega) 0 (show 0 < 2 by omega) 0 (show 0 < 1 by omega)
    rw [Ne, ← expL_eq_zero_iff, gleaf_val q1 1 0 0 0 (by omega)] at this
    exact this c0

/-! ### Three channels, three parts -/

/-- Four fair coins, three identical channels. -/
noncomputable def leaf3 : Circ := .leaf [0, 1, 2, 3] 3 1 fun _ _ _ => Leaves.bernoulliLL (1/2)

theorem leaves3_ok : Leaves μ [leaf3] 3 1 := by
  have hmk : mkLeaf [0, 1, 2, 3] 3 1 (fun _ _ _ => Leaves.bernoulliLL (1/2)) = .ok leaf3 := rfl
  refine ⟨by simp, fun m hm => ?_, fun m hm => ?_, fun m hm => ?_, by simp⟩
  all_goals obtain rfl : m = leaf3 := by simpa using hm
  · exact ⟨_, _, rfl⟩
  · exact hmk
  · exact fun i _ ch _ r _ => ⟨Leaves.bernoulli_measurable _, Leaves.bernoulli_normalised (by norm_num) (by norm_num)⟩

theorem setup3 (depth parts : ℕ) (sizes : List ℕ) (h : sizes.Perm (Fact.groupSizes 4 (2 ^ depth))) :
    Setup μ [leaf3] ⟨1, 1, 1, depth, false, none, parts⟩ 3 1 sizes (fun _ => [0, 1, 2, 3]) W wmix (fun _ => 0) :=
  ⟨leaves3_ok, by decide, le_refl _, .inl rfl, h, fun _ _ => List.Perm.refl _, fun _ _ _ _ _ => logL_pr_ne _,
    fun _ _ => logL_pr_ne _, fun _ => by simp⟩

/-- C67 is FALSE for three leaf channels: depth 2, two parts and elementwise products - all within the documented range -
are rejected with a ShapeError. -/
theorem C67_three_channels_rejected : ∃ leaves a C Rl sizes perms W wmix wroot, Setup μ leaves a C Rl sizes perms W wmix wroot ∧
    TwoParts a ∧ Rl = a.R ∧ C = 3 ∧ width leaves = 2 ^ a.depth ∧ build leaves a sizes perms W wmix wroot = .error .shapeError := by
  have hs := setup3 2 2 [1, 1, 1, 1] (by decide)
  have ht : TwoParts ⟨1, 1, 1, 2, false, none, 2⟩ := ⟨le_refl _, le_refl _, le_refl _, rfl⟩
  exact ⟨_, _, _, _, _, _, _, _, _, hs, ht, rfl, rfl, rfl,
    ((C67_constructor hs ht).2.2 (le_refl 4) (by decide)).1 ⟨rfl, .inl ⟨rfl, le_refl _⟩⟩⟩

/-- C67 is FALSE for three parts: this constructor call succeeds, and the model raises on every row. -/
theorem C67_three_parts_wrong : ∃ leaves a C Rl sizes perms W wmix wroot m, Setup μ leaves a C Rl sizes perms W wmix wroot ∧
    a.parts = 3 ∧ Rl = a.R ∧ build leaves a sizes perms W wmix wroot = .ok m ∧ ∀ x, ∃ ex, m.logLik x = .error ex := by
  have hs := setup3 1 3 [2, 2] (by decide)
  have hb : ∃ m, build [leaf3] ⟨1, 1, 1, 1, false, none, 3⟩ [2, 2] (fun _ => [0, 1, 2, 3]) W wmix (fun _ => 0) = .ok m := ⟨_, rfl⟩
  obtain ⟨m, hm⟩ := hb
  exact ⟨_, _, _, _, _, _, _, _, _, m, hs, rfl, rfl, hm, C67_three_parts_raise hs (le_refl 3) rfl hm⟩

end Verif.Rat.Wit

import Verif.ElemSumEm
import Verif.ElemSumMarg

/-!
# C66: concrete `ElementwiseSum`s

The hypotheses of the theorems are met, and the cases in which `marginalize` and `sample` fail.
-/

namespace Verif.ESum
open Verif Verif.Circ Verif.Em

/-! ## `marginalize` with features over several variables -/

/-- **C66 (violation).** The mask over the *variables* of the scope indexes the *feature* axis of the weights: whenever the
module has fewer (or more) features than variables - e.g. over Products - a partial `marginalize` raises IndexError. -/
theorem C66_marginalize_multivariate_raises (M : List Var) (prune : Bool) {T : ℕ} {e : ES} (h : Ready e)
    (hs : ∀ c ∈ e.cs, SameReps T c) (hal : ∀ c ∈ e.cs, Aligned c) (hfc : ∀ c ∈ e.cs, FiniteLogits c)
    (hln : ∀ c ∈ e.cs, LeavesNonempty c) (hlen : e.scope.query.length ≠ e.F)
    (h1 : ∃ v ∈ e.scope.query, v ∈ M) (h2 : ∃ v ∈ e.scope.query, v ∉ M) :
    e.marginalize M prune = .error .indexError := by
  unfold ES.marginalize
  simp only
  rw [if_neg, if_pos (touches_iff.2 h1)]
  swap
  · rw [covers_iff]; push Not; exact h2
  have hpost : ∀ i : Fin e.cs.length, ∃ c', marg M prune e.cs[i] = .ok (some c') := by
    intro i
    have hm : e.cs[i] ∈ e.cs := List.getElem_mem i.2
    obtain ⟨o, ho, hp⟩ := marg_post (M := M) (prune := prune) (h.acc _ hm) (hal _ hm) (hfc _ hm) (hln _ hm)
      (reps_same (h.acc _ hm) (hs _ hm)).1
    cases o with
    | none =>
      exfalso
      obtain ⟨v, hv, hM⟩ := h2
      exact hM ((surviving_nil_iff (h.acc _ hm)).1 hp v ((scope_mem h hm v).1 hv))
    | some c' => exact ⟨c', ho⟩
  choose l hl using hpost
  have hmi : ES.margInputs M prune e.cs = .ok (List.ofFn fun i => some (l i)) := by
    refine margInputs_ok ?_
    rw [List.forall₂_iff_get]
    refine ⟨by simp, fun i h1 h2 => ?_⟩
    simpa using hl ⟨i, h1⟩
  have hn0 : 0 < e.cs.length := List.length_pos_of_ne_nil h.ne
  simp only [bind, Except.bind, pure, Except.pure, throw, throwThe, MonadExceptOf.throw, hmi]
  rw [if_neg, if_pos hlen]
  simp only [List.all_eq_true, not_forall]
  exact ⟨some (l ⟨0, hn0⟩), List.mem_ofFn.2 ⟨⟨0, hn0⟩, rfl⟩, by simp⟩

/-! ## A module over two Bernoulli leaves with two features, two channels -/

/-- Two variables, `K` channels; the success probability is `p` everywhere. -/
noncomputable def wLeaf (K : ℕ) (p : ℝ) : Circ := leaf [0, 1] K 1 fun _ _ _ => Leaves.bernoulliLL p

/-- `ElementwiseSum([leaf, leaf], out_channels=2)` with equal random draws. -/
noncomputable def wES (K K' : ℕ) : ES :=
  ⟨[wLeaf K (1/4), wLeaf K' (2/3)], 2, 1,
    fun f ci co i r => logL ((initW [wLeaf K (1/4), wLeaf K' (2/3)] 2 1 fun _ _ _ _ _ => 0).val f ci co i r)⟩

theorem wLeaf_acc (K : ℕ) (p : ℝ) : Accepted (wLeaf K p) := rfl

theorem wFit {K K' : ℕ} (h : K' = 1 ∨ K' = K) (hK : 1 ≤ K) : Fit [wLeaf K (1/4), wLeaf K' (2/3)] 1 := by
  have hm : ∀ {P : Circ → Prop}, P (wLeaf K (1/4)) → P (wLeaf K' (2/3)) → ∀ a ∈ [wLeaf K (1/4), wLeaf K' (2/3)], P a := by
    intro P h1 h2 a ha
    simp only [List.mem_cons, List.not_mem_nil, or_false] at ha
    rcases ha with rfl | rfl
    · exact h1
    · exact h2
  have hC : ∀ J p, Circ.C (wLeaf J p) = J := fun _ _ => rfl
  have hfs : ∀ J J' p p' f, fscope (wLeaf J p) f = fscope (wLeaf J' p') f := by
    intro J J' p p' f
    rw [fscope_eq_map, fscope_eq_map]
    rfl
  refine ⟨hm (hm rfl rfl) (hm rfl rfl), hm (.inr (hm ?_ ?_)) ?_, hm (hm ?_ ?_) (hm ?_ ?_), fun _ => hm ?_ ?_,
    fun _ => hm (hm ?_ ?_) (hm ?_ ?_)⟩
  all_goals try exact fun _ => Iff.rfl
  all_goals try exact fun f _ => hfs _ _ _ _ f
  · exact le_rfl
  · rw [hC, hC]; omega
  · rcases h with h | h
    · exact .inl h
    · exact .inr (hm (by rw [hC, hC]; omega) le_rfl)
  · exact ⟨1, rfl, le_rfl⟩
  · exact ⟨1, rfl, le_rfl⟩

theorem wES_build {K K' : ℕ} (h : K' = 1 ∨ K' = K) (hK : 1 ≤ K) :
    build [wLeaf K (1/4), wLeaf K' (2/3)] (some 2) none none (fun _ _ _ _ _ => 0) = .ok (wES K K') := by
  have hacc : ∀ c ∈ [wLeaf K (1/4), wLeaf K' (2/3)], Accepted c := by
    intro c hc
    simp only [List.mem_cons, List.not_mem_nil, or_false] at hc
    rcases hc with rfl | rfl <;> exact wLeaf_acc _ _
  exact (build_fresh hacc (fun _ _ _ _ _ => le_rfl)).2 ⟨⟨by simp, by decide, wFit h hK⟩, rfl⟩

theorem wES_ready {K K' : ℕ} (h : K' = 1 ∨ K' = K) (hK : 1 ≤ K) : Ready (wES K K') ∧
    ∀ f < (wES K K').F, ∀ ci < (wES K K').Cin, ∀ co < (wES K K').Co, ∀ i < (wES K K').cs.length, ∀ r < (wES K K').R,
      (wES K K').θ f ci co i r ≠ ⊥ := by
  have hacc : ∀ c ∈ [wLeaf K (1/4), wLeaf K' (2/3)], Accepted c := by
    intro c hc
    simp only [List.mem_cons, List.not_mem_nil, or_false] at hc
    rcases hc with rfl | rfl <;> exact wLeaf_acc _ _
  obtain ⟨h1, h2, h3⟩ := build_ready hacc (fun _ _ _ _ _ => le_rfl) (wES_build h hK)
  exact ⟨h1, h3⟩

theorem wES_all {K K' : ℕ} {P : Circ → Prop} (h1 : P (wLeaf K (1/4))) (h2 : P (wLeaf K' (2/3))) :
    ∀ c ∈ (wES K K').cs, P c := by
  intro c hc
  have : c ∈ [wLeaf K (1/4), wLeaf K' (2/3)] := hc
  simp only [List.mem_cons, List.not_mem_nil, or_false] at this
  rcases this with rfl | rfl
  · exact h1
  · exact h2

/-- The hypotheses of the likelihood, sampling and marginalisation theorems are met by a module with two features, two input
channels and four output channels. -/
theorem wES_ok : Ready (wES 2 2) ∧ Inputs (wES 2 2) ∧ (wES 2 2).F = 2 ∧ (wES 2 2).C = 4 ∧
    (wES 2 2).tensorR = some 1 ∧ FeatureIsVariable (wES 2 2) := by
  refine ⟨(wES_ready (.inr rfl) (by decide)).1, ⟨wES_all trivial trivial, wES_all ?_ ?_, wES_all ?_ ?_, Nat.one_pos⟩,
    rfl, rfl, ?_, ⟨rfl, wES_all ?_ ?_⟩⟩
  · show 1 ≤ 2; decide
  · show 1 ≤ 2; decide
  · exact Nat.one_pos
  · exact Nat.one_pos
  · have : Circ.tensorR (cat2 2 [wLeaf 2 (1/4), wLeaf 2 (2/3)].get) = some 1 :=
      tensorR_cat2.2 ⟨by decide, fun i => by fin_cases i <;> rfl⟩
    show (match Circ.tensorR (cat2 2 [wLeaf 2 (1/4), wLeaf 2 (2/3)].get) with
      | none => none
      | some T => if T = 1 then some 1 else if T = 1 then some 1 else if 1 = 1 then some T else none) = _
    rw [this]; rfl
  · intro f hf
    replace hf : f < 2 := hf
    interval_cases f <;> rfl
  · intro f hf
    replace hf : f < 2 := hf
    interval_cases f <;> rfl

/-- Sampling: the probability of the row (0, 1) is its likelihood. -/
example : ((wES 2 2).sampleData fun _ => none).prob (fun v => if v = 0 then some 0 else if v = 1 then some 1 else none) =
    ENNReal.ofReal (likelihood (wES 2 2) fun v => if v = 0 then some 0 else if v = 1 then some 1 else none) := by
  obtain ⟨h1, h2, -⟩ := wES_ok
  refine C66_sample_law h1 h2 (c := wLeaf 2 (1/4)) (by simp [wES]) _ ⟨?_, by simp, ?_⟩
  · intro v hv
    have : v ∈ ([0, 1] : List Var) := hv
    simp only [List.mem_cons, List.not_mem_nil, or_false] at this
    rcases this with rfl | rfl <;> simp
  · intro v hv
    have : v ∉ ([0, 1] : List Var) := hv
    simp only [List.mem_cons, List.not_mem_nil, or_false, not_or] at this
    simp [this.1, this.2]

/-- Marginalising variable 0 leaves feature 1. -/
example : ∃ e', (wES 2 2).marginalize [0] true = .ok (some e') ∧ e'.F = 1 ∧
    ∀ x, e'.val 0 x 0 3 = (wES 2 2).val 1 (nanOut [0] x) 0 3 := by
  obtain ⟨h1, h2, -, -, -, h6⟩ := wES_ok
  obtain ⟨o, ho, hn, hsome⟩ := C66_marginalize_partial [0] true h1 rfl le_rfl (wES_ready (.inr rfl) (by decide)).2
    (wES_all rfl rfl) h2.al (wES_all trivial trivial) (wES_all (by show [0, 1] ≠ []; simp) (by show [0, 1] ≠ []; simp)) h6
  cases o with
  | none =>
    have := hn.1 rfl 1 (by show (1 : Var) ∈ ([0, 1] : List Var); simp)
    simp at this
  | some e' =>
    obtain ⟨-, -, -, -, keep, hp, hk, hF, hv⟩ := hsome e' rfl
    have hq : (wES 2 2).scope.query = [0, 1] := rfl
    have hF2 : (wES 2 2).F = 2 := rfl
    have hkeep : keep = [1] := by
      refine hp.eq_of_mem_iff (List.pairwise_singleton _ _) fun f => ?_
      rw [hk, hq, hF2]
      constructor
      · rintro ⟨h1, h2⟩
        interval_cases f
        · simp at h2
        · simp
      · intro h
        rw [List.mem_singleton] at h
        subst h
        exact ⟨by decide, by simp⟩
    rw [hkeep] at hF hv
    exact ⟨e', ho, hF, fun x => hv 0 (by rw [hF]; decide) x 0 Nat.one_pos 3 (by decide)⟩

/-- The constructor accepts a two-channel and a one-channel input and evaluates them, but a request for channel 2 (input
channel 1) makes `sample` raise, and so does the EM step. -/
theorem C66_broadcast_witness :
    build [wLeaf 2 (1/4), wLeaf 1 (2/3)] (some 2) none none (fun _ _ _ _ _ => 0) = .ok (wES 2 1) ∧
    (wES 2 1).C = 4 ∧ (∀ y, Prog.Fails ((wES 2 1).sample none 0 (fun _ => 2) (fun _ => true) y)) ∧
    ∀ X N upd g, (wES 2 1).emStep X N upd g = .error .runtimeError := by
  refine ⟨wES_build (.inl rfl) (by decide), rfl, fun y => ?_, fun X N upd g => ?_⟩
  · exact C66_broadcast_sampling_raises (wES_ready (.inl rfl) (by decide)).1 Nat.one_pos (fun f _ => by
      show 2 < 4; decide) (f := 0) (i := 1) (by show 0 < 2; decide) rfl (by show 1 < 2; decide)
      (by show 1 ≤ 2 / 2; decide) y
  · exact C66_em_mixed_channels_raises (c := wLeaf 1 (2/3)) (by simp [wES]) (by show 1 ≠ 2; decide)

/-- EM: two rows, fixed leaves. -/
example : ∃ e', (wES 2 2).emStep (fun n _ => some (n : ℝ)) 2 fixedLeaves rootGrad = .ok e' ∧
    accLL (fun n _ => some (n : ℝ)) 2 1 (wES 2 2) ≤ accLL (fun n _ => some (n : ℝ)) 2 1 e' := by
  have hC : ∀ c ∈ (wES 2 2).cs, Circ.C c = (wES 2 2).Cin := wES_all rfl rfl
  have hst : ∃ e', (wES 2 2).emStep (fun n _ => some (n : ℝ)) 2 fixedLeaves rootGrad = .ok e' := by
    unfold ES.emStep
    rw [if_neg]
    · exact ⟨_, rfl⟩
    · simpa [ES.Cin] using hC
  obtain ⟨e', he'⟩ := hst
  refine ⟨e', he', (C66_em_monotone (fixedLeaves_good _ _ _) (wES_ready (.inr rfl) (by decide)).1 (wES_all rfl rfl) rfl
    ?_ he').1⟩
  have hlp : ∀ p : ℝ, 0 < p → p < 1 → LeavesPositive (fun n _ => some (n : ℝ)) 2 1 (wLeaf 2 p) := by
    intro p h0 h1 n hn r _ f hf ch _
    replace hf : f < 2 := hf
    interval_cases f
    · rw [featAt_leaf (v := 0) rfl]
      interval_cases n <;> simp [Leaves.bernoulliLL, logL, h0, h1]
    · rw [featAt_leaf (v := 1) rfl]
      interval_cases n <;> simp [Leaves.bernoulliLL, logL, h0, h1]
  exact C66_em_no_nan (by decide) (wES_ready (.inr rfl) (by decide)).1 (wES_all rfl rfl) rfl hC
    (wES_ready (.inr rfl) (by decide)).2 (wES_all trivial trivial)
    (wES_all (by show 0 < 2; decide) (by show 0 < 2; decide))
    (wES_all (hlp _ (by norm_num) (by norm_num)) (hlp _ (by norm_num) (by norm_num)))
    (fun _ _ _ _ _ _ _ _ => one_pos)

/-! ## `marginalize` keeps the weights of the wrong feature -/

/-- `Cat([Bernoulli(3), Bernoulli(1)], dim=1)`: feature 0 is variable 3, feature 1 is variable 1; the scope is `(1, 3)`. -/
noncomputable def uIn (p : ℝ) : Circ :=
  cat1 2 ![leaf [3] 1 1 fun _ _ _ => Leaves.bernoulliLL p, leaf [1] 1 1 fun _ _ _ => Leaves.bernoulliLL (1/2)]

/-- Weights: feature 0 (variable 3) mixes with 1/4, 3/4; feature 1 (variable 1) with 1/2, 1/2. -/
noncomputable def uW : W5 := ⟨2, 1, 1, 2, 1, fun f _ _ i _ => if f = 0 then (if i = 0 then 1/4 else 3/4) else 1/2⟩

/-- The module built from `uIn` and `uW`. -/
noncomputable def uES : ES := ⟨[uIn (1/4), uIn (3/4)], 1, 1, fun f ci co i r => logL (uW.val f ci co i r)⟩

theorem uIn_acc (p : ℝ) : Accepted (uIn p) := ⟨fun i => by fin_cases i <;> rfl, rfl⟩

example (p : ℝ) : (Circ.scope (uIn p)).query = [1, 3] := rfl

/-- What is left of `uIn` without variable 1. -/
noncomputable def uLeaf (p : ℝ) : Circ := leaf [3] 1 1 fun _ _ _ => Leaves.bernoulliLL p

theorem uES_marg (p : ℝ) : marg [1] true (uIn p) = .ok (some (uLeaf p)) := by
  have h0 : marg [1] true (leaf [3] 1 1 fun _ _ _ => Leaves.bernoulliLL p) = .ok (some (uLeaf p)) := rfl
  have h1 : marg [1] true (leaf [1] 1 1 fun _ _ _ => Leaves.bernoulliLL (1/2)) = .ok none := rfl
  have ht : touches [1] (Circ.scope (uIn p)) = true := rfl
  unfold uIn at ht ⊢
  rw [marg, if_pos ht]
  have hc : (List.ofFn fun i : Fin 2 => marg [1] true ((![leaf [3] 1 1 fun _ _ _ => Leaves.bernoulliLL p,
      leaf [1] 1 1 fun _ _ _ => Leaves.bernoulliLL (1/2)] : Fin 2 → Circ) i)) = [.ok (some (uLeaf p)), .ok none] := by
    rw [List.ofFn_succ, List.ofFn_succ, List.ofFn_zero]
    exact congrArg₂ List.cons h0 (congrArg₂ List.cons h1 rfl)
  rw [hc]
  rfl

theorem uMem {a b : Circ} {P : Circ → Prop} (h1 : P a) (h2 : P b) : ∀ c ∈ [a, b], P c := by
  intro c hc
  simp only [List.mem_cons, List.not_mem_nil, or_false] at hc
  rcases hc with rfl | rfl
  · exact h1
  · exact h2

theorem uIn_F : ∀ a ∈ [uIn (1/4), uIn (3/4)], ∀ b ∈ [uIn (1/4), uIn (3/4)], Circ.F a = Circ.F b :=
  uMem (uMem rfl rfl) (uMem rfl rfl)

theorem uLeaf_acc1 (p : ℝ) : Accepted (uLeaf p) := rfl

theorem uLeaf_acc : ∀ a ∈ [uLeaf (1/4), uLeaf (3/4)], Accepted a := uMem (uLeaf_acc1 _) (uLeaf_acc1 _)

theorem uLeaf_F : ∀ a ∈ [uLeaf (1/4), uLeaf (3/4)], ∀ b ∈ [uLeaf (1/4), uLeaf (3/4)], Circ.F a = Circ.F b :=
  uMem (uMem rfl rfl) (uMem rfl rfl)

theorem uIn_fscope (p q : ℝ) (f : ℕ) : fscope (uIn p) f = fscope (uIn q) f := by
  rw [fscope_eq_map, fscope_eq_map]
  rfl

theorem uFit : Fit [uIn (1/4), uIn (3/4)] 1 := by
  refine ⟨uMem (uMem rfl rfl) (uMem rfl rfl), uMem (.inl rfl) (.inl rfl), uMem (uMem ?_ ?_) (uMem ?_ ?_),
    fun _ => uMem ⟨1, rfl, le_rfl⟩ ⟨1, rfl, le_rfl⟩, fun _ => uMem (uMem ?_ ?_) (uMem ?_ ?_)⟩
  all_goals first | exact fun _ => Iff.rfl | exact fun f _ => uIn_fscope _ _ f

theorem one_close : CloseToOne 1 := by
  unfold CloseToOne
  norm_num

/-- `ElementwiseSum([a, b], weights=w)` is accepted. -/
theorem uES_build : build [uIn (1/4), uIn (3/4)] none (some (.t5 uW)) none (fun _ _ _ _ _ => 0) = .ok uES := by
  refine (build_weights (uMem (uIn_acc _) (uIn_acc _))).2 ⟨⟨by simp, le_rfl, uFit, uMem rfl rfl, rfl, rfl, ?_, ?_⟩, rfl⟩
  · intro f _ ci _ co _ i _ r _
    show 0 < if f = 0 then (if i = 0 then (1/4 : ℝ) else 3/4) else 1/2
    split_ifs <;> norm_num
  · intro f _ ci _ co _ r _
    show CloseToOne (∑ i ∈ Finset.range 2, if f = 0 then (if i = 0 then (1/4 : ℝ) else 3/4) else 1/2)
    have : (∑ i ∈ Finset.range 2, if f = 0 then (if i = 0 then (1/4 : ℝ) else 3/4) else 1/2) = 1 := by
      rw [Finset.sum_range_succ, Finset.sum_range_one]
      by_cases h0 : f = 0
      · rw [if_pos h0, if_pos h0, if_pos rfl, if_neg (by decide)]; norm_num
      · rw [if_neg h0, if_neg h0]; norm_num
    rw [this]
    exact one_close

theorem uES_weight {f i : ℕ} (hf : f < 2) (hi : i < 2) :
    uES.weight f 0 0 i 0 = if f = 0 then (if i = 0 then 1/4 else 3/4) else 1/2 := by
  have hset : setW [uIn (1/4), uIn (3/4)] 1 1 uW = .ok uES.θ := by
    have hw := ((build_weights (uMem (uIn_acc _) (uIn_acc _))).1 uES_build).1.2.2.2
    exact (setW_ok (by simp) uIn_F).2 ⟨⟨rfl, rfl, hw⟩, rfl⟩
  have := C66_set_get (by simp) uIn_F hset (f := f) (ci := 0) (co := 0) (i := i) (r := 0)
    hf Nat.one_pos Nat.one_pos hi Nat.one_pos
  have hs : ∑ j ∈ Finset.range 2, uW.val f 0 0 j 0 = 1 := by
    show (∑ i ∈ Finset.range 2, if f = 0 then (if i = 0 then (1/4 : ℝ) else 3/4) else 1/2) = 1
    rw [Finset.sum_range_succ, Finset.sum_range_one]
    by_cases h0 : f = 0
    · rw [if_pos h0, if_pos h0, if_pos rfl, if_neg (by decide)]; norm_num
    · rw [if_neg h0, if_neg h0]; norm_num
  have h2 : (ES.mk [uIn (1/4), uIn (3/4)] 1 1 uES.θ).weight f 0 0 i 0 = uW.val f 0 0 i 0 := by
    rw [this]
    exact (congrArg _ hs).trans (div_one _)
  exact h2

/-- What `marginalize([1])` builds: the leaves of variable 3 with the weights of *feature 1* (variable 1). -/
noncomputable def uMargW : W5 := ⟨1, 1, 1, 2, 1, fun k => uES.weight ([1].getD k 0)⟩

noncomputable def uES' : ES := ⟨[uLeaf (1/4), uLeaf (3/4)], 1, 1, fun f ci co i r => logL (uMargW.val f ci co i r)⟩

theorem uMargW_val {f ci co i r : ℕ} (hf : f < 1) (hci : ci < 1) (hco : co < 1) (hi : i < 2) (hr : r < 1) :
    uMargW.val f ci co i r = 1/2 := by
  obtain rfl : f = 0 := by omega
  obtain rfl : ci = 0 := by omega
  obtain rfl : co = 0 := by omega
  obtain rfl : r = 0 := by omega
  exact (uES_weight (f := 1) (by decide) hi).trans (if_neg (by decide))

theorem uES'_build : build [uLeaf (1/4), uLeaf (3/4)] none (some (.t5 uMargW)) none (fun _ _ _ _ _ => 0) = .ok uES' := by
  have hfs : ∀ p q f, fscope (uLeaf p) f = fscope (uLeaf q) f := by
    intro p q f
    rw [fscope_eq_map, fscope_eq_map]
    rfl
  have hfit : Fit [uLeaf (1/4), uLeaf (3/4)] 1 := by
    refine ⟨uMem (uMem rfl rfl) (uMem rfl rfl), uMem (.inl rfl) (.inl rfl), uMem (uMem ?_ ?_) (uMem ?_ ?_),
      fun _ => uMem ⟨1, rfl, le_rfl⟩ ⟨1, rfl, le_rfl⟩, fun _ => uMem (uMem ?_ ?_) (uMem ?_ ?_)⟩
    all_goals first | exact fun _ => Iff.rfl | exact fun f _ => hfs _ _ f
  refine (build_weights uLeaf_acc).2 ⟨⟨by simp, le_rfl, hfit, uMem rfl rfl, rfl, rfl, ?_, ?_⟩, rfl⟩
  · intro f hf ci hci co hco i hi r hr
    rw [uMargW_val hf hci hco hi hr]
    norm_num
  · intro f hf ci hci co hco r hr
    have : ∑ i ∈ Finset.range uMargW.n, uMargW.val f ci co i r = 1 := by
      have h : ∀ i ∈ Finset.range uMargW.n, uMargW.val f ci co i r = 1/2 := fun i hi =>
        uMargW_val hf hci hco (Finset.mem_range.1 hi) hr
      rw [Finset.sum_congr rfl h]
      show ∑ i ∈ Finset.range 2, (1/2 : ℝ) = 1
      norm_num
    rw [this]
    exact one_close

/-- **C66 (violation).** When the order of the features is not the order of the (sorted) scope, `marginalize` keeps the
weights of the wrong features: here P(X3 = 1) is 5/8, and 1/2 after the marginalisation of X1. -/
theorem C66_marginalize_wrong_weights :
    build [uIn (1/4), uIn (3/4)] none (some (.t5 uW)) none (fun _ _ _ _ _ => 0) = .ok uES ∧
    uES.marginalize [1] true = .ok (some uES') ∧
    ∀ x : Row, x 3 = some 1 →
      expL (uES.val 0 (nanOut [1] x) 0 0) = 5/8 ∧ expL (uES'.val 0 x 0 0) = 1/2 := by
  refine ⟨uES_build, ?_, fun x hx => ⟨?_, ?_⟩⟩
  · have hmi : ES.margInputs [1] true uES.cs = .ok [some (uLeaf (1/4)), some (uLeaf (3/4))] :=
      margInputs_ok (.cons (uES_marg _) (.cons (uES_marg _) .nil))
    unfold ES.marginalize
    simp only
    rw [if_neg (by show ¬ (false = true); decide), if_pos (show touches [1] uES.scope = true from rfl)]
    simp only [bind, Except.bind, pure, Except.pure, throw, throwThe, MonadExceptOf.throw, hmi]
    rw [if_neg (by decide), if_neg (by show ¬ (2 ≠ 2); decide), if_neg (by decide)]
    have hb := uES'_build
    unfold uMargW at hb
    have hk : ES.keepPos [1] uES.scope.query = [1] := rfl
    rw [hk]
    simp only [List.reduceOption_cons_of_some, List.reduceOption_nil]
    have hb' : build [uLeaf (1/4), uLeaf (3/4)] none (some (.t5 ⟨[1].length, uES.Cin, uES.Co, uES.cs.length, uES.R,
      fun k => uES.weight ([1].getD k 0)⟩)) none (fun _ _ _ _ _ => 0) = .ok uES' := hb
    rw [hb']
  · have h3 : nanOut [1] x 3 = some 1 := by simp [nanOut, hx]
    have hv := expL_val (e := uES) (f := 0) (ch := 0) (r := 0) Nat.one_pos (nanOut [1] x)
    have hl : ∀ p : ℝ, featAt (den (uIn p)) 0 (nanOut [1] x) 0 0 = Leaves.bernoulliLL p 1 := by
      intro p
      have := featAt_cat1 (cs := ![leaf [3] 1 1 fun _ _ _ => Leaves.bernoulliLL p,
        leaf [1] 1 1 fun _ _ _ => Leaves.bernoulliLL (1/2)]) 0 (j := 0) Nat.one_pos (nanOut [1] x) 0 0
      refine Eq.trans this ?_
      refine ((featAt_leaf (q := [3]) (f := 0) (v := 3) rfl) _ _ _).trans ?_
      rw [h3]
    rw [hv]
    show ∑ i : Fin 2, _ = _
    rw [Fin.sum_univ_two]
    have e0 := (uES_weight (f := 0) (i := 0) (by decide) (by decide)).trans (by rw [if_pos rfl, if_pos rfl])
    have e1 := (uES_weight (f := 0) (i := 1) (by decide) (by decide)).trans (by rw [if_pos rfl, if_neg (by decide)])
    refine (congrArg₂ (· + ·) (congrArg₂ (· * ·) e0 (congrArg expL (hl _)))
      (congrArg₂ (· * ·) e1 (congrArg expL (hl _)))).trans ?_
    norm_num [Leaves.bernoulliLL, expL_logL]
  · have hv := expL_val (e := uES') (f := 0) (ch := 0) (r := 0) Nat.one_pos x
    have hl : ∀ p : ℝ, featAt (den (uLeaf p)) 0 x 0 0 = Leaves.bernoulliLL p 1 := by
      intro p
      refine ((featAt_leaf (q := [3]) (f := 0) (v := 3) rfl) _ _ _).trans ?_
      rw [hx]
    have hw : ∀ i < 2, uES'.weight 0 0 0 i 0 = 1/2 := by
      intro i hi
      have hb := ((build_weights (cs := [uLeaf (1/4), uLeaf (3/4)]) uLeaf_acc).1 uES'_build).1.2.2.2
      have hset : setW [uLeaf (1/4), uLeaf (3/4)] 1 1 uMargW = .ok uES'.θ :=
        (setW_ok (by simp) uLeaf_F).2 ⟨⟨rfl, rfl, hb⟩, rfl⟩
      have := C66_set_get (by simp) uLeaf_F hset (f := 0) (ci := 0) (co := 0) (i := i)
        (r := 0) Nat.one_pos Nat.one_pos Nat.one_pos hi Nat.one_pos
      have hs : ∑ j ∈ Finset.range uMargW.n, uMargW.val 0 0 0 j 0 = 1 := by
        have h : ∀ j ∈ Finset.range uMargW.n, uMargW.val 0 0 0 j 0 = 1/2 := fun j hj =>
          uMargW_val Nat.one_pos Nat.one_pos Nat.one_pos (Finset.mem_range.1 hj) Nat.one_pos
        rw [Finset.sum_congr rfl h]
        show ∑ i ∈ Finset.range 2, (1/2 : ℝ) = 1
        norm_num
      rw [hs, div_one, uMargW_val Nat.one_pos Nat.one_pos Nat.one_pos hi Nat.one_pos] at this
      exact this
    rw [hv]
    show ∑ i : Fin 2, _ = _
    rw [Fin.sum_univ_two]
    refine (congrArg₂ (· + ·) (congrArg₂ (· * ·) (hw 0 (by decide)) (congrArg expL (hl _)))
      (congrArg₂ (· * ·) (hw 1 (by decide)) (congrArg expL (hl _)))).trans ?_
    norm_num [Leaves.bernoulliLL, expL_logL]

/-! ## `marginalize` over Products -/

/-- `ElementwiseSum([Product(leaf), Product(leaf)], out_channels=1)`: one feature over the variables 0 and 1. -/
noncomputable def pES : ES :=
  ⟨[prod (wLeaf 2 (1/4)), prod (wLeaf 2 (2/3))], 1, 1, fun f ci co i r =>
    logL ((initW [prod (wLeaf 2 (1/4)), prod (wLeaf 2 (2/3))] 1 1 fun _ _ _ _ _ => 0).val f ci co i r)⟩

/-- The constructor accepts two Products, and `marginalize([0])` raises although the marginal exists. -/
example : build [prod (wLeaf 2 (1/4)), prod (wLeaf 2 (2/3))] (some 1) none none (fun _ _ _ _ _ => 0) = .ok pES ∧
    pES.marginalize [0] true = .error .indexError := by
  have hacc : ∀ c ∈ [prod (wLeaf 2 (1/4)), prod (wLeaf 2 (2/3))], Accepted c :=
    uMem (wLeaf_acc _ _) (wLeaf_acc _ _)
  have hfs : ∀ p q f, fscope (prod (wLeaf 2 p)) f = fscope (prod (wLeaf 2 q)) f := by
    intro p q f
    rw [fscope_eq_map, fscope_eq_map]
    rfl
  have hfit : Fit [prod (wLeaf 2 (1/4)), prod (wLeaf 2 (2/3))] 1 := by
    refine ⟨uMem (uMem rfl rfl) (uMem rfl rfl), uMem (.inr (uMem le_rfl le_rfl)) (.inr (uMem le_rfl le_rfl)),
      uMem (uMem ?_ ?_) (uMem ?_ ?_),
      fun _ => uMem ⟨1, rfl, le_rfl⟩ ⟨1, rfl, le_rfl⟩, fun _ => uMem (uMem ?_ ?_) (uMem ?_ ?_)⟩
    all_goals first | exact fun _ => Iff.rfl | exact fun f _ => hfs _ _ f
  have hb : build [prod (wLeaf 2 (1/4)), prod (wLeaf 2 (2/3))] (some 1) none none (fun _ _ _ _ _ => 0) = .ok pES :=
    (build_fresh hacc (fun _ _ _ _ _ => le_rfl)).2 ⟨⟨by simp, by decide, hfit⟩, rfl⟩
  refine ⟨hb, ?_⟩
  obtain ⟨hr, -, -⟩ := build_ready hacc (fun _ _ _ _ _ => le_rfl) hb
  have hq : pES.scope.query = [0, 1] := rfl
  exact C66_marginalize_multivariate_raises [0] true hr (T := 1) (uMem rfl rfl) (uMem trivial trivial)
    (uMem trivial trivial) (uMem (by show [0, 1] ≠ []; simp) (by show [0, 1] ≠ []; simp)) (by decide)
    ⟨0, by rw [hq]; simp, by simp⟩ ⟨1, by rw [hq]; simp, by simp⟩

end Verif.ESum

import Verif.SamplingLaw
import Verif.CircuitProps

/-!
# Properties C13, C14, C15, C16, C46: sampling
-/

namespace Verif
namespace Circ

open Prog

/-! ## C13 -/

/-- Auxiliary: whatever is drawn, only missing cells in the scope are written. -/
theorem sample_preserves {ev : Option Row} {r : ℕ} {c : Circ} (h : Accepted c) :
    ∀ (ch : ℕ → ℕ) (mask : ℕ → Bool) (y z : Row), Outcome (sample ev r c ch mask y) z →
      ∀ v, ¬ (v ∈ (scope c).query ∧ y v = none) → z v = y v := by
  have hseq : ∀ (l : List (Row → Prog Row)) (A : Var → Prop),
      (∀ s ∈ l, ∀ y z, Outcome (s y) z → ∀ v, ¬ (A v ∧ y v = none) → z v = y v) →
      ∀ y z, Outcome (seqAll l y) z → ∀ v, ¬ (A v ∧ y v = none) → z v = y v := by
    intro l A
    induction l with
    | nil => intro _ y z ho v _; cases ho; rfl
    | cons s l ih =>
      intro hs y z ho v hv
      rw [seqAll, outcome_bind] at ho
      obtain ⟨y1, h1, h2⟩ := ho
      have e1 := hs s (by simp) y y1 h1 v hv
      rw [ih (fun s h => hs s (by simp [h])) y1 z h2 v (by rwa [e1]), e1]
  induction c with
  | leaf q C R d =>
    intro ch mask y z ho
    rw [sample] at ho
    dsimp only at ho
    split at ho
    · cases ho
    split at ho
    · cases ho; exact fun _ _ => rfl
    split at ho
    · cases ho
    refine hseq _ (fun v => v ∈ q) ?_ y z ho
    intro s hs y z ho v hv
    rw [List.mem_mapIdx] at hs
    obtain ⟨i, hi, rfl⟩ := hs
    refine (sampleCell_frames _ _ _ y z ho).2 v fun hh => hv ⟨?_, hh.2⟩
    rw [hh.1.2]; exact List.getElem_mem _
  | cat1 n cs ih =>
    intro ch mask y z ho
    rw [sample] at ho
    dsimp only at ho
    split at ho
    · cases ho
    refine hseq _ (fun v => v ∈ (scope (cat1 n cs)).query) ?_ y z ho
    intro s hs y z ho v hv
    rw [List.mem_ofFn] at hs
    obtain ⟨i, rfl⟩ := hs
    refine ih i (h.1 i) _ _ y z ho v fun hh => hv ⟨?_, hh.2⟩
    rw [mem_scope_iff (h.1 i)] at hh
    obtain ⟨⟨f, hf, hvf⟩, _⟩ := hh
    rw [mem_scope_iff h]
    exact ⟨offF cs i + f, offF_lt i hf, by rwa [fscope_cat1 i hf]⟩
  | cat2 n cs ih =>
    intro ch mask y z ho
    rw [sample] at ho
    dsimp only at ho
    split at ho
    · cases ho
    split at ho
    · cases ho
    refine hseq _ (fun v => v ∈ (scope (cat2 n cs)).query) ?_ y z ho
    intro s hs y z ho v hv
    rw [List.mem_ofFn] at hs
    obtain ⟨i, rfl⟩ := hs
    refine ih i (h.1 i) _ _ y z ho v fun hh => hv ⟨?_, hh.2⟩
    have hq : v ∈ (scope (cs i)).query ↔ v ∈ (scope (cat2 n cs)).query := by
      have hall := (Scope.C03_allEqual _).1 (check2_ok h.2).2.1 (scope (cs i)) (by simp)
        (scope (cs ⟨0, i.pos⟩)) (by simp)
      simp only [scope, i.pos, dif_pos]
      exact ((Scope.pyEq_iff _ _).1 hall).1 v
    exact hq.1 hh.1
  | prod c ih =>
    intro ch mask y z ho
    rw [sample] at ho
    dsimp only at ho
    split at ho
    · cases ho
    exact ih h _ _ y z ho
  | sum c Co R θ ih =>
    intro ch mask y z ho
    rw [sample] at ho
    dsimp only at ho
    split at ho
    · cases ho
    split at ho
    · cases ho
    rw [outcome_bind] at ho
    obtain ⟨ch', _, ho⟩ := ho
    exact ih h.1 _ _ y z ho

/-- C13, first half, for every circuit the constructors accept: whatever the random generator returns, `sample(data=y)`
and `sample_with_evidence(y)` leave every non-NaN cell and every out-of-scope cell unchanged. -/
theorem C13_evidence_unchanged {c : Circ} (h : Accepted c) (y z : Row)
    (ho : Outcome (sampleData c y) z ∨ Outcome (sampleWithEvidence c y) z) :
    (∀ v t, y v = some t → z v = some t) ∧ ∀ v, v ∉ (scope c).query → z v = y v := by
  have key : ∀ v, ¬ (v ∈ (scope c).query ∧ y v = none) → z v = y v := by
    rcases ho with ho | ho <;> exact sample_preserves h _ _ _ _ ho
  refine ⟨fun v t hv => ?_, fun v hv => key v fun hh => hv hh.1⟩
  rw [← hv]; exact key v fun hh => by simp [hv] at hh

theorem mem_act_all {c : Circ} (h : Accepted c) (v : Var) :
    v ∈ act c (fun _ => true) ↔ v ∈ (scope c).query := by
  rw [mem_scope_iff h]
  constructor
  · rintro ⟨f, hf, _, hv⟩; exact ⟨f, hf, hv⟩
  · rintro ⟨f, hf, hv⟩; exact ⟨f, hf, rfl, hv⟩

/-- C13, second half: on circuits whose channel-concatenated inputs are aligned (see C10), `sample(data=y)` never
raises and fills every missing cell of the scope.  Missing: without alignment it is false, see
`C13_misaligned_leaves_missing`. -/
theorem C13_fills_partial {c : Circ} (h : Accepted c) (hal : Aligned c) (hp : PosCh c) (hr : RepS 0 c) (y : Row) :
    ¬ Fails (sampleData c y) ∧
    ∀ z, Outcome (sampleData c y) z → ∀ v ∈ (scope c).query, z v ≠ none := by
  have := sample_ok (ev := none) h hal hp hr (fun e he => by cases he) (fun _ => 0) (fun _ => true)
    (fun f _ => posC h hp)
  refine ⟨this.1 y, fun z hz v hv => (this.2 y z hz).1 v ((mem_act_all h v).2 hv)⟩

/-- C13 for `sample_with_evidence`: additionally no Sum unit may have probability zero on the evidence
(otherwise it raises, see `C14_dead_branch_raises`). -/
theorem C13_evidence_fills_partial {c : Circ} (h : Accepted c) (hal : Aligned c) (hp : PosCh c) (hr : RepS 0 c)
    (y : Row) (hl : Live y 0 c) :
    ¬ Fails (sampleWithEvidence c y) ∧
    ∀ z, Outcome (sampleWithEvidence c y) z → ∀ v ∈ (scope c).query, z v ≠ none := by
  have := sample_ok (ev := some y) h hal hp hr (fun e he => by cases he; exact hl) (fun _ => 0) (fun _ => true)
    (fun f _ => posC h hp)
  refine ⟨this.1 y, fun z hz v hv => (this.2 y z hz).1 v ((mem_act_all h v).2 hv)⟩

/-! ### Without alignment cells stay missing -/

/-- `sample` of the circuit `badCirc` (accepted by all constructors, scope {0,1}; see C10) can return a row in
which variable 1 is still NaN: the Sum picks input 0 for feature 0 (variable 0) and input 1 for feature 1 - which
is variable 0 again. -/
theorem C13_misaligned_leaves_missing :
    Accepted badCirc ∧ (1 : Var) ∈ (scope badCirc).query ∧
    ∃ z, Outcome (sampleData badCirc fun _ => none) z ∧ z 1 = none := by
  refine ⟨C10_misaligned_not_normalised.1, by decide, Function.update (fun _ => none) 0 (some 0), ?_, by simp⟩
  have hA1 : Accepted (sum (cat2 2 ![badLeaf [0, 1], badLeaf [1, 0]]) 1 1 fun _ _ _ _ => logL (1/2)) :=
    C10_misaligned_not_normalised.1
  have hR1 : RepS 0 (sum (cat2 2 ![badLeaf [0, 1], badLeaf [1, 0]]) 1 1 fun _ _ _ _ => logL (1/2)) :=
    ⟨fun i => by fin_cases i <;> exact Nat.one_pos, Nat.one_pos⟩
  have hP1 : PosCh (sum (cat2 2 ![badLeaf [0, 1], badLeaf [1, 0]]) 1 1 fun _ _ _ _ => logL (1/2)) :=
    fun i => by fin_cases i <;> exact le_rfl
  have hnd : ∀ f, ¬ Dead (C (cat2 2 ![badLeaf [0, 1], badLeaf [1, 0]]))
      (sumLogits none 0 (cat2 2 ![badLeaf [0, 1], badLeaf [1, 0]]) (fun _ _ _ _ => logL (1/2)) (fun _ => 0) f) := by
    intro f hd
    have := hd 0 (by decide)
    norm_num [sumLogits, logL] at this
  unfold sampleData badCirc
  rw [sample_prod hA1 hP1 hR1 Nat.one_pos, sample_sum hA1 hR1 (fun _ _ => Nat.one_pos)]
  rw [outcome_bind]
  refine ⟨Function.update (Function.update (fun _ => 0) 0 0) 1 1, ?_, ?_⟩
  · show Outcome (pickAll _ _ 2) _
    rw [pickAll, outcome_bind]
    refine ⟨Function.update (fun _ => 0) 0 0, ?_, .choose (hnd 1) (by decide) .ret⟩
    rw [pickAll, outcome_bind]
    exact ⟨_, .ret, .choose (hnd 0) (by decide) .ret⟩
  · set ch' : ℕ → ℕ := Function.update (Function.update (fun _ => 0) 0 0) 1 1 with hch'
    have h0 : ch' 0 = 0 := by simp [hch']
    have h1 : ch' 1 = 1 := by simp [hch']
    have hA : Accepted (cat2 2 ![badLeaf [0, 1], badLeaf [1, 0]]) := C10_misaligned_not_normalised.1.1
    rw [sample_cat2 hA (fun i => by fin_cases i <;> exact le_rfl) (fun i => by fin_cases i <;> exact Nat.one_pos)
      (by
        intro f hf
        have hf' : f < 2 := hf
        show ch' f < 2
        rcases (by omega : f = 0 ∨ f = 1) with rfl | rfl
        · rw [h0]; decide
        · rw [h1]; decide)]
    simp only [List.ofFn_succ, List.ofFn_zero, seqAll]
    rw [outcome_bind]
    have lf : ∀ (q : List Var) (hq : q.length = 2) (g : ℕ → ℕ) (m : ℕ → Bool) (y : Row), (∀ f < 2, g f < 1) →
        sample none 0 (badLeaf q) g m y = seqAll (List.ofFn fun i : Fin q.length =>
          sampleCell (Leaves.bernoulliLL (3/4)) (m i) q[i]) y := by
      intro q hq g m y hg
      exact sample_leaf (C := 1) (R := 1) (d := fun _ _ _ => Leaves.bernoulliLL (3/4)) le_rfl
        (by rw [hq]; exact hg) Nat.one_pos y
    have o0 : offC ![badLeaf [0, 1], badLeaf [1, 0]] (0 : Fin 2) = 0 := rfl
    have o1 : offC ![badLeaf [0, 1], badLeaf [1, 0]] (1 : Fin 2) = 1 := rfl
    have o1' : offC ![badLeaf [0, 1], badLeaf [1, 0]] (Fin.succ (0 : Fin 1)) = 1 := rfl
    have hc : ∀ i : Fin 2, C ((![badLeaf [0, 1], badLeaf [1, 0]] : Fin 2 → Circ) i) = 1 := by
      intro i; fin_cases i <;> rfl
    refine ⟨Function.update (fun _ => none) 0 (some 0), ?_, ?_⟩
    · show Outcome (sample none 0 (badLeaf [0, 1]) _ _ _) _
      rw [lf [0, 1] rfl _ _ _ (by intro f hf; rw [hc]; split <;> omega)]
      simp only [List.length_cons, List.length_nil, List.ofFn_succ, List.ofFn_zero, seqAll, hc, Fin.val_zero]
      rw [outcome_bind]
      refine ⟨Function.update (fun _ => none) 0 (some 0), ?_, ?_⟩
      · simp [sampleCell, h0]
        exact .draw .ret
      · rw [outcome_bind]
        refine ⟨Function.update (fun _ => none) 0 (some 0), ?_, .ret⟩
        simp [sampleCell, h1]
        exact .ret
    · rw [outcome_bind]
      refine ⟨Function.update (fun _ => none) 0 (some 0), ?_, .ret⟩
      show Outcome (sample none 0 (badLeaf [1, 0]) _ _ _) _
      rw [lf [1, 0] rfl _ _ _ (by intro f hf; rw [hc]; split <;> omega)]
      simp only [List.length_cons, List.length_nil, List.ofFn_succ, List.ofFn_zero, seqAll, hc, o1']
      rw [outcome_bind]
      refine ⟨Function.update (fun _ => none) 0 (some 0), ?_, ?_⟩
      · simp [sampleCell, h0]
        exact .ret
      · rw [outcome_bind]
        refine ⟨Function.update (fun _ => none) 0 (some 0), ?_, .ret⟩
        simp [sampleCell]
        exact .ret

/-! ## C14 -/

/-- Likelihood of a row under (root channel 0, repetition 0 of) the module; features of a module are independent. -/
noncomputable def likelihood (c : Circ) (x : Row) : ℝ := ∏ f ∈ Finset.range (F c), expL (featAt (den c) f x 0 0)

/-- `x` completes the evidence row `e` on the scope of `c`. -/
def Completes (c : Circ) (e x : Row) : Prop :=
  (∀ v ∈ (scope c).query, x v ≠ none) ∧ (∀ v t, e v = some t → x v = some t) ∧
    ∀ v, v ∉ (scope c).query → x v = e v

/-- C14: `sample_with_evidence(e)` returns the completion `x` with probability p(x)/p(e), exactly.
Proved for evidence on which no Sum unit of the circuit has probability zero (`Live`) - for other evidence the call
can raise even though p(e) > 0, see `C14_dead_branch_raises` - and aligned circuits. -/
theorem C14_conditional_partial {c : Circ} (h : Accepted c) (hal : Aligned c) (hp : PosCh c) (hr : RepS 0 c)
    (e : Row) (hlive : Live e 0 c) (hpos : likelihood c e ≠ 0) (x : Row) (hx : Completes c e x) :
    (sampleWithEvidence c e).prob x = ENNReal.ofReal (likelihood c x / likelihood c e) := by
  unfold likelihood at hpos
  have := sample_law h hal hp hr hlive (fun _ => 0) (fun _ => true) (fun f _ => posC h hp)
    (fun f hf _ => Finset.prod_ne_zero_iff.1 hpos f (Finset.mem_range.2 hf)) e x (fun _ _ => rfl)
    (fun v hv => hx.1 v ((mem_act_all h v).1 hv))
    (fun v hv => by
      by_cases hvs : v ∈ (scope c).query
      · rcases hev : e v with _ | t
        · exact absurd ⟨(mem_act_all h v).2 hvs, hev⟩ hv
        · exact hx.2.1 v t hev
      · exact hx.2.2 v hvs)
  rw [sampleWithEvidence, this]
  unfold ratios ratio likelihood
  rw [← Finset.prod_div_distrib,
    ENNReal.ofReal_prod_of_nonneg fun f _ => div_nonneg (expL_nonneg _) (expL_nonneg _)]
  simp

/-- nothing is dead when everything is missing -/
theorem live_missing {c : Circ} (h : Accepted c) (hal : Aligned c) {r : ℕ} (hr : RepS r c) {e : Row}
    (he : ∀ v, e v = none) : Live e r c := by
  induction c with
  | leaf q C R d => trivial
  | cat1 n cs ih => exact fun i => ih i (h.1 i) (hal i) (hr i)
  | cat2 n cs ih => exact fun i => ih i (h.1 i) (hal.1 i) (hr i)
  | prod c ih => exact ih h hal hr
  | sum c Co R θ ih =>
    refine ⟨ih h.1 hal hr.1, fun f hf co hco => ?_⟩
    rw [Ne, ← expL_eq_zero_iff, expL_featAt_missing (c := sum c Co R θ) h hal hr.repIn hf hco fun v _ => he v]
    exact one_ne_zero

/-- with nothing observed the cache makes no difference -/
theorem sample_none_E {c : Circ} (h : Accepted c) (hal : Aligned c) (hp : PosCh c) {r : ℕ} (hr : RepS r c) {e : Row}
    (he : ∀ v, e v = none) : ∀ (ch : ℕ → ℕ) (mask : ℕ → Bool), (∀ f < F c, ch f < C c) → ∀ y g,
      (sample none r c ch mask y).E g = (sample (some e) r c ch mask y).E g := by
  have hseq : ∀ {n : ℕ} (s s' : Fin n → Row → Prog Row), (∀ i y g, (s i y).E g = (s' i y).E g) →
      ∀ y g, (seqAll (List.ofFn s) y).E g = (seqAll (List.ofFn s') y).E g := by
    intro n
    induction n with
    | zero => intro s s' _ y g; rfl
    | succ n ih =>
      intro s s' hs y g
      rw [List.ofFn_succ, List.ofFn_succ, seqAll, seqAll, E_bind, E_bind, hs]
      exact congrArg _ (funext fun y' => ih _ _ (fun i => hs i.succ) y' g)
  induction c with
  | leaf q C R d => intro ch mask _ y g; rw [sample, sample]
  | cat1 n cs ih =>
    intro ch mask hch y g
    rw [sample_cat1 h hp hr hch, sample_cat1 h hp hr hch]
    exact hseq _ _ (fun i y g => ih i (h.1 i) (hal i) (hp i) (hr i) _ _
      (fun f hf => by rw [cat1_C h.2 i]; exact hch _ (offF_lt i hf)) y g) y g
  | cat2 n cs ih =>
    intro ch mask hch y g
    rw [sample_cat2 h hp hr hch, sample_cat2 h hp hr hch]
    exact hseq _ _ (fun i y g => ih i (h.1 i) (hal.1 i) (hp i) (hr i) _ _
      (fun f hf => by
        have := posC (h.1 i) (hp i)
        split <;> omega) y g) y g
  | prod c ih =>
    intro ch mask hch y g
    have h0 : ch 0 < C c := hch 0 (by simp [F])
    rw [sample_prod (show Accepted c from h) hp hr h0, sample_prod (show Accepted c from h) hp hr h0]
    exact ih h hal hp hr _ _ (fun _ _ => h0) y g
  | sum c Co R θ ih =>
    intro ch mask hch y g
    replace hch : ∀ f < F c, ch f < Co := hch
    rw [sample_sum h hr hch, sample_sum h hr hch, E_bind, E_bind]
    have hsm : ∀ f < F c, ∀ i < C c, softmax (C c) (sumLogits none r c θ ch f) i =
        softmax (C c) (sumLogits (some e) r c θ ch f) i := by
      intro f hf i hi
      have hz : ∀ j < C c, expL (featAt (den c) f e r j) = 1 := fun j hj =>
        expL_featAt_missing h.1 hal hr.1.repIn hf hj fun v _ => he v
      rw [softmax_eq, softmax_eq]
      simp only [sumLogits, expL_logSoftmax, expL_add]
      have e1 : ∀ j ∈ Finset.range (C c), expL (θ f j (ch f) r) * expL (featAt (den c) f e r j) =
          expL (θ f j (ch f) r) := fun j hj => by rw [hz j (Finset.mem_range.1 hj), mul_one]
      rw [Finset.sum_congr rfl e1, ← Finset.sum_div, Finset.sum_congr rfl e1,
        e1 i (Finset.mem_range.2 hi), div_div_div_cancel_right₀]
      obtain ⟨ci, hci, hne⟩ := h.2.2 f hf (ch f) (hch f hf) r hr.2
      exact (sum_expL_pos ⟨ci, hci, hne⟩).ne'
    have hpick : ∀ Fn ≤ F c, ∀ G : (ℕ → ℕ) → ENNReal, (pickAll (C c) (sumLogits none r c θ ch) Fn).E G =
        (pickAll (C c) (sumLogits (some e) r c θ ch) Fn).E G := by
      intro Fn
      induction Fn with
      | zero => intro _ G; rfl
      | succ k ihk =>
        intro hk G
        rw [pickAll, pickAll, E_bind, E_bind, ihk (by omega)]
        refine congrArg _ (funext fun g' => ?_)
        simp only [E]
        exact Finset.sum_congr rfl fun i hi => by rw [hsm k (by omega) i (Finset.mem_range.1 hi)]
    rw [hpick _ le_rfl]
    exact E_congr fun ch' ho => ih h.1 hal hp hr.1 ch' mask (pickAll_outcome ho) y g

/-- C14, unconditional case: `sample()` with nothing observed returns the complete row `x` with probability p(x)
(also with an empty cache, i.e. when Sum uses its prior weights). -/
theorem C14_unconditional_partial {c : Circ} (h : Accepted c) (hal : Aligned c) (hp : PosCh c) (hr : RepS 0 c)
    (x : Row) (hx : Completes c (fun _ => none) x) :
    (sampleData c fun _ => none).prob x = ENNReal.ofReal (likelihood c x) := by
  have h1 : likelihood c (fun _ => none) = 1 :=
    Finset.prod_eq_one fun f hf => expL_featAt_missing h hal hr.repIn (Finset.mem_range.1 hf) (posC h hp)
      fun _ _ => rfl
  have := C14_conditional_partial h hal hp hr (fun _ => none) (live_missing h hal hr fun _ => rfl)
    (by rw [h1]; exact one_ne_zero) x hx
  rw [h1, div_one] at this
  rw [← this]
  unfold sampleData sampleWithEvidence prob
  exact sample_none_E h hal hp hr (fun _ => rfl) _ _ (fun f _ => posC h hp) _ _

/-! ### A concrete conditional distribution -/

/-- Mixture (weights 1/4, 3/4) of two products of Bernoulli leaves over variables 0 and 1. -/
noncomputable def exBB (p q : ℝ) : Circ :=
  prod (cat1 2 ![leaf [0] 1 1 fun _ _ _ => Leaves.bernoulliLL p, leaf [1] 1 1 fun _ _ _ => Leaves.bernoulliLL q])

/-- see `exBB` -/
noncomputable def exDisc : Circ :=
  sum (cat2 2 ![exBB (1/4) (1/2), exBB (2/3) (1/5)]) 1 1 fun _ ci _ _ => logL (if ci = 0 then 1/4 else 3/4)

theorem exBB_accepted (p q : ℝ) : Accepted (exBB p q) := by
  refine ⟨fun i => ?_, ?_⟩
  · fin_cases i <;> rfl
  · rfl

theorem exDisc_ok : Accepted exDisc ∧ Aligned exDisc ∧ PosCh exDisc ∧ RepS 0 exDisc := by
  refine ⟨⟨⟨fun i => ?_, rfl⟩, le_rfl, ?_⟩, ⟨fun i => ?_, ?_⟩, fun i => ?_, ⟨fun i => ?_, Nat.one_pos⟩⟩
  · fin_cases i <;> exact exBB_accepted _ _
  · intro f _ co _ r _
    exact ⟨0, by decide, by norm_num [logL]⟩
  · fin_cases i <;> exact fun i => by fin_cases i <;> exact trivial
  · intro i j; fin_cases i <;> fin_cases j <;> rfl
  · fin_cases i <;> exact fun i => by fin_cases i <;> exact le_rfl
  · fin_cases i <;> exact fun i => by fin_cases i <;> exact Nat.one_pos

theorem exDisc_value (x : Row) : likelihood exDisc x =
    1/4 * (expL (cellVal (Leaves.bernoulliLL (1/4)) (x 0)) * expL (cellVal (Leaves.bernoulliLL (1/2)) (x 1))) +
    3/4 * (expL (cellVal (Leaves.bernoulliLL (2/3)) (x 0)) * expL (cellVal (Leaves.bernoulliLL (1/5)) (x 1))) := by
  have hb : ∀ p q, expL (featAt (den (exBB p q)) 0 x 0 0) =
      expL (cellVal (Leaves.bernoulliLL p) (x 0)) * expL (cellVal (Leaves.bernoulliLL q) (x 1)) := by
    intro p q
    unfold exBB
    rw [expL_featAt_prod]
    have hF : F (cat1 2 ![leaf [0] 1 1 fun _ _ _ => Leaves.bernoulliLL p,
      leaf [1] 1 1 fun _ _ _ => Leaves.bernoulliLL q]) = 2 := rfl
    rw [hF, Finset.prod_range_succ, Finset.prod_range_one]
    have h0 := featAt_cat1 (cs := ![leaf [0] 1 1 fun _ _ _ => Leaves.bernoulliLL p,
      leaf [1] 1 1 fun _ _ _ => Leaves.bernoulliLL q]) 0 (j := 0) Nat.one_pos x 0 0
    have h1 := featAt_cat1 (cs := ![leaf [0] 1 1 fun _ _ _ => Leaves.bernoulliLL p,
      leaf [1] 1 1 fun _ _ _ => Leaves.bernoulliLL q]) 1 (j := 0) Nat.one_pos x 0 0
    have o0 : offF ![leaf [0] 1 1 fun _ _ _ => Leaves.bernoulliLL p,
      leaf [1] 1 1 fun _ _ _ => Leaves.bernoulliLL q] (0 : Fin 2) + 0 = 0 := rfl
    have o1 : offF ![leaf [0] 1 1 fun _ _ _ => Leaves.bernoulliLL p,
      leaf [1] 1 1 fun _ _ _ => Leaves.bernoulliLL q] (1 : Fin 2) + 0 = 1 := rfl
    rw [o0] at h0
    rw [o1] at h1
    rw [h0, h1]
    simp only [Matrix.cons_val_zero, Matrix.cons_val_one]
    rw [featAt_leaf (v := 0) rfl, featAt_leaf (v := 1) rfl]
    cases x 0 <;> cases x 1 <;> rfl
  have hF : F (cat2 2 ![exBB (1/4) (1/2), exBB (2/3) (1/5)]) = 1 := rfl
  have hC : C (cat2 2 ![exBB (1/4) (1/2), exBB (2/3) (1/5)]) = 2 := rfl
  have hw : ∀ ci < 2, weight (cat2 2 ![exBB (1/4) (1/2), exBB (2/3) (1/5)])
      (fun _ ci _ _ => logL (if ci = 0 then 1/4 else 3/4)) 0 ci 0 (bc 1 0) = if ci = 0 then 1/4 else 3/4 := by
    intro ci hci
    unfold weight
    rw [softmax_eq, hC]
    simp only [Finset.sum_range_succ, Finset.sum_range_zero]
    rcases (by omega : ci = 0 ∨ ci = 1) with rfl | rfl <;>
    · simp [expL_logL (show (0:ℝ) ≤ 4⁻¹ by norm_num), expL_logL (show (0:ℝ) ≤ 3/4 by norm_num)]
      norm_num
  unfold likelihood exDisc
  show ∏ f ∈ Finset.range 1, _ = _
  rw [Finset.prod_range_one, expL_featAt_sum (by rw [hF]; decide), hC, Finset.sum_range_succ, Finset.sum_range_one,
    hw 0 (by decide), hw 1 (by decide)]
  have h0 := featAt_cat2 (cs := ![exBB (1/4) (1/2), exBB (2/3) (1/5)]) 0 (f := 0) (k := 0) (by rw [hF]; decide)
    (by decide) x 0
  have h1 := featAt_cat2 (cs := ![exBB (1/4) (1/2), exBB (2/3) (1/5)]) 1 (f := 0) (k := 0) (by rw [hF]; decide)
    (by decide) x 0
  have o0 : offC ![exBB (1/4) (1/2), exBB (2/3) (1/5)] (0 : Fin 2) + 0 = 0 := rfl
  have o1 : offC ![exBB (1/4) (1/2), exBB (2/3) (1/5)] (1 : Fin 2) + 0 = 1 := rfl
  rw [o0] at h0
  rw [o1] at h1
  rw [h0, h1]
  simp only [Matrix.cons_val_zero, Matrix.cons_val_one]
  rw [hb, hb]
  simp

/-- The hypotheses of C14 are met, and the conditional probability is the expected number: given x0 = 1,
P(x1 = 1) = (1/4·1/4·1/2 + 3/4·2/3·1/5) / (1/4·1/4 + 3/4·2/3) = 21/90. -/
example : (sampleWithEvidence exDisc fun v => if v = 0 then some 1 else none).prob
    (fun v => if v = 0 then some 1 else if v = 1 then some 1 else none) = ENNReal.ofReal (21 / 90) := by
  obtain ⟨h1, h2, h3, h4⟩ := exDisc_ok
  have hv : likelihood exDisc (fun v => if v = 0 then some 1 else none) = 9/16 := by
    rw [exDisc_value]
    simp [cellVal, Leaves.bernoulliLL, expL_logL (show (0:ℝ) ≤ 4⁻¹ by norm_num),
      expL_logL (show (0:ℝ) ≤ 2/3 by norm_num)]
    norm_num
  have hx : likelihood exDisc (fun v => if v = 0 then some 1 else if v = 1 then some 1 else none) = 21/160 := by
    rw [exDisc_value]
    simp [cellVal, Leaves.bernoulliLL, expL_logL (show (0:ℝ) ≤ 4⁻¹ by norm_num),
      expL_logL (show (0:ℝ) ≤ 2/3 by norm_num), expL_logL (show (0:ℝ) ≤ 2⁻¹ by norm_num),
      expL_logL (show (0:ℝ) ≤ 5⁻¹ by norm_num)]
    norm_num
  have hlive : Live (fun v => if v = 0 then some 1 else none) 0 exDisc := by
    refine ⟨fun i => ?_, fun f hf co hco => ?_⟩
    · fin_cases i <;> exact fun i => by fin_cases i <;> exact trivial
    · obtain rfl : f = 0 := by
        have : f < 1 := hf
        omega
      obtain rfl : co = 0 := by omega
      intro h0
      have : likelihood exDisc (fun v => if v = 0 then some 1 else none) = 0 := by
        unfold likelihood
        show ∏ f ∈ Finset.range 1, _ = _
        rw [Finset.prod_range_one]
        unfold exDisc
        rw [h0]; rfl
      rw [hv] at this
      norm_num at this
  rw [C14_conditional_partial h1 h2 h3 h4 _ hlive (by rw [hv]; norm_num) _ ?_, hv, hx]
  · norm_num
  · have hs : (scope exDisc).query = [0, 1] := by decide
    refine ⟨?_, ?_, ?_⟩
    · intro v hv
      rw [hs] at hv
      rcases (by simpa using hv : v = 0 ∨ v = 1) with rfl | rfl <;> simp
    · intro v t hv
      by_cases h : v = 0
      · simpa [h] using hv
      · simp [h] at hv
    · intro v hv
      rw [hs] at hv
      have : v ≠ 0 ∧ v ≠ 1 := by simpa using hv
      simp [this.1, this.2]

/-! ### Evidence of positive probability on which `sample_with_evidence` raises -/

/-- Sum over two equal Uniform(a,b) channels. -/
noncomputable def exU (a b : ℝ) : Circ :=
  sum (leaf [0] 2 1 fun _ _ _ => Leaves.uniformLL a b) 1 1 fun _ _ _ _ => logL (1/2)

/-- Equal mixture of `exU 0 1` and `exU 2 3`. -/
noncomputable def exDead : Circ := sum (cat2 2 ![exU 0 1, exU 2 3]) 1 1 fun _ _ _ _ => logL (1/2)

theorem half_weights (c : Circ) (hC : C c = 2) (f ci co r : ℕ) :
    weight c (fun _ _ _ _ => logL (1/2)) f ci co r = 1/2 := by
  unfold weight
  rw [softmax_eq, hC]
  simp only [Finset.sum_range_succ, Finset.sum_range_zero, expL_logL (show (0:ℝ) ≤ 1/2 by norm_num)]
  norm_num

theorem exU_value (a b : ℝ) (x : Row) : expL (featAt (den (exU a b)) 0 x 0 0) =
    expL (cellVal (Leaves.uniformLL a b) (x 0)) := by
  unfold exU
  rw [expL_featAt_sum Nat.one_pos]
  have hC : C (leaf [0] 2 1 fun _ _ _ => Leaves.uniformLL a b) = 2 := rfl
  rw [hC, Finset.sum_range_succ, Finset.sum_range_one, half_weights _ hC, half_weights _ hC,
    featAt_leaf (v := 0) rfl, featAt_leaf (v := 0) rfl]
  rcases hx : x 0 with _ | t
  · simp [cellVal]; norm_num
  · simp [cellVal]; ring

theorem exDead_value (x : Row) : likelihood exDead x =
    1/2 * expL (cellVal (Leaves.uniformLL 0 1) (x 0)) + 1/2 * expL (cellVal (Leaves.uniformLL 2 3) (x 0)) := by
  unfold likelihood exDead
  have hC : C (cat2 2 ![exU 0 1, exU 2 3]) = 2 := rfl
  have hF : F (cat2 2 ![exU 0 1, exU 2 3]) = 1 := rfl
  show ∏ f ∈ Finset.range 1, _ = _
  rw [Finset.prod_range_one, expL_featAt_sum (by rw [hF]; decide), hC, Finset.sum_range_succ, Finset.sum_range_one,
    half_weights _ hC, half_weights _ hC]
  have h0 := featAt_cat2 (cs := ![exU 0 1, exU 2 3]) 0 (f := 0) (k := 0) (by rw [hF]; decide) (by decide) x 0
  have h1 := featAt_cat2 (cs := ![exU 0 1, exU 2 3]) 1 (f := 0) (k := 0) (by rw [hF]; decide) (by decide) x 0
  have o0 : offC ![exU 0 1, exU 2 3] (0 : Fin 2) + 0 = 0 := rfl
  have o1 : offC ![exU 0 1, exU 2 3] (1 : Fin 2) + 0 = 1 := rfl
  rw [o0] at h0
  rw [o1] at h1
  rw [h0, h1]
  simp only [Matrix.cons_val_zero, Matrix.cons_val_one]
  rw [exU_value, exU_value]

theorem exDead_ok : Accepted exDead ∧ Aligned exDead ∧ PosCh exDead ∧ RepS 0 exDead := by
  have hU : ∀ a b, Accepted (exU a b) := fun a b => ⟨rfl, le_rfl, fun f _ co _ r _ =>
    ⟨0, by show 0 < 2; decide, by norm_num [logL]⟩⟩
  refine ⟨⟨⟨fun i => ?_, rfl⟩, le_rfl, ?_⟩, ⟨fun i => ?_, ?_⟩, fun i => ?_, ⟨fun i => ?_, Nat.one_pos⟩⟩
  · fin_cases i <;> exact hU _ _
  · intro f _ co _ r _
    exact ⟨0, by decide, by norm_num [logL]⟩
  · fin_cases i <;> trivial
  · intro i j; fin_cases i <;> fin_cases j <;> rfl
  · fin_cases i <;> exact Nat.one_le_ofNat
  · fin_cases i <;> exact ⟨Nat.one_pos, Nat.one_pos⟩

/-- C14 without the `Live` hypothesis is false: for `exDead` and the evidence x0 = 1/2, which has likelihood 1/2,
`sample_with_evidence` cannot return at all - the Sum over Uniform(2,3), which is not even selected, computes
`log_softmax` of all `-inf`, and `Categorical(logits=NaN)` raises. -/
theorem C14_dead_branch_raises :
    Accepted exDead ∧ Aligned exDead ∧ PosCh exDead ∧ RepS 0 exDead ∧
    likelihood exDead (fun _ => some (1/2)) = 1/2 ∧
    ∀ z, ¬ Outcome (sampleWithEvidence exDead fun _ => some (1/2)) z := by
  obtain ⟨h1, h2, h3, h4⟩ := exDead_ok
  refine ⟨h1, h2, h3, h4, ?_, ?_⟩
  · rw [exDead_value]
    simp only [cellVal, Leaves.uniformLL]
    norm_num
  · intro z ho
    unfold sampleWithEvidence exDead at ho
    rw [sample_sum h1 h4 (fun _ _ => Nat.one_pos), outcome_bind] at ho
    obtain ⟨ch', hp, ho⟩ := ho
    have hch : ∀ f < F (cat2 2 ![exU 0 1, exU 2 3]), ch' f < C (cat2 2 ![exU 0 1, exU 2 3]) := pickAll_outcome hp
    rw [sample_cat2 h1.1 h3 h4.1 hch] at ho
    simp only [List.ofFn_succ, List.ofFn_zero, seqAll] at ho
    rw [outcome_bind] at ho
    obtain ⟨y1, -, ho⟩ := ho
    rw [outcome_bind] at ho
    obtain ⟨y2, ho, -⟩ := ho
    have hsum : ∀ (a b : ℝ) (g : ℕ → ℕ) (m : ℕ → Bool) (y z : Row), (∀ f < 1, g f < 1) → ¬ (a ≤ 1/2 ∧ 1/2 < b) →
        ¬ Outcome (sample (some fun _ => some (1/2)) 0 (exU a b) g m y) z := by
      intro a b g m y z hg hab ho
      unfold exU at ho
      rw [sample_sum (c := leaf [0] 2 1 fun _ _ _ => Leaves.uniformLL a b) (Co := 1) (R := 1)
        ⟨rfl, le_rfl, fun f _ co _ r _ => ⟨0, by show 0 < 2; decide, by norm_num [logL]⟩⟩
        ⟨Nat.one_pos, Nat.one_pos⟩ hg, outcome_bind] at ho
      obtain ⟨g', hp, -⟩ := ho
      have hF : F (leaf [0] 2 1 fun _ _ _ => Leaves.uniformLL a b) = 0 + 1 := rfl
      rw [hF, pickAll, outcome_bind] at hp
      obtain ⟨g'', -, hp⟩ := hp
      cases hp with
      | choose hd _ _ =>
        apply hd
        intro i _
        rw [sumLogits, ← expL_eq_zero_iff, expL_logSoftmax, expL_add, featAt_leaf (v := 0) rfl]
        simp only [Leaves.uniformLL, if_neg hab, expL_bot, mul_zero, zero_div]
    refine hsum 2 3 _ _ _ _ ?_ (by norm_num) ho
    intro f hf
    have hc : C ((![exU 0 1, exU 2 3] : Fin 2 → Circ) 1) = 1 := rfl
    have hc' : C ((![exU 0 1, exU 2 3] : Fin 2 → Circ) (Fin.succ 0)) = 1 := rfl
    rw [hc']
    split <;> omega

end Circ
end Verif

import Verif.GradDesc
import Mathlib.Tactic.Ring
import Mathlib.Tactic.Linarith
import Mathlib.Tactic.FieldSimp
import Mathlib.Algebra.Order.Floor.Semiring
import Mathlib.Algebra.Order.Floor.Semifield

/-!
# C80: gradient descent training
-/

namespace Verif
namespace Gd

variable {σ X : Type}

/-! ## Specification -/

/-- The losses of consecutive batches, each evaluated before the update on it. -/
def lossesOf (E : Env σ X) : σ → List (X × Option X) → List ℝ
  | _, [] => []
  | s, d :: ds => E.loss s d :: lossesOf E (E.update s d) ds

/-- The parameters at the beginning of epoch `e`: every batch of every earlier epoch was used for one update, in order, with one
scheduler step at the end of each epoch. -/
def start (E : Env σ X) (ds : ℕ → List (X × Option X)) (s : σ) : ℕ → σ
  | 0 => s
  | e + 1 => E.sched ((ds e).foldl E.update (start E ds s e))

/-- The number of batches before epoch `e`. -/
def batches (ds : ℕ → List (X × Option X)) (e : ℕ) : ℕ := ((List.range e).map fun k => (ds k).length).sum

/-- The callbacks of epoch `e`: one per batch with the loss and the running number of the step; in every tenth epoch one per
validation batch, with the loss of the parameters at the end of the epoch; one for the epoch with all its training losses. -/
def epochEvents (E : Env σ X) (ds : ℕ → List (X × Option X)) (vs : ℕ → List (X × Option X)) (s : σ) (e : ℕ) : List Ev :=
  ((lossesOf E (start E ds s e) (ds e)).zipIdx.map fun p => Ev.step p.1 (batches ds e + p.2 + 1)) ++
    ((if e % 10 = 0 then vs e else []).map fun d => Ev.valid (E.loss (start E ds s (e + 1)) d) (batches ds (e + 1))) ++
    [Ev.epoch (lossesOf E (start E ds s e) (ds e)) e]

/-! ## Batches -/

/-- **C80 (batches).** For classification exactly the pairs are accepted; otherwise a tensor, a singleton or a pair, of which the
second entry is ignored. Everything else raises `ValueError`. -/
theorem C80_batches (b : Batch X) (d : X × Option X) (e : Exc) :
    (extract true b = .ok d ↔ ∃ x y, b = .seq [x, y] ∧ d = (x, some y)) ∧
      (extract false b = .ok d ↔ ∃ x, d = (x, none) ∧ (b = .one x ∨ b = .seq [x] ∨ ∃ y, b = .seq [x, y])) ∧
      ∀ cls, extract cls b = .error e → e = .valueError := by
  refine ⟨?_, ?_, ?_⟩
  · rcases b with x | l
    · simp [extract]
    · rcases l with _ | ⟨x, _ | ⟨y, _ | ⟨z, l⟩⟩⟩
      · simp [extract]
      · simp [extract]
      · constructor
        · intro h
          exact ⟨x, y, rfl, (Except.ok.inj h).symm⟩
        · rintro ⟨x', y', h, rfl⟩
          cases h
          rfl
      · simp [extract]
  · rcases b with x | l
    · constructor
      · intro h
        exact ⟨x, (Except.ok.inj h).symm, Or.inl rfl⟩
      · rintro ⟨x', rfl, h | h | ⟨y, h⟩⟩ <;> cases h
        rfl
    · rcases l with _ | ⟨x, _ | ⟨y, _ | ⟨z, l⟩⟩⟩
      · simp [extract]
      · constructor
        · intro h
          exact ⟨x, (Except.ok.inj h).symm, Or.inr (Or.inl rfl)⟩
        · rintro ⟨x', rfl, h | h | ⟨y, h⟩⟩ <;> cases h
          rfl
      · constructor
        · intro h
          exact ⟨x, (Except.ok.inj h).symm, Or.inr (Or.inr ⟨y, rfl⟩)⟩
        · rintro ⟨x', rfl, h | h | ⟨y, h⟩⟩ <;> cases h
          rfl
      · simp [extract]
  · intro cls h
    rcases b with x | l
    · cases cls <;> simp_all [extract]
    · rcases l with _ | ⟨x, _ | ⟨y, _ | ⟨z, l⟩⟩⟩ <;> cases cls <;> simp_all [extract]

/-! ## The loops -/

theorem trainLoop_ok (E : Env σ X) (cls : Bool) : ∀ (bs : List (Batch X)) (ds : List (X × Option X)) (st : St σ),
    bs.map (extract cls) = ds.map .ok →
    trainLoop E cls bs st = (⟨ds.foldl E.update st.s, st.training, st.losses ++ lossesOf E st.s ds, st.steps + ds.length,
      st.trace ++ (lossesOf E st.s ds).zipIdx.map (fun p => Ev.step p.1 (st.steps + p.2 + 1)), st.bound || !ds.isEmpty⟩, none) := by
  intro bs
  induction bs with
  | nil =>
    intro ds st h
    obtain rfl : ds = [] := by simpa using h
    simp [trainLoop, lossesOf]
  | cons b bs ih =>
    intro ds st h
    cases ds with
    | nil => simp at h
    | cons d ds =>
      simp only [List.map_cons, List.cons.injEq] at h
      simp only [trainLoop, h.1]
      rw [ih ds _ h.2]
      simp only [lossesOf, List.foldl_cons, List.append_assoc, List.length_cons, List.zipIdx_cons, List.map_cons, List.cons_append, List.nil_append, List.isEmpty_cons, Bool.not_false, Bool.or_true, Bool.true_or]
      refine Prod.ext ?_ rfl
      simp only [St.mk.injEq, true_and, and_true]
      refine ⟨by omega, ?_⟩
      rw [List.zipIdx_succ]
      simp [List.map_map, Function.comp_def]
      intro a b _
      omega

theorem validLoop_ok (E : Env σ X) (cls : Bool) : ∀ (bs : List (Batch X)) (ds : List (X × Option X)) (st : St σ),
    bs.map (extract cls) = ds.map .ok →
    validLoop E cls bs st = ({ st with trace := st.trace ++ ds.map fun d => Ev.valid (E.loss st.s d) st.steps }, none) := by
  intro bs
  induction bs with
  | nil =>
    intro ds st h
    obtain rfl : ds = [] := by simpa using h
    simp [validLoop]
  | cons b bs ih =>
    intro ds st h
    cases ds with
    | nil => simp at h
    | cons d ds =>
      simp only [List.map_cons, List.cons.injEq] at h
      simp only [validLoop, h.1]
      rw [ih ds _ h.2]
      simp [List.append_assoc]

/-- The batches `ds e` of every epoch are well formed; a validation loader, if there is one, yields at least one well-formed batch
in every tenth epoch; with `verbose` the first epoch has a batch. -/
structure Ok (a : Args X) (ds vs : ℕ → List (X × Option X)) : Prop where
  epochs : 0 < a.epochs
  classifier : a.cls = true → a.isClassifier = true
  data : ∀ e, (a.data e).map (extract a.cls) = (ds e).map .ok
  valNone : a.val = none → ∀ e, vs e = []
  valSome : ∀ v, a.val = some v → ∀ e, e % 10 = 0 → (v e).map (extract a.cls) = (vs e).map .ok ∧ vs e ≠ []
  verbose : a.verbose = true → ds 0 ≠ []

theorem valPart_ok {E : Env σ X} {a : Args X} {ds vs : ℕ → List (X × Option X)} (h : Ok a ds vs) (e : ℕ) (st : St σ)
    (ht : st.training = true) :
    valPart E a e st = ({ st with trace := st.trace ++
      (if e % 10 = 0 then vs e else []).map fun d => Ev.valid (E.loss st.s d) st.steps }, none) := by
  unfold valPart
  split
  · rename_i hv
    simp [h.valNone hv]
  · rename_i v hv
    by_cases he : e % 10 = 0
    · obtain ⟨h1, h2⟩ := h.valSome v hv e he
      rw [if_pos he, if_pos he]
      unfold validate
      rw [validLoop_ok E a.cls (v e) (vs e) _ h1]
      have : v e ≠ [] := by
        intro h0
        rw [h0] at h1
        exact h2 (by simpa using h1.symm)
      simp [this, ht]
    · rw [if_neg he, if_neg he]
      simp

theorem epoch_ok {E : Env σ X} {a : Args X} {ds vs : ℕ → List (X × Option X)} (h : Ok a ds vs) (s : σ) (e : ℕ) (st : St σ)
    (h1 : st.s = start E ds s e) (h2 : st.training = true) (h3 : st.steps = batches ds e)
    (h4 : a.verbose = true → st.bound = true ∨ e = 0) :
    ∃ st', epoch E a e st = (st', none) ∧ st'.s = start E ds s (e + 1) ∧ st'.training = true ∧
      st'.steps = batches ds (e + 1) ∧ (a.verbose = true → st'.bound = true) ∧ (st.bound = true → st'.bound = true) ∧
      st'.losses = lossesOf E (start E ds s e) (ds e) ∧
      st'.trace = st.trace ++ epochEvents E ds vs s e := by
  have hb : batches ds (e + 1) = batches ds e + (ds e).length := by
    simp [batches, List.range_succ]
  have hbound : a.verbose = true → (st.bound || !(ds e).isEmpty) = true := by
    intro hv
    rcases h4 hv with h4 | rfl
    · simp [h4]
    · have := h.verbose hv
      simp [this]
  refine ⟨⟨start E ds s (e + 1), true, lossesOf E (start E ds s e) (ds e), batches ds (e + 1),
    st.trace ++ epochEvents E ds vs s e, st.bound || !(ds e).isEmpty⟩, ?_, rfl, rfl, rfl, hbound, ?_, rfl, rfl⟩
  · unfold epoch
    rw [trainLoop_ok E a.cls (a.data e) (ds e) _ (h.data e)]
    simp only
    rw [valPart_ok h e]
    swap
    · exact h2
    simp only [endPart, h1, h3, ← hb]
    refine Prod.ext ?_ ?_
    · simp only [St.mk.injEq, h2, epochEvents, start, List.append_assoc, List.nil_append, true_and, and_true]
    · simp only
      rw [if_neg]
      cases hv : a.verbose
      · simp
      · simp only [hbound hv]
        simp
  · intro hb'
    simp [hb']

theorem loop_ok {E : Env σ X} {a : Args X} {ds vs : ℕ → List (X × Option X)} (h : Ok a ds vs) (s : σ) :
    ∀ (n e : ℕ) (st : St σ), st.s = start E ds s e → st.training = true → st.steps = batches ds e →
      (a.verbose = true → st.bound = true ∨ e = 0) →
      ∃ st', loop E a n e st = (st', none) ∧ st'.s = start E ds s (e + n) ∧ st'.training = true ∧
        st'.steps = batches ds (e + n) ∧ (n ≠ 0 → st'.losses = lossesOf E (start E ds s (e + n - 1)) (ds (e + n - 1))) ∧
        st'.trace = st.trace ++ (List.range' e n).flatMap (epochEvents E ds vs s) := by
  intro n
  induction n with
  | zero =>
    intro e st h1 h2 h3 h4
    exact ⟨st, rfl, h1, h2, h3, fun h => absurd rfl h, by simp⟩
  | succ n ih =>
    intro e st h1 h2 h3 h4
    obtain ⟨st', k1, k2, k3, k4, k5, k6, k7, k8⟩ := epoch_ok (E := E) h s e st h1 h2 h3 h4
    obtain ⟨st2, l1, l2, l3, l4, l5, l6⟩ := ih (e + 1) st' k2 k3 k4 fun hv => Or.inl (k5 hv)
    refine ⟨st2, ?_, by rw [l2]; congr 1; omega, l3, by rw [l4]; congr 1; omega, fun _ => ?_, ?_⟩
    · simp only [loop, k1, l1]
    · cases n with
      | zero =>
        have : st2 = st' := by simpa [loop] using l1.symm
        rw [this, k7]
        rfl
      | succ n =>
        rw [l5 (by omega)]
        congr 2 <;> omega
    · rw [l6, k8, List.range'_succ, List.flatMap_cons, List.append_assoc]

/-- **C80 (training).** With well-formed batches, `train_gradient_descent` makes exactly one optimizer update per batch and one
scheduler step per epoch, in order; validation does not change the parameters; the callbacks are called exactly as described by
`epochEvents`, epoch by epoch; and the model is left in training mode. -/
theorem C80_training (E : Env σ X) {a : Args X} {ds vs : ℕ → List (X × Option X)} (h : Ok a ds vs) (s : σ) (training : Bool) :
    ∃ st, train E a s training = (st, none) ∧ st.s = start E ds s a.epochs.toNat ∧ st.training = true ∧
      st.steps = batches ds a.epochs.toNat ∧
      st.trace = (List.range a.epochs.toNat).flatMap (epochEvents E ds vs s) := by
  have hp := h.epochs
  obtain ⟨st, h1, h2, h3, h4, h5, h6⟩ := loop_ok (E := E) h s a.epochs.toNat 0 ⟨s, true, [], 0, [], false⟩ rfl rfl rfl
    fun _ => Or.inr rfl
  rw [zero_add] at h2 h4
  refine ⟨st, ?_, h2, h3, h4, by rw [h6, List.range_eq_range']; rfl⟩
  unfold train
  rw [if_neg (by omega), if_neg]
  · exact h1
  · cases hc : a.cls
    · simp
    · simp [h.classifier hc]

/-- **C80 (a list that changes).** `callback_epoch` receives the list `metrics.train_losses` itself, which is emptied at the
beginning of the next epoch: a caller that keeps the lists finds, after training, the losses of the last epoch in all of them. -/
theorem C80_losses_are_shared (E : Env σ X) {a : Args X} {ds vs : ℕ → List (X × Option X)} (h : Ok a ds vs) (s : σ)
    (training : Bool) :
    ∃ st, train E a s training = (st, none) ∧
      st.losses = lossesOf E (start E ds s (a.epochs.toNat - 1)) (ds (a.epochs.toNat - 1)) := by
  have hp := h.epochs
  obtain ⟨st, h1, h2, h3, h4, h5, h6⟩ := loop_ok (E := E) h s a.epochs.toNat 0 ⟨s, true, [], 0, [], false⟩ rfl rfl rfl
    fun _ => Or.inr rfl
  refine ⟨st, ?_, ?_⟩
  · unfold train
    rw [if_neg (by omega), if_neg]
    · exact h1
    · cases hc : a.cls
      · simp
      · simp [h.classifier hc]
  · rw [h5 (by omega), zero_add]

/-- **C80 (rejected calls).** A number of epochs below one raises `ValueError`, a classification task for a model that is not a
`Classifier` raises `InvalidTypeError`; in both cases nothing is changed and no callback is called. -/
theorem C80_rejected (E : Env σ X) (a : Args X) (s : σ) (training : Bool) :
    (a.epochs ≤ 0 → ∃ st, train E a s training = (st, some (.exc .valueError)) ∧ st.s = s ∧ st.training = training ∧ st.trace = []) ∧
      (0 < a.epochs → a.cls = true → a.isClassifier = false →
        ∃ st, train E a s training = (st, some (.exc .invalidType)) ∧ st.s = s ∧ st.training = training ∧ st.trace = []) := by
  constructor
  · intro h
    exact ⟨_, if_pos h, rfl, rfl, rfl⟩
  · intro h h1 h2
    refine ⟨⟨s, training, [], 0, [], false⟩, ?_, rfl, rfl, rfl⟩
    unfold train
    rw [if_neg (by omega), if_pos (by simp [h1, h2])]

/-- **C80 (empty loaders).** An empty validation loader makes training fail with Python's `UnboundLocalError` after the first
epoch, after all of its updates; so does `verbose=True` with an empty training loader. -/
theorem C80_empty_loaders (E : Env σ X) {a : Args X} {ds : ℕ → List (X × Option X)} (hp : 0 < a.epochs)
    (hc : a.cls = true → a.isClassifier = true) (hd : ∀ e, (a.data e).map (extract a.cls) = (ds e).map .ok) (s : σ) (training : Bool) :
    ((∃ v, a.val = some v ∧ v 0 = []) → ∃ st, train E a s training = (st, some .unbound) ∧ st.s = start E ds s 1) ∧
      (a.val = none → a.verbose = true → a.data 0 = [] → ∃ st, train E a s training = (st, some .unbound)) := by
  have hn : a.epochs.toNat = (a.epochs.toNat - 1) + 1 := by omega
  have htrain : train E a s training = loop E a a.epochs.toNat 0 ⟨s, true, [], 0, [], false⟩ := by
    unfold train
    rw [if_neg (by omega), if_neg]
    cases hcl : a.cls
    · simp
    · simp [hc hcl]
  constructor
  · rintro ⟨v, hv, h0⟩
    rw [htrain, hn]
    simp only [loop, epoch]
    rw [trainLoop_ok E a.cls (a.data 0) (ds 0) _ (hd 0)]
    simp only [valPart, hv, h0, validate, validLoop]
    exact ⟨_, rfl, rfl⟩
  · intro hv hvb h0
    rw [htrain, hn]
    simp only [loop, epoch, h0, trainLoop, valPart, hv, endPart, hvb]
    exact ⟨_, rfl⟩

/-- **C80 (an exception in validation).** A malformed validation batch raises `ValueError` and leaves the model in evaluation mode. -/
theorem C80_error_leaves_eval_mode (E : Env σ X) {a : Args X} {ds : ℕ → List (X × Option X)} (hp : 0 < a.epochs)
    (hc : a.cls = true → a.isClassifier = true) (hd : ∀ e, (a.data e).map (extract a.cls) = (ds e).map .ok) (s : σ) (training : Bool)
    {v : ℕ → List (Batch X)} (hv : a.val = some v) {b : Batch X} {bs : List (Batch X)} (h0 : v 0 = b :: bs)
    (hb : extract a.cls b = .error .valueError) :
    ∃ st, train E a s training = (st, some (.exc .valueError)) ∧ st.training = false := by
  have hn : a.epochs.toNat = (a.epochs.toNat - 1) + 1 := by omega
  have htrain : train E a s training = loop E a a.epochs.toNat 0 ⟨s, true, [], 0, [], false⟩ := by
    unfold train
    rw [if_neg (by omega), if_neg]
    cases hcl : a.cls
    · simp
    · simp [hc hcl]
  rw [htrain, hn]
  simp only [loop, epoch]
  rw [trainLoop_ok E a.cls (a.data 0) (ds 0) _ (hd 0)]
  simp only [valPart, hv, h0, validate, validLoop, hb]
  exact ⟨_, rfl, rfl⟩

/-! ## Learning rate -/

theorem milestones_eq (n : ℕ) : milestones n = [n / 2, 3 * n / 4] := by
  have h1 : ⌊(n : ℝ) * 0.5⌋₊ = n / 2 := by
    rw [show (n : ℝ) * 0.5 = (n : ℝ) / ((2 : ℕ) : ℝ) by push_cast; ring, Nat.floor_div_eq_div]
  have h2 : ⌊(n : ℝ) * 0.75⌋₊ = 3 * n / 4 := by
    rw [show (n : ℝ) * 0.75 = ((3 * n : ℕ) : ℝ) / ((4 : ℕ) : ℝ) by push_cast; ring, Nat.floor_div_eq_div]
  simp only [milestones, h1, h2]

/-- **C80 (default schedule).** In epoch `e` of `n` the learning rate is `lr` divided by ten for each of the two milestones `⌊n/2⌋`
and `⌊3n/4⌋` that has been reached. In particular a single epoch is trained with `lr / 100`, and from two epochs on the
first one with `lr`. -/
theorem C80_learning_rate (n : ℕ) (lr : ℝ) (e : ℕ) :
    rate (milestones n) lr e = lr * (1 / 10) ^ ((if n / 2 ≤ e then 1 else 0) + (if 3 * n / 4 ≤ e then 1 else 0)) ∧
      rate (milestones 1) lr 0 = lr / 100 ∧ (2 ≤ n → rate (milestones n) lr 0 = lr) := by
  have key : ∀ (n e : ℕ), rate (milestones n) lr e = lr * (1 / 10) ^ ((if n / 2 ≤ e then 1 else 0) + (if 3 * n / 4 ≤ e then 1 else 0)) := by
    intro n e
    rw [milestones_eq]
    induction e with
    | zero =>
      simp only [rate, List.count_cons, List.count_nil, beq_iff_eq, Nat.le_zero]
      rw [zero_add, add_comm]
      norm_num
    | succ e ih =>
      rw [rate, ih, mul_assoc, show (0.1 : ℝ) = 1 / 10 by norm_num, ← pow_add]
      congr 2
      simp only [List.count_cons, List.count_nil, beq_iff_eq]
      split_ifs <;> omega
  refine ⟨key n e, ?_, fun hn => ?_⟩
  · rw [key]
    norm_num
    ring
  · rw [key, if_neg (by omega), if_neg (by omega)]
    simp

/-! ## Losses -/

/-- **C80 (the classification loss).** If the log-probabilities are `log (p(x, y) / p(x))` and the log-likelihoods `log p(x)`, for
positive joint probabilities, then the loss of a batch of pairs `(x, y)` is the mean of `-log p(y | x)` plus `nll_weight` times the mean of
`-log p(x)`; with weight one it is the mean negative log-likelihood of the pairs, the loss of a generative model of `(x, y)`. -/
theorem C80_classification_loss {Y : Type} (w : ℝ) (joint : Y → ℕ → ℝ) (marg : Y → ℝ) (xs : List (Y × ℕ)) (_hx : xs ≠ [])
    (hj : ∀ p ∈ xs, 0 < joint p.1 p.2) (hm : ∀ p ∈ xs, 0 < marg p.1) :
    batchLoss w (xs.map fun p => (fun y => Real.log (joint p.1 y / marg p.1), p.2)) (xs.map fun p => Real.log (marg p.1)) =
        (xs.map fun p => -Real.log (joint p.1 p.2 / marg p.1)).sum / xs.length +
          w * ((xs.map fun p => -Real.log (marg p.1)).sum / xs.length) ∧
      batchLoss 1 (xs.map fun p => (fun y => Real.log (joint p.1 y / marg p.1), p.2)) (xs.map fun p => Real.log (marg p.1)) =
        (xs.map fun p => -Real.log (joint p.1 p.2)).sum / xs.length ∧
      (xs.map fun p => -Real.log (joint p.1 p.2)).sum / xs.length = nllLoss (xs.map fun p => Real.log (joint p.1 p.2)) := by
  have hneg : ∀ (l : List (Y × ℕ)) (g : Y × ℕ → ℝ), (l.map fun p => -g p).sum = -(l.map g).sum := by
    intro l g
    induction l with
    | nil => simp
    | cons a l ih => simp only [List.map_cons, List.sum_cons, ih]; ring
  have h1 : ∀ w, batchLoss w (xs.map fun p => (fun y => Real.log (joint p.1 y / marg p.1), p.2)) (xs.map fun p => Real.log (marg p.1)) =
        (xs.map fun p => -Real.log (joint p.1 p.2 / marg p.1)).sum / xs.length +
          w * ((xs.map fun p => -Real.log (marg p.1)).sum / xs.length) := by
    intro w
    simp only [batchLoss, clsLoss, mean, List.map_map, Function.comp_def, List.length_map]
    rw [hneg xs fun p => Real.log (marg p.1)]
    ring
  have hsum : ∀ l : List (Y × ℕ), (∀ p ∈ l, 0 < joint p.1 p.2) → (∀ p ∈ l, 0 < marg p.1) →
      (l.map fun p => -Real.log (joint p.1 p.2 / marg p.1)).sum + (l.map fun p => -Real.log (marg p.1)).sum =
        (l.map fun p => -Real.log (joint p.1 p.2)).sum := by
    intro l
    induction l with
    | nil => simp
    | cons a l ih =>
      intro ha hb
      have := ih (fun p hp => ha p (List.mem_cons_of_mem _ hp)) fun p hp => hb p (List.mem_cons_of_mem _ hp)
      simp only [List.map_cons, List.sum_cons]
      rw [Real.log_div (ha a List.mem_cons_self).ne' (hb a List.mem_cons_self).ne']
      linarith
  refine ⟨h1 w, ?_, ?_⟩
  · rw [h1, one_mul, ← add_div, hsum xs hj hm]
  · simp only [nllLoss, mean, List.length_map]
    rw [hneg xs fun p => Real.log (joint p.1 p.2)]
    ring

/-! ## An example -/

/-- One number is trained: the loss is its distance from the data, an update moves it to the data. -/
noncomputable def exEnv : Env ℝ ℝ := ⟨fun s d => |s - d.1|, fun _ d => d.1, fun s => s⟩

/-- Two epochs over the batches 1, 3 with one validation batch. -/
noncomputable def exArgs : Args ℝ := ⟨2, true, false, false, fun _ => [.one 1, .seq [3]], some fun _ => [.one 2]⟩

theorem exArgs_ok : Ok exArgs (fun _ => [(1, none), (3, none)]) fun _ => [(2, none)] where
  epochs := by norm_num [exArgs]
  classifier := by simp [exArgs]
  data := by intro e; rfl
  valNone := by simp [exArgs]
  valSome := by
    intro v hv e _
    simp only [exArgs, Option.some.injEq] at hv
    subst hv
    exact ⟨rfl, by simp⟩
  verbose := by simp

theorem C80_example : ∃ st, train exEnv exArgs 0 false = (st, none) ∧ st.s = 3 ∧
    st.trace = [.step 1 1, .step 2 2, .valid 1 2, .epoch [1, 2] 0, .step 2 3, .step 2 4, .epoch [2, 2] 1] := by
  obtain ⟨st, h1, h2, h3, h4, h5⟩ := C80_training exEnv exArgs_ok 0 false
  refine ⟨st, h1, ?_, ?_⟩
  · rw [h2]
    rfl
  · rw [h5]
    have hn : exArgs.epochs.toNat = 2 := rfl
    rw [hn]
    simp only [List.range_succ, List.range_zero, List.nil_append, List.flatMap_append, List.flatMap_cons, List.flatMap_nil,
      List.append_nil, epochEvents, start, lossesOf, batches, exEnv, List.foldl_cons, List.foldl_nil, List.map_cons, List.map_nil,
      List.sum_cons, List.sum_nil, List.zipIdx_cons, List.zipIdx_nil, List.length_cons, List.length_nil]
    norm_num

end Gd
end Verif

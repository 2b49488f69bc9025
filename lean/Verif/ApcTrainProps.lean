import Verif.ApcTrain
import Mathlib.Algebra.BigOperators.Group.List.Basic

/-!
# C74: the objective and the training loop
-/

namespace Verif.Apc

variable {X Z : Type}

/-! ### Specification: the terms of one row -/

open Classical in
/-- The latent used by the likelihood term: the one returned with the statistics if these are needed. -/
noncomputable def rowLatent (c : Cfg) (E : Enc X Z) (x : X) : Z :=
  if 0 < c.w.kld ∨ c.decodeMpe = true then ((E.encodeStats x).getD (0, E.encode x, E.encode x)).2.1 else E.encode x

open Classical in
/-- Reconstruction error of a row, 0 if the term is switched off. -/
noncomputable def rowRec (c : Cfg) (E : Enc X Z) (x : X) : ℝ :=
  if 0 < c.w.recon then rowLoss c.loss (E.flat x)
    (E.decode (if c.decodeMpe then ((E.encodeStats x).getD (0, E.encode x, E.encode x)).2.2 else rowLatent c E x)) else 0

open Classical in
/-- Divergence of a row, 0 if the term is switched off. -/
noncomputable def rowKld (c : Cfg) (E : Enc X Z) (x : X) : ℝ :=
  if 0 < c.w.kld then ((E.encodeStats x).getD (0, E.encode x, E.encode x)).1 else 0

open Classical in
/-- Negative log-likelihood of a row, 0 if the term is switched off. -/
noncomputable def rowNll (c : Cfg) (E : Enc X Z) (x : X) : ℝ :=
  if 0 < c.w.nll then -(if c.joint then E.jointLL x (rowLatent c E x) else E.margLL x) else 0

/-- The objective of a row. -/
noncomputable def rowTotal (c : Cfg) (E : Enc X Z) (x : X) : ℝ :=
  c.w.recon * rowRec c E x + c.w.kld * rowKld c E x + c.w.nll * rowNll c E x

/-- The mean of a number per row. -/
noncomputable def mean (g : X → ℝ) (xs : List X) : ℝ := (xs.map g).sum / xs.length

/-- The means of the four terms. -/
noncomputable def means (c : Cfg) (E : Enc X Z) (xs : List X) : Metrics :=
  ⟨some (mean (rowRec c E) xs), some (mean (rowKld c E) xs), some (mean (rowNll c E) xs), some (mean (rowTotal c E) xs)⟩

open Classical in
/-- A row that can be evaluated: if statistics are needed, the encoder provides them; if the reconstruction is needed, its loss is
known and it has the size of the row. -/
def Usable (c : Cfg) (E : Enc X Z) (x : X) : Prop :=
  (0 < c.w.kld ∨ c.decodeMpe = true → (E.encodeStats x).isSome) ∧
  (0 < c.w.recon → (E.flat x).length = (E.decode (if c.decodeMpe then ((E.encodeStats x).getD (0, E.encode x, E.encode x)).2.2
    else rowLatent c E x)).length)

/-! ### The objective -/

theorem meanOf_eq {α : Type} (g : α → ℝ) {xs : List α} (h : xs ≠ []) : meanOf g xs = some ((xs.map g).sum / xs.length) :=
  if_neg (by simpa using h)

theorem sum_const_zero {α : Type} (xs : List α) : (xs.map fun _ => (0 : ℝ)).sum = 0 := by simp

theorem sum_lin {α : Type} (f g : α → ℝ) (a b : ℝ) (xs : List α) :
    (xs.map fun x => a * f x + b * g x).sum = a * (xs.map f).sum + b * (xs.map g).sum := by
  induction xs with
  | nil => simp
  | cons x xs ih => simp only [List.map_cons, List.sum_cons, ih]; ring

theorem mean_total (c : Cfg) (E : Enc X Z) (xs : List X) :
    mean (rowTotal c E) xs = c.w.recon * mean (rowRec c E) xs + c.w.kld * mean (rowKld c E) xs + c.w.nll * mean (rowNll c E) xs := by
  unfold mean rowTotal
  have h := sum_lin (fun x => c.w.recon * rowRec c E x + c.w.kld * rowKld c E x) (rowNll c E) 1 c.w.nll xs
  simp only [one_mul] at h
  rw [h, sum_lin]
  ring

open Classical in
/-- The latents and statistics when they are available. -/
noncomputable def stOf (c : Cfg) (E : Enc X Z) (x : X) : ℝ × Z × Z :=
  if 0 < c.w.kld ∨ c.decodeMpe = true then (E.encodeStats x).getD (0, E.encode x, E.encode x) else (0, E.encode x, E.encode x)

theorem stPart_ok (c : Cfg) (E : Enc X Z) {xs : List X} (h : ∀ x ∈ xs, 0 < c.w.kld ∨ c.decodeMpe = true → (E.encodeStats x).isSome) :
    stPart c E xs = .ok (stOf c E) := by
  unfold stPart
  by_cases hn : 0 < c.w.kld ∨ c.decodeMpe = true
  · rw [if_pos hn]
    unfold statsBatch
    rw [if_pos (by rw [List.all_eq_true]; exact fun x hx => h x hx hn)]
    congr 1
    funext x
    unfold stOf
    rw [if_pos hn]
  · rw [if_neg hn]
    congr 1
    funext x
    unfold stOf
    rw [if_neg hn]

theorem stOf_latent (c : Cfg) (E : Enc X Z) (x : X) : (stOf c E x).2.1 = rowLatent c E x := by
  unfold stOf rowLatent; split_ifs <;> rfl

theorem stOf_decode (c : Cfg) (E : Enc X Z) (x : X) : (if c.decodeMpe then (stOf c E x).2.2 else (stOf c E x).2.1) =
    if c.decodeMpe then ((E.encodeStats x).getD (0, E.encode x, E.encode x)).2.2 else rowLatent c E x := by
  by_cases hd : c.decodeMpe = true
  · rw [if_pos hd, if_pos hd]; unfold stOf; rw [if_pos (.inr hd)]
  · rw [if_neg hd, if_neg hd, stOf_latent]

/-- **The objective.** On a non-empty batch whose rows can be evaluated, every term is the mean of the terms of the rows, and `total`
is their weighted sum; a term of weight zero is 0. -/
theorem C74_components (c : Cfg) (E : Enc X Z) {xs : List X} (hne : xs ≠ []) (hl : 0 < c.w.recon → c.loss ≠ .other)
    (h : ∀ x ∈ xs, Usable c E x) : components c E xs = .ok (means c E xs) := by
  have hrec : recPart c E (stOf c E) xs = .ok (some (mean (rowRec c E) xs)) := by
    unfold recPart
    simp only [stOf_decode]
    by_cases hr : 0 < c.w.recon
    · rw [if_pos hr]
      unfold recLoss
      rw [if_neg (by
        rw [List.any_eq_true]
        rintro ⟨x, hx, hx'⟩
        have := (h x hx).2 hr
        beta_reduce at hx'
        simp only [decide_eq_true_eq] at hx'
        exact hx' this), if_neg (hl hr), meanOf_eq _ hne]
      unfold mean rowRec
      simp only [hr, if_true]
    · rw [if_neg hr]
      unfold mean rowRec
      simp only [hr, if_false, sum_const_zero, zero_div]
  have hnll : nllPart c E (stOf c E) xs = some (mean (rowNll c E) xs) := by
    unfold nllPart
    simp only [stOf_latent]
    by_cases hr : 0 < c.w.nll
    · rw [if_pos hr, meanOf_eq _ hne]
      unfold mean rowNll
      simp only [hr, if_true]
    · rw [if_neg hr]
      unfold mean rowNll
      simp only [hr, if_false, sum_const_zero, zero_div]
  have hkld : kldPart c (stOf c E) xs = some (mean (rowKld c E) xs) := by
    unfold kldPart
    by_cases hr : 0 < c.w.kld
    · rw [if_pos hr, meanOf_eq _ hne]
      unfold mean rowKld stOf
      simp only [hr, true_or, if_true]
    · rw [if_neg hr]
      unfold mean rowKld
      simp only [hr, if_false, sum_const_zero, zero_div]
  unfold components
  simp only [stPart_ok c E fun x hx => (h x hx).1, hrec, hnll, hkld]
  unfold means
  rw [mean_total]
  rfl

/-- Conversely `loss_components` raises on a batch with a row that cannot be evaluated. -/
theorem C74_components_raises (c : Cfg) (E : Enc X Z) {xs : List X} {x : X} (hx : x ∈ xs) (h : ¬ Usable c E x) :
    components c E xs = .error .unsupported ∨ components c E xs = .error .invalidParameter := by
  by_cases hs : (0 < c.w.kld ∨ c.decodeMpe = true) ∧ ¬ (xs.all fun x => (E.encodeStats x).isSome) = true
  · left
    unfold components stPart statsBatch
    rw [if_pos hs.1, if_neg hs.2]
  · have hall : ∀ x ∈ xs, 0 < c.w.kld ∨ c.decodeMpe = true → (E.encodeStats x).isSome := fun x hx hn => by
      by_contra hc
      exact hs ⟨hn, fun hall => hc ((List.all_eq_true.1 hall) x hx)⟩
    have hr : 0 < c.w.recon := by
      by_contra hr
      exact h ⟨hall x hx, fun hr' => absurd hr' hr⟩
    right
    have hrec : recPart c E (stOf c E) xs = .error .invalidParameter := by
      unfold recPart recLoss
      simp only [stOf_decode]
      rw [if_pos hr, if_pos]
      rw [List.any_eq_true]
      refine ⟨x, hx, ?_⟩
      beta_reduce
      rw [decide_eq_true_eq]
      exact fun hc => h ⟨hall x hx, fun _ => hc⟩
    unfold components
    simp only [stPart_ok c E hall, hrec]

/-- A term of weight zero is neither computed nor needed: the objective does not depend on the decoder, the likelihoods or the
statistics. -/
theorem C74_zero_weight_unused (c : Cfg) (E E' : Enc X Z) (xs : List X) (he : E.encode = E'.encode)
    (hrec : 0 < c.w.recon → E.flat = E'.flat ∧ E.decode = E'.decode)
    (hnll : 0 < c.w.nll → (c.joint = true → E.jointLL = E'.jointLL) ∧ (c.joint = false → E.margLL = E'.margLL))
    (hst : 0 < c.w.kld ∨ c.decodeMpe = true → E.encodeStats = E'.encodeStats) : components c E xs = components c E' xs := by
  have h1 : stPart c E xs = stPart c E' xs := by
    unfold stPart
    by_cases hn : 0 < c.w.kld ∨ c.decodeMpe = true
    · rw [if_pos hn, if_pos hn]
      unfold statsBatch
      rw [hst hn, he]
    · rw [if_neg hn, if_neg hn, he]
  have h2 : ∀ st, recPart c E st xs = recPart c E' st xs := fun st => by
    unfold recPart
    by_cases hr : 0 < c.w.recon
    · rw [if_pos hr, if_pos hr, (hrec hr).1, (hrec hr).2]
    · rw [if_neg hr, if_neg hr]
  have h3 : ∀ st, nllPart c E st xs = nllPart c E' st xs := fun st => by
    unfold nllPart
    by_cases hr : 0 < c.w.nll
    · rw [if_pos hr, if_pos hr]
      cases hj : c.joint with
      | true => simp only [if_true, (hnll hr).1 hj]
      | false => simp only [Bool.false_eq_true, if_false, (hnll hr).2 hj]
    · rw [if_neg hr, if_neg hr]
  unfold components
  simp only [h1, h2, h3]

/-! ### Evaluation -/

theorem mean_length {g : X → ℝ} {xs : List X} (h : xs ≠ []) : (xs.length : ℝ) * mean g xs = (xs.map g).sum := by
  unfold mean
  have : (xs.length : ℝ) ≠ 0 := by simpa using h
  field_simp

/-- Sums of the four terms. -/
noncomputable def sums (c : Cfg) (E : Enc X Z) (xs : List X) : Metrics :=
  ⟨some (xs.map (rowRec c E)).sum, some (xs.map (rowKld c E)).sum, some (xs.map (rowNll c E)).sum, some (xs.map (rowTotal c E)).sum⟩

theorem sums_addMul (c : Cfg) (E : Enc X Z) (xs : List X) {b : List X} (hb : b ≠ []) :
    (sums c E xs).addMul b.length (means c E b) = sums c E (xs ++ b) := by
  simp only [sums, means, Metrics.addMul, nadd, nmul, Option.map, Option.bind, mean_length hb, List.map_append, List.sum_append]

theorem evalLoop_ok (c : Cfg) (E : Enc X Z) (hl : 0 < c.w.recon → c.loss ≠ .other) :
    ∀ (bs : List (List X)) (xs : List X), (∀ b ∈ bs, b ≠ []) → (∀ b ∈ bs, ∀ x ∈ b, Usable c E x) →
      evalLoop (components c E) bs (sums c E xs, xs.length) = .ok (sums c E (xs ++ bs.flatten), (xs ++ bs.flatten).length)
  | [], xs, _, _ => by simp [evalLoop]
  | b :: bs, xs, h1, h2 => by
    rw [evalLoop, C74_components c E (h1 b (by simp)) hl (h2 b (by simp))]
    simp only
    rw [sums_addMul c E xs (h1 b (by simp)), ← List.length_append,
      evalLoop_ok c E hl bs (xs ++ b) (fun b' hb => h1 b' (by simp [hb])) fun b' hb => h2 b' (by simp [hb])]
    simp

/-- **Evaluation does not depend on the batching.** If there is a row, no batch is empty and every row can be evaluated,
`evaluate_apc` returns what `loss_components` returns for all rows as one batch: the means over all rows. The training mode is
restored. -/
theorem C74_evaluate (c : Cfg) (E : Enc X Z) (training : Bool) {bs : List (List X)} (h0 : bs ≠ []) (hne : ∀ b ∈ bs, b ≠ [])
    (hl : 0 < c.w.recon → c.loss ≠ .other) (h : ∀ b ∈ bs, ∀ x ∈ b, Usable c E x) :
    evaluate (components c E) training bs = (.ok (means c E bs.flatten), training) ∧
      components c E bs.flatten = .ok (means c E bs.flatten) := by
  have hfl : bs.flatten ≠ [] := by
    obtain ⟨b, bs', rfl⟩ := List.exists_cons_of_ne_nil h0
    have := hne b (by simp)
    simp [this]
  have hz : (Metrics.zero, 0) = (sums c E [], ([] : List X).length) := by simp [Metrics.zero, sums]
  refine ⟨?_, C74_components c E hfl hl fun x hx => ?_⟩
  · unfold evaluate
    rw [hz, evalLoop_ok c E hl bs [] hne h]
    simp only [List.nil_append]
    rw [if_neg (fun hc => hfl (List.length_eq_zero_iff.1 hc))]
    congr 2
    simp only [sums, means, Metrics.scale, nmul, Option.map, mean]
    congr 2 <;> ring
  · obtain ⟨b, hb, hx⟩ := List.mem_flatten.1 hx
    exact h b hb x hx

theorem chunks_spec {size : ℕ} (hs : 0 < size) : ∀ (k : ℕ) (xs : List X), xs.length ≤ k →
    (chunks size k xs).flatten = xs ∧ ∀ b ∈ chunks size k xs, b ≠ []
  | 0, xs, h => by
    have : xs = [] := List.length_eq_zero_iff.1 (by omega)
    subst this
    simp [chunks]
  | k + 1, xs, h => by
    rw [chunks]
    by_cases hx : xs.isEmpty = true
    · rw [if_pos hx]
      have : xs = [] := by simpa using hx
      simp [this]
    · rw [if_neg hx]
      have hx' : xs ≠ [] := by simpa using hx
      have hl : 0 < xs.length := List.length_pos_iff.2 hx'
      obtain ⟨h1, h2⟩ := chunks_spec hs k (xs.drop size) (by rw [List.length_drop]; omega)
      refine ⟨by rw [List.flatten_cons, h1, List.take_append_drop], fun b hb => ?_⟩
      rcases List.mem_cons.1 hb with rfl | hb
      · intro hc
        have := congrArg List.length hc
        rw [List.length_take, List.length_nil] at this
        omega
      · exact h2 b hb

/-- For a tensor of rows the result does not depend on `batch_size`, nor on the order of the rows. -/
theorem C74_evaluate_batch_size (c : Cfg) (E : Enc X Z) (training : Bool) {xs ys : List X} (hp : xs.Perm ys) (h0 : xs ≠ []) {s t : ℕ}
    (hs : 0 < s) (ht : 0 < t) (hl : 0 < c.w.recon → c.loss ≠ .other) (h : ∀ x ∈ xs, Usable c E x) :
    evaluate (components c E) training (loader s xs) = evaluate (components c E) training (loader t ys) := by
  have key : ∀ (zs : List X) (u : ℕ), 0 < u → zs ≠ [] → (∀ x ∈ zs, Usable c E x) →
      evaluate (components c E) training (loader u zs) = (.ok (means c E zs), training) := by
    intro zs u hu hz hz'
    obtain ⟨h1, h2⟩ := chunks_spec hu zs.length zs le_rfl
    have := (C74_evaluate c E training (bs := loader u zs) (fun hc => hz (by rw [← h1]; unfold loader at hc; rw [hc]; rfl)) h2 hl
      fun b hb x hx => hz' x (by rw [← h1]; exact List.mem_flatten.2 ⟨b, hb, hx⟩)).1
    rw [this]
    unfold loader
    rw [h1]
  have hy : ys ≠ [] := fun hc => h0 (by rw [hc] at hp; exact hp.eq_nil)
  rw [key xs s hs h0 h, key ys t ht hy fun x hx => h x (hp.mem_iff.2 hx)]
  unfold means mean
  rw [hp.length_eq, (hp.map (rowRec c E)).sum_eq, (hp.map (rowKld c E)).sum_eq, (hp.map (rowNll c E)).sum_eq,
    (hp.map (rowTotal c E)).sum_eq]

theorem evalLoop_nan (c : Cfg) (E : Enc X Z) : ∀ (bs : List (List X)) (s : Metrics × ℕ) (t : Metrics × ℕ), s.1.total = none →
    evalLoop (components c E) bs s = .ok t → t.1.total = none
  | [], s, t, hs, h => by simp only [evalLoop, Except.ok.injEq] at h; rw [← h]; exact hs
  | b :: bs, s, t, hs, h => by
    rw [evalLoop] at h
    cases hc : components c E b with
    | error e => rw [hc] at h; cases h
    | ok m =>
      rw [hc] at h
      refine evalLoop_nan c E bs _ t ?_ h
      simp [Metrics.addMul, nadd, hs]

theorem components_empty (c : Cfg) (E : Enc X Z) (hw : 0 < c.w.recon ∨ 0 < c.w.kld ∨ 0 < c.w.nll) {m : Metrics}
    (h : components c E [] = .ok m) : m.total = none := by
  unfold components at h
  rw [stPart_ok c E (by simp)] at h
  simp only at h
  cases hr : recPart c E (stOf c E) [] with
  | error e => rw [hr] at h; cases h
  | ok r =>
    rw [hr] at h
    simp only [Except.ok.injEq] at h
    rw [← h]
    rcases hw with hw | hw | hw
    · have : r = none := by
        unfold recPart recLoss at hr
        rw [if_pos hw, if_neg (by simp)] at hr
        by_cases ho : c.loss = .other
        · rw [if_pos ho] at hr; cases hr
        · rw [if_neg ho] at hr
          simp only [Except.ok.injEq] at hr
          rw [← hr]; rfl
      rw [this]; rfl
    · have : kldPart c (stOf c E) [] = none := by
        unfold kldPart
        rw [if_pos hw]; rfl
      simp [this, nadd, nmul]
    · have : nllPart c E (stOf c E) [] = none := by
        unfold nllPart
        rw [if_pos hw]; rfl
      simp [this, nadd, nmul]

/-- An empty batch anywhere makes the mean objective NaN (unless all weights are 0), although it contributes no row. -/
theorem C74_empty_batch_nan (c : Cfg) (E : Enc X Z) (hw : 0 < c.w.recon ∨ 0 < c.w.kld ∨ 0 < c.w.nll) (training : Bool)
    {bs : List (List X)} (he : [] ∈ bs) {m : Metrics} (h : (evaluate (components c E) training bs).1 = .ok m) : m.total = none := by
  have key : ∀ (bs : List (List X)) (s t : Metrics × ℕ), [] ∈ bs → evalLoop (components c E) bs s = .ok t → t.1.total = none := by
    intro bs
    induction bs with
    | nil => intro s t he; cases he
    | cons b bs ih =>
      intro s t he h
      rw [evalLoop] at h
      cases hc : components c E b with
      | error e => rw [hc] at h; cases h
      | ok m =>
        rw [hc] at h
        rcases List.mem_cons.1 he with rfl | he
        · refine evalLoop_nan c E bs _ t ?_ h
          have := components_empty c E hw hc
          simp only [Metrics.addMul, this, nmul, Option.map_none]
          cases s.1.total <;> rfl
        · exact ih _ t he h
  unfold evaluate at h
  cases hc : evalLoop (components c E) bs (Metrics.zero, 0) with
  | error e => rw [hc] at h; cases h
  | ok t =>
    obtain ⟨t, n⟩ := t
    rw [hc] at h
    simp only at h
    split_ifs at h
    simp only [Except.ok.injEq] at h
    rw [← h]
    have := key bs _ _ he hc
    simp only at this
    simp [Metrics.scale, this, nmul]

/-- No batches: InvalidParameterError, and the training mode is restored. -/
theorem C74_evaluate_empty (loss : List X → Except Exc Metrics) (training : Bool) :
    evaluate loss training [] = (.error .invalidParameter, training) := rfl

/-- An error while evaluating leaves the model in evaluation mode, also if it was training. -/
theorem C74_error_leaves_eval_mode (loss : List X → Except Exc Metrics) (training : Bool) (b : List X) (bs : List (List X)) {e : Exc}
    (h : loss b = .error e) : evaluate loss training (b :: bs) = (.error e, false) := by
  unfold evaluate
  rw [evalLoop, h]

/-! ### Training -/

variable {σ : Type}

/-- The parameters after the batches of an epoch. -/
def afterEpoch (step : σ → List X → σ) (p : σ) (bs : List (List X)) : σ := bs.foldl step p

/-- The losses of the batches of an epoch, each at the parameters before its own step, with the sizes of the batches. -/
def epochLosses (loss : σ → List X → Except Exc Metrics) (step : σ → List X → σ) : σ → List (List X) → List (ℕ × Except Exc Metrics)
  | _, [] => []
  | p, b :: bs => (b.length, loss p b) :: epochLosses loss step (step p b) bs

/-- The sum of the losses weighted by the batch sizes; an error if one of them is. -/
noncomputable def weighted : List (ℕ × Except Exc Metrics) → Except Exc Metrics
  | [] => .ok Metrics.zero
  | (_, .error e) :: _ => .error e
  | (n, .ok m) :: l => match weighted l with
    | .error e => .error e
    | .ok t => .ok (t.addMul n m)

theorem nadd_comm (x y : Option ℝ) : nadd x y = nadd y x := by
  cases x <;> cases y <;> simp [nadd, add_comm]

theorem nadd_assoc (x y z : Option ℝ) : nadd (nadd x y) z = nadd x (nadd y z) := by
  cases x <;> cases y <;> cases z <;> simp [nadd, add_assoc]

theorem nadd_zero (x : Option ℝ) : nadd x (some 0) = x := by cases x <;> simp [nadd]

/-- Adding metrics. -/
noncomputable def Metrics.add (s t : Metrics) : Metrics :=
  ⟨nadd s.recon t.recon, nadd s.kld t.kld, nadd s.nll t.nll, nadd s.total t.total⟩

theorem add_zero' (s : Metrics) : s.add Metrics.zero = s := by
  simp [Metrics.add, Metrics.zero, nadd_zero]

theorem zero_add' (s : Metrics) : Metrics.zero.add s = s := by
  simp [Metrics.add, Metrics.zero, nadd_comm (some 0), nadd_zero]

theorem addMul_add (s t : Metrics) (n : ℕ) (m : Metrics) : (s.addMul n m).add t = s.add (t.addMul n m) := by
  simp only [Metrics.add, Metrics.addMul, nadd_assoc, nadd_comm (nmul _ _)]

theorem trainLoop_eq (loss : σ → List X → Except Exc Metrics) (step : σ → List X → σ) : ∀ (bs : List (List X)) (p : σ) (s : Metrics) (n : ℕ),
    trainLoop loss step bs (p, s, n) = match weighted (epochLosses loss step p bs) with
      | .error e => .error e
      | .ok t => .ok (afterEpoch step p bs, s.add t, n + (bs.map List.length).sum)
  | [], p, s, n => by simp [trainLoop, epochLosses, weighted, afterEpoch, add_zero']
  | b :: bs, p, s, n => by
    rw [trainLoop, epochLosses]
    cases hl : loss p b with
    | error e => simp [weighted]
    | ok m =>
      simp only [weighted]
      rw [trainLoop_eq loss step bs]
      cases weighted (epochLosses loss step (step p b) bs) with
      | error e => rfl
      | ok t =>
        simp only [Except.ok.injEq, Prod.mk.injEq, addMul_add, true_and]
        exact ⟨rfl, by simp [Nat.add_assoc]⟩

/-- **The history of `fit_apc`.** If it returns: there is one entry per epoch, numbered from 1; entry `i` contains the mean training
loss of the batches read in that epoch, each loss taken at the parameters before its own optimiser step and weighted by the batch
size, and the evaluation of the validation data at the parameters at the end of the epoch; the model ends with the parameters after
all steps. -/
theorem C74_fit (loss : σ → List X → Except Exc Metrics) (step : σ → List X → σ) (size : ℕ) (perm : ℕ → List X → List X)
    (train : Source X) (val : Option (Source X)) (epochs : ℕ) (p : σ) {q : σ} {hist : List Entry}
    (h : fit loss step size perm train val epochs p = .ok (q, hist)) :
    hist.length = epochs ∧ ∃ ps : ℕ → σ, ps 0 = p ∧ ps epochs = q ∧
      (∀ i < epochs, ps (i + 1) = afterEpoch step (ps i) (train.batches size perm i)) ∧
      ∀ i (hi : i < hist.length), hist[i].epoch = i + 1 ∧
        (∃ t, weighted (epochLosses loss step (ps i) (train.batches size perm i)) = .ok t ∧
          0 < ((train.batches size perm i).map List.length).sum ∧
          hist[i].train = t.scale ((train.batches size perm i).map List.length).sum) ∧
        match val with
        | none => hist[i].val = none
        | some v => ∃ m, hist[i].val = some m ∧ (evaluate (loss (ps (i + 1))) true (v.batches size (fun _ xs => xs) i)).1 = .ok m := by
  have key : ∀ (k e : ℕ) (p q : σ) (hist : List Entry), fitFrom loss step size perm train val e k p = .ok (q, hist) →
      hist.length = k ∧ ∃ ps : ℕ → σ, ps 0 = p ∧ ps k = q ∧
      (∀ i < k, ps (i + 1) = afterEpoch step (ps i) (train.batches size perm (e + i))) ∧
      ∀ i (hi : i < hist.length), hist[i].epoch = e + i + 1 ∧
        (∃ t, weighted (epochLosses loss step (ps i) (train.batches size perm (e + i))) = .ok t ∧
          0 < ((train.batches size perm (e + i)).map List.length).sum ∧
          hist[i].train = t.scale ((train.batches size perm (e + i)).map List.length).sum) ∧
        match val with
        | none => hist[i].val = none
        | some v => ∃ m, hist[i].val = some m ∧ (evaluate (loss (ps (i + 1))) true (v.batches size (fun _ xs => xs) (e + i))).1 = .ok m := by
    intro k
    induction k with
    | zero =>
      intro e p q hist h
      simp only [fitFrom, Except.ok.injEq, Prod.mk.injEq] at h
      obtain ⟨rfl, rfl⟩ := h
      exact ⟨rfl, fun _ => p, rfl, rfl, by simp, by simp⟩
    | succ k ih =>
      intro e p q hist h
      rw [fitFrom, trainLoop_eq] at h
      cases hw : weighted (epochLosses loss step p (train.batches size perm e)) with
      | error err => rw [hw] at h; cases h
      | ok t =>
        rw [hw] at h
        simp only [Nat.zero_add, zero_add'] at h
        by_cases hn : ((train.batches size perm e).map List.length).sum = 0
        · rw [if_pos hn] at h; cases h
        · rw [if_neg hn] at h
          cases hv : valPart loss size val e (afterEpoch step p (train.batches size perm e)) with
          | error err => rw [hv] at h; cases h
          | ok v =>
            rw [hv] at h
            simp only at h
            cases hf : fitFrom loss step size perm train val (e + 1) k (afterEpoch step p (train.batches size perm e)) with
            | error err => rw [hf] at h; cases h
            | ok r =>
              obtain ⟨q', hist'⟩ := r
              rw [hf] at h
              simp only [Except.ok.injEq, Prod.mk.injEq] at h
              obtain ⟨rfl, rfl⟩ := h
              obtain ⟨l1, ps, p0, pk, pstep, pent⟩ := ih (e + 1) _ _ _ hf
              refine ⟨by simp [l1], fun i => if i = 0 then p else ps (i - 1), rfl, by simpa using pk, fun i hi => ?_, fun i hi => ?_⟩
              · cases i with
                | zero => simpa using p0
                | succ i =>
                  have := pstep i (by omega)
                  simp only [Nat.add_one_ne_zero, if_false, Nat.add_sub_cancel]
                  rw [this, show e + 1 + i = e + (i + 1) by omega]
              · cases i with
                | zero =>
                  refine ⟨rfl, ⟨t, hw, Nat.pos_of_ne_zero hn, rfl⟩, ?_⟩
                  simp only [List.getElem_cons_zero, Nat.add_zero, Nat.zero_add, one_ne_zero, if_false, Nat.sub_self, p0]
                  cases val with
                  | none => simp only [valPart, Except.ok.injEq] at hv; exact hv.symm
                  | some src =>
                    simp only [valPart] at hv
                    simp only
                    cases hev : (evaluate (loss (afterEpoch step p (train.batches size perm e))) true (src.batches size (fun _ xs => xs) e)).1 with
                    | error err => rw [hev] at hv; cases hv
                    | ok m =>
                      rw [hev] at hv
                      simp only [Except.ok.injEq] at hv
                      exact ⟨m, hv.symm, rfl⟩
                | succ i =>
                  have hi' : i < hist'.length := by simpa using hi
                  obtain ⟨a, b, c⟩ := pent i hi'
                  simp only [List.getElem_cons_succ, Nat.add_one_ne_zero, if_false, Nat.add_sub_cancel]
                  rw [show e + 1 + i = e + (i + 1) by omega] at a b c
                  exact ⟨by rw [a], b, c⟩
  obtain ⟨a, ps, b, c, d, f⟩ := key epochs 0 p q hist h
  simp only [Nat.zero_add] at d f
  exact ⟨a, ps, b, c, d, f⟩

theorem fitFrom_error (loss : σ → List X → Except Exc Metrics) (step : σ → List X → σ) (size : ℕ) (perm : ℕ → List X → List X)
    (train : Source X) (val : Option (Source X)) (k : ℕ) (p : σ)
    (h : ∀ q, ∃ e, fitFrom loss step size perm train val 1 (k + 1) q = .error e) :
    ∃ e, fit loss step size perm train val (k + 2) p = .error e := by
  unfold fit
  rw [fitFrom]
  cases trainLoop loss step (train.batches size perm 0) (p, Metrics.zero, 0) with
  | error e => exact ⟨e, rfl⟩
  | ok r =>
    obtain ⟨p', t, n⟩ := r
    simp only
    split_ifs
    · exact ⟨_, rfl⟩
    · cases valPart loss size val 0 p' with
      | error e => exact ⟨e, rfl⟩
      | ok v =>
        obtain ⟨e, he⟩ := h p'
        simp only
        rw [he]
        exact ⟨e, rfl⟩

/-- A generator of training or validation batches works for one epoch only: with two or more epochs `fit_apc` always raises, after
having trained for an epoch. -/
theorem C74_generator_raises (loss : σ → List X → Except Exc Metrics) (step : σ → List X → σ) (size : ℕ) (perm : ℕ → List X → List X)
    (train : Source X) (val : Option (Source X)) (bs : List (List X)) (k : ℕ) (p : σ)
    (h : train = .generator bs ∨ val = some (.generator bs)) :
    ∃ e, fit loss step size perm train val (k + 2) p = .error e := by
  refine fitFrom_error loss step size perm train val k p fun q => ?_
  rw [fitFrom]
  rcases h with rfl | rfl
  · rw [show (Source.generator bs).batches size perm 1 = [] from rfl, trainLoop]
    exact ⟨_, rfl⟩
  · cases trainLoop loss step (train.batches size perm 1) (q, Metrics.zero, 0) with
    | error e => exact ⟨e, rfl⟩
    | ok r =>
      obtain ⟨p', t, n⟩ := r
      simp only
      split_ifs
      · exact ⟨_, rfl⟩
      · rw [show valPart loss size (some (Source.generator bs)) 1 p' = .error .invalidParameter from rfl]
        exact ⟨_, rfl⟩

end Verif.Apc

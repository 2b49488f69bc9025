import Verif.ElemSumSample

/-!
# Sampling from an `ElementwiseSum` (C66)

What `sample()` and `sample_with_evidence()` return, from the refinement `sample_emb`.
-/

namespace Verif.ESum
open Verif Verif.Circ Verif.Prog

/-- Density of a row: product over the features of output channel 0 in repetition 0. -/
noncomputable def likelihood (e : ES) (x : Row) : ℝ := ∏ f ∈ Finset.range e.F, expL (e.val f x 0 0)

/-- The inputs are well formed circuits that can be sampled in repetition 0. -/
structure Inputs (e : ES) : Prop where
  al : ∀ c ∈ e.cs, Aligned c
  pos : ∀ c ∈ e.cs, PosCh c
  rep : ∀ c ∈ e.cs, RepS 0 c
  rep' : 0 < e.R

theorem likelihood_emb {e : ES} (h : Ready e) (hi : Inputs e) (x : Row) :
    Circ.likelihood (emb e) x = likelihood e x := by
  have hC := Cin_pos h hi.pos
  unfold Circ.likelihood likelihood
  rw [emb_F h hC]
  refine Finset.prod_congr rfl fun f hf => ?_
  rw [emb_val h (Finset.mem_range.1 hf) (Nat.mul_pos h.co hC)]

theorem scope_emb {e : ES} (h : Ready e) (hi : Inputs e) {c : Circ} (hc : c ∈ e.cs) (v : Var) :
    v ∈ (scope (emb e)).query ↔ v ∈ (scope c).query := by
  have hC := Cin_pos h hi.pos
  rw [mem_scope_iff (emb_accepted h hC), mem_scope_iff (h.acc c hc), emb_F h hC, ES.F, feats_eq h.fit.features hc]
  simp only [emb_fscope h hi.rep' hi.al hc]

theorem completes_emb {e : ES} (h : Ready e) (hi : Inputs e) {c : Circ} (hc : c ∈ e.cs) {y x : Row} :
    Completes (emb e) y x ↔ Completes c y x := by
  unfold Completes
  simp only [scope_emb h hi hc]

theorem emb_pos {e : ES} (hi : Inputs e) : PosCh (emb e) := fun i => hi.pos _ (List.get_mem _ i)

theorem emb_rep {e : ES} (hi : Inputs e) : RepS 0 (emb e) := ⟨fun i => hi.rep _ (List.get_mem _ i), hi.rep'⟩

/-- No Sum unit of the inputs and no unit of the module itself has probability zero on row `y`. -/
structure Alive (e : ES) (y : Row) : Prop where
  inputs : ∀ c ∈ e.cs, Live y 0 c
  own : ∀ f < e.F, ∀ ch < e.C, e.val f y 0 ch ≠ ⊥

theorem emb_live {e : ES} (h : Ready e) (hi : Inputs e) {y : Row} (ha : Alive e y) : Live y 0 (emb e) := by
  have hC := Cin_pos h hi.pos
  refine ⟨fun i => ha.inputs _ (List.get_mem _ i), fun f hf ch hch => ?_⟩
  rw [cat_F h hC] at hf
  have := emb_val h hf hch y 0
  unfold emb at this
  rw [this]
  exact ha.own f hf ch hch

/-- At the root the routed channel is 0, which every input has. -/
theorem root_emb {ev : Option Row} {e : ES} (h : Ready e) (hi : Inputs e) (hev : ∀ y, ev = some y → Alive e y)
    (y : Row) (g : Row → ENNReal) :
    (e.sample ev 0 (fun _ => 0) (fun _ => true) y).E g =
      (Circ.sample ev 0 (emb e) (fun _ => 0) (fun _ => true) y).E g := by
  have hC := Cin_pos h hi.pos
  refine sample_emb h ⟨hi.pos, hi.rep, hi.rep', fun c hc y hy => (hev y hy).inputs c hc⟩
    (fun f _ => Nat.mul_pos h.co hC) (fun f _ c hc => ?_) y g
  rw [Nat.zero_div]
  exact posC (h.acc c hc) (hi.pos c hc)

/-- **C66 (unconditional sampling).** `sample()` returns the complete row `x` with exactly the density the module assigns
to `x` (as a probability for discrete leaves). -/
theorem C66_sample_law {e : ES} (h : Ready e) (hi : Inputs e) {c : Circ} (hc : c ∈ e.cs) (x : Row)
    (hx : Completes c (fun _ => none) x) :
    (e.sampleData fun _ => none).prob x = ENNReal.ofReal (likelihood e x) := by
  have hC := Cin_pos h hi.pos
  have := C14_unconditional_partial (emb_accepted h hC) (emb_aligned h hi.rep' hi.al) (emb_pos hi) (emb_rep hi) x
    ((completes_emb h hi hc).2 hx)
  rw [likelihood_emb h hi] at this
  rw [← this]
  exact root_emb h hi (fun y hy => by cases hy) _ _

/-- **C66 (conditional sampling).** `sample_with_evidence(y)` returns the completion `x` of `y` with probability
`p(x) / p(y)`. -/
theorem C66_sample_conditional {e : ES} (h : Ready e) (hi : Inputs e) {c : Circ} (hc : c ∈ e.cs) (y : Row)
    (ha : Alive e y) (x : Row) (hx : Completes c y x) :
    (e.sampleWithEvidence y).prob x = ENNReal.ofReal (likelihood e x / likelihood e y) := by
  have hC := Cin_pos h hi.pos
  have hne : Circ.likelihood (emb e) y ≠ 0 := by
    rw [likelihood_emb h hi]
    refine Finset.prod_ne_zero_iff.2 fun f hf => ?_
    intro h0
    exact ha.own f (Finset.mem_range.1 hf) 0 (Nat.mul_pos h.co hC) ((expL_eq_zero_iff _).1 h0)
  have := C14_conditional_partial (emb_accepted h hC) (emb_aligned h hi.rep' hi.al) (emb_pos hi) (emb_rep hi) y
    (emb_live h hi ha) hne x ((completes_emb h hi hc).2 hx)
  rw [likelihood_emb h hi, likelihood_emb h hi] at this
  rw [← this]
  exact root_emb h hi (fun y' hy => by cases hy; exact ha) _ _

/-- The owned sampler of every input never raises and fills exactly its selected features. -/
theorem sample_frames {ev : Option Row} {r : ℕ} {e : ES} (h : Ready e) (hal : ∀ c ∈ e.cs, Aligned c)
    (hs : Sampleable ev r e) (hev : ∀ y, ev = some y → ∀ f < e.F, ∀ ch < e.C, e.val f y r ch ≠ ⊥) {ch : ℕ → ℕ}
    (mask : ℕ → Bool) (hch : ∀ f < e.F, ch f < e.C) (hin : ∀ f < e.F, ∀ c ∈ e.cs, ch f / e.Co < C c) {c : Circ}
    (hc : c ∈ e.cs) : NoFail (e.sample ev r ch mask) ∧ Frames (e.sample ev r ch mask) (act c mask) := by
  have hC := Cin_pos h hs.pos
  have hR : 1 ≤ e.R := Nat.lt_of_le_of_lt (Nat.zero_le _) hs.rep'
  have e2 : ∀ y, e.sample ev r ch mask y = (pickAll e.cs.length (e.logits ev r ch) e.F).bind fun sel =>
      seqAll (List.ofFn fun i : Fin e.cs.length =>
        Circ.sample ev r e.cs[i] (fun f => ch f / e.Co) (fun f => mask f && sel f == i)) y := by
    intro y
    unfold ES.sample
    have hall : ((List.range e.F).all fun f => decide (ch f < e.C)) = true := by simpa using hch
    rw [validCtx_of (show 1 ≤ e.C from Nat.mul_pos h.co hC) hch hs.rep', hall]
    simp only [Bool.not_true, Bool.false_eq_true, if_false, mapIdx_ofFn]
  have hsub : ∀ (i : Fin e.cs.length) (m : ℕ → Bool),
      NoFail (Circ.sample ev r e.cs[i] (fun f => ch f / e.Co) m) ∧
      Frames (Circ.sample ev r e.cs[i] (fun f => ch f / e.Co) m) (act e.cs[i] m) := by
    intro i m
    have hm : e.cs[i] ∈ e.cs := List.getElem_mem i.2
    refine sample_ok (h.acc _ hm) (hal _ hm) (hs.pos _ hm) (hs.rep _ hm) (hs.ev _ hm) _ _ fun f hf => ?_
    exact hin f (by rw [ES.F, feats_eq h.fit.features hm]; exact hf) _ hm
  have hnd : ∀ f < e.F, ¬ Dead e.cs.length (e.logits ev r ch f) := by
    intro f hf hd
    obtain ⟨hd1, hd2⟩ := div_lt_Cin (hch f hf)
    cases ev with
    | none =>
      obtain ⟨i, hi, hne⟩ := h.live f hf _ hd1 _ hd2 r hs.rep'
      exact hne (hd i hi)
    | some x =>
      have hl := hev x rfl f hf (ch f) (hch f hf)
      rw [Ne, ← expL_eq_zero_iff, expL_val (hch f hf), bc_of_lt hs.rep'] at hl
      apply hl
      refine Finset.sum_eq_zero fun i _ => ?_
      have := hd i i.2
      simp only [ES.logits] at this
      rw [← expL_eq_zero_iff, expL_logSoftmax, div_eq_zero_iff] at this
      have h0 : expL (e.θ f (ch f / e.Co) (ch f % e.Co) i r + e.inAt f x r i (ch f / e.Co)) = 0 := by
        rcases this with h0 | h0
        · exact h0
        · exact (Finset.sum_eq_zero_iff_of_nonneg fun i _ => expL_nonneg _).1 h0 i (Finset.mem_range.2 i.2)
      rw [expL_add, mul_eq_zero, inAt_eq i.2 hd1] at h0
      rcases h0 with h0 | h0
      · unfold ES.weight; rw [softmax_eq, h0]; simp
      · exact mul_eq_zero_of_right _ h0
  constructor
  · intro y
    rw [e2]
    refine not_fails_bind (pickAll_noFail hnd) fun sel _ => ?_
    apply seqAll_noFail
    intro s hs'
    rw [List.mem_ofFn] at hs'
    obtain ⟨i, rfl⟩ := hs'
    exact (hsub i _).1
  · intro y z ho
    rw [e2, outcome_bind] at ho
    obtain ⟨sel, h1, h2⟩ := ho
    have hset : act c mask = {v | ∃ A ∈ List.ofFn fun i : Fin e.cs.length =>
        act e.cs[i] (fun f => mask f && sel f == i), v ∈ A} := by
      ext v
      simp only [List.mem_ofFn, Set.mem_ofPred_eq]
      have hfs : ∀ (i : Fin e.cs.length) f, fscope e.cs[i] f = fscope c f := fun i f => by
        rw [← emb_fscope h hR hal hc, emb_fscope h hR hal (List.getElem_mem i.2)]; rfl
      have hFs : ∀ i : Fin e.cs.length, Circ.F e.cs[i] = Circ.F c := fun i =>
        h.fit.features _ (List.getElem_mem i.2) _ hc
      constructor
      · rintro ⟨f, hf, hm, hv⟩
        have hlt := pickAll_outcome h1 f (by rw [ES.F, feats_eq h.fit.features hc]; exact hf)
        refine ⟨_, ⟨⟨sel f, hlt⟩, rfl⟩, f, ?_, by simp [hm], ?_⟩
        · rw [hFs]; exact hf
        · rw [hfs]; exact hv
      · rintro ⟨_, ⟨i, rfl⟩, f, hf, hm, hv⟩
        simp only [Bool.and_eq_true] at hm
        exact ⟨f, by rw [hFs] at hf; exact hf, hm.1, by rw [hfs] at hv; exact hv⟩
    rw [hset]
    refine seqAll_frames ?_ y z h2
    rw [List.forall₂_iff_get]
    refine ⟨by simp, fun i h1 h2 => ?_⟩
    simpa using (hsub ⟨i, by simpa using h1⟩ _).2

/-- **C66 (completeness of sampling).** `sample(data=y)` raises nothing, keeps every present cell and every cell outside the
scope, and fills every missing cell of the scope; and so does `sample_with_evidence(y)` when no unit has probability zero
on `y`. -/
theorem C66_sample_fills {e : ES} (h : Ready e) (hi : Inputs e) {c : Circ} (hc : c ∈ e.cs) (y : Row) :
    (¬ Fails (e.sampleData y) ∧ ∀ z, Outcome (e.sampleData y) z → Completes c y z) ∧
    (Alive e y → ¬ Fails (e.sampleWithEvidence y) ∧ ∀ z, Outcome (e.sampleWithEvidence y) z → Completes c y z) := by
  have hC := Cin_pos h hi.pos
  have key : ∀ ev : Option Row, (∀ y, ev = some y → Alive e y) →
      ¬ Fails (e.sample ev 0 (fun _ => 0) (fun _ => true) y) ∧
      ∀ z, Outcome (e.sample ev 0 (fun _ => 0) (fun _ => true) y) z → Completes c y z := by
    intro ev hev
    obtain ⟨h1, h2⟩ := sample_frames h hi.al ⟨hi.pos, hi.rep, hi.rep', fun c hc y hy => (hev y hy).inputs c hc⟩
      (fun y hy => (hev y hy).own) (ch := fun _ => 0) (fun _ => true) (fun f _ => Nat.mul_pos h.co hC)
      (fun f _ c hc => by rw [Nat.zero_div]; exact posC (h.acc c hc) (hi.pos c hc)) hc
    refine ⟨h1 y, fun z hz => ?_⟩
    obtain ⟨a, b⟩ := h2 y z hz
    refine ⟨fun v hv => a v ((mem_act_all (h.acc c hc) v).2 hv), fun v t hv => ?_, fun v hv => ?_⟩
    · rw [← hv]; exact b v fun hh => by simp [hv] at hh
    · exact b v fun hh => hv ((mem_act_all (h.acc c hc) v).1 hh.1)
  exact ⟨key none (fun y hy => by cases hy), fun ha => key (some y) (fun y' hy => by cases hy; exact ha)⟩

/-! ## One-channel inputs: `log_likelihood` repeats them, `sample` does not -/

theorem fails_or_outcome {α : Type} (p : Prog α) : Fails p ∨ ∃ a, Outcome p a := by
  induction p with
  | ret a => exact .inr ⟨a, .ret⟩
  | fail e => exact .inl .fail
  | choose n l k ih =>
    by_cases hd : Dead n l
    · exact .inl (.dead hd)
    · have hn : 0 < n := by
        by_contra h0
        exact hd fun i hi => absurd hi (by omega)
      rcases ih 0 with h | ⟨a, h⟩
      · exact .inl (.choose hn h)
      · exact .inr ⟨a, .choose hd hn h⟩
  | draw d k ih =>
    rcases ih 0 with h | ⟨a, h⟩
    · exact .inl (.draw (t := 0) h)
    · exact .inr ⟨a, .draw (t := 0) h⟩

theorem fails_bind_left {α β : Type} {p : Prog α} {g : α → Prog β} (h : Fails p) : Fails (p.bind g) := by
  induction h with
  | fail => exact .fail
  | dead hd => exact .dead hd
  | choose hi _ ih => exact .choose hi ih
  | draw _ ih => exact .draw ih

theorem fails_bind_right {α β : Type} {p : Prog α} {g : α → Prog β} {a : α} (h : Outcome p a) (hg : Fails (g a)) :
    Fails (p.bind g) := by
  induction h with
  | ret => exact hg
  | choose hd hi _ ih => exact .choose hi (ih hg)
  | draw _ ih => exact .draw (ih hg)

theorem seqAll_fails {l : List (Row → Prog Row)} {s : Row → Prog Row} (hs : s ∈ l) (hf : ∀ y, Fails (s y)) :
    ∀ y, Fails (seqAll l y) := by
  induction l with
  | nil => simp at hs
  | cons t l ih =>
    intro y
    rw [seqAll]
    rcases List.mem_cons.1 hs with rfl | hs
    · exact fails_bind_left (hf y)
    · rcases fails_or_outcome (t y) with h | ⟨a, h⟩
      · exact fails_bind_left h
      · exact fails_bind_right h (ih hs a)

theorem sample_bad_channel {ev : Option Row} {r : ℕ} {c : Circ} {ch : ℕ → ℕ} {mask : ℕ → Bool} {f : ℕ}
    (hf : f < Circ.F c) (hm : mask f = true) (hbad : Circ.C c ≤ ch f) (y : Row) :
    Fails (Circ.sample ev r c ch mask y) := by
  have hv : validCtx (Circ.F c) (Circ.C c) (Circ.R c) ch mask r = false := by
    rw [Bool.eq_false_iff]
    intro ht
    unfold validCtx at ht
    simp only [Bool.and_eq_true, List.all_eq_true, List.mem_range, Bool.or_eq_true, Bool.not_eq_true',
      decide_eq_true_eq] at ht
    rcases ht.1.2 f hf with h | h
    · rw [hm] at h; cases h
    · omega
  cases c with
  | leaf q C R d =>
    rw [Circ.sample]; beta_reduce; rw [show validCtx q.length C R ch mask r = false from hv]; exact .fail
  | cat1 n cs => rw [Circ.sample]; beta_reduce; rw [hv]; exact .fail
  | cat2 n cs => rw [Circ.sample]; beta_reduce; rw [hv]; exact .fail
  | prod c => rw [Circ.sample]; beta_reduce; rw [show validCtx 1 (Circ.C c) (Circ.R c) ch mask r = false from hv]; exact .fail
  | sum c Co R θ => rw [Circ.sample]; beta_reduce; rw [show validCtx (Circ.F c) Co R ch mask r = false from hv]; exact .fail

theorem pickAll_any {n : ℕ} {l : ℕ → ℕ → LogV} {Fn : ℕ} (hl : ∀ f < Fn, ¬ Dead n (l f)) {f0 i : ℕ} (hf0 : f0 < Fn)
    (hi : i < n) : ∃ sel, Outcome (pickAll n l Fn) sel ∧ sel f0 = i := by
  induction Fn with
  | zero => omega
  | succ Fn ih =>
    by_cases h : f0 = Fn
    · subst h
      obtain ⟨g, hg⟩ := (fails_or_outcome (pickAll n l f0)).resolve_left
        (pickAll_noFail fun f hf => hl f (by omega))
      refine ⟨Function.update g f0 i, ?_, by simp⟩
      rw [pickAll, outcome_bind]
      exact ⟨g, hg, .choose (hl f0 (by omega)) hi .ret⟩
    · obtain ⟨g, hg, he⟩ := ih (fun f hf => hl f (by omega)) (by omega)
      refine ⟨Function.update g Fn i, ?_, by simp [h, he]⟩
      rw [pickAll, outcome_bind]
      exact ⟨g, hg, .choose (hl Fn (by omega)) hi .ret⟩

/-- **C66 (violation).** `log_likelihood` repeats a one-channel input so that it can stand beside multi-channel ones, but
`sample` hands the selected input the un-broadcast channel `ch / num_sums`: whenever a feature asks for an output channel of
an input channel the selected input does not have - which a parent Sum does with positive probability - sampling raises. -/
theorem C66_broadcast_sampling_raises {e : ES} (h : Ready e) {r : ℕ} (hr : r < e.R) {ch : ℕ → ℕ} {mask : ℕ → Bool}
    (hch : ∀ f < e.F, ch f < e.C) {f i : ℕ} (hf : f < e.F) (hm : mask f = true) (hi : i < e.cs.length)
    (hbad : Circ.C e.cs[i] ≤ ch f / e.Co) (y : Row) : Fails (e.sample none r ch mask y) := by
  have hC : 1 ≤ e.C := Nat.lt_of_le_of_lt (Nat.zero_le _) (hch f hf)
  unfold ES.sample
  have hall : ((List.range e.F).all fun f => decide (ch f < e.C)) = true := by simpa using hch
  rw [validCtx_of hC hch hr, hall]
  simp only [Bool.not_true, Bool.false_eq_true, if_false, mapIdx_ofFn]
  obtain ⟨sel, hsel, he⟩ := pickAll_any (n := e.cs.length) (l := e.logits none r ch) (Fn := e.F) (fun g hg hd => by
    obtain ⟨j, hj, hne⟩ := h.live g hg _ (div_lt_Cin (hch g hg)).1 _ (div_lt_Cin (hch g hg)).2 r hr
    exact hne (hd j hj)) hf hi
  refine fails_bind_right hsel (seqAll_fails (List.mem_ofFn.2 ⟨⟨i, hi⟩, rfl⟩) (fun y => ?_) y)
  refine sample_bad_channel (f := f) ?_ (by simp [hm, he]) hbad y
  have := feats_eq h.fit.features (List.getElem_mem hi)
  exact this ▸ hf

end Verif.ESum

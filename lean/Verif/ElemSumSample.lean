import Verif.ElemSumLaw

/-!
# C66: sampling from an `ElementwiseSum`
-/

namespace Verif.ESum
open Verif Verif.Circ

/-! ## Channels of inactive features do not matter -/

theorem seqAll_ofFn_E {n : ℕ} (s s' : Fin n → Row → Prog Row) (hs : ∀ i y g, (s i y).E g = (s' i y).E g) :
    ∀ y g, (seqAll (List.ofFn s) y).E g = (seqAll (List.ofFn s') y).E g := by
  induction n with
  | zero => intro y g; rfl
  | succ n ih =>
    intro y g
    rw [List.ofFn_succ, List.ofFn_succ, seqAll, seqAll, Prog.E_bind, Prog.E_bind, hs]
    exact congrArg _ (funext fun y' => ih _ _ (fun i => hs i.succ) y' g)

theorem pickAll_active {n : ℕ} {l l' : ℕ → ℕ → LogV} {mask : ℕ → Bool} (Fn : ℕ) :
    ∀ H : (ℕ → ℕ) → ENNReal, (∀ f < Fn, mask f = true → l f = l' f) →
      (∀ f < Fn, ¬ Prog.Dead n (l f) ∧ ¬ Prog.Dead n (l' f)) →
      (∀ a b : ℕ → ℕ, (∀ f < Fn, a f < n ∧ b f < n) → (∀ f < Fn, mask f = true → a f = b f) →
        (∀ f, Fn ≤ f → a f = b f) → H a = H b) →
      (pickAll n l Fn).E H = (pickAll n l' Fn).E H := by
  induction Fn with
  | zero => intro H _ _ _; rfl
  | succ k ih =>
    intro H h1 h2 h3
    rw [pickAll, pickAll, Prog.E_bind, Prog.E_bind]
    simp only [Prog.E]
    have s1 := ih (fun a => ∑ i ∈ Finset.range n, ENNReal.ofReal (softmax n (l k) i) * H (Function.update a k i))
      (fun f hf => h1 f (by omega)) (fun f hf => h2 f (by omega)) (by
        intro a b hab hm ho
        refine Finset.sum_congr rfl fun i hi => congrArg _ (h3 _ _ ?_ ?_ ?_)
        · intro f hf
          by_cases hfk : f = k
          · subst hfk; simp [Finset.mem_range.1 hi]
          · rw [Function.update_of_ne hfk, Function.update_of_ne hfk]; exact hab f (by omega)
        · intro f hf hmf
          by_cases hfk : f = k
          · subst hfk; simp
          · rw [Function.update_of_ne hfk, Function.update_of_ne hfk]; exact hm f (by omega) hmf
        · intro f hf
          rw [Function.update_of_ne (by omega), Function.update_of_ne (by omega)]; exact ho f (by omega))
    refine s1.trans (Prog.E_congr fun a ha => ?_)
    have hav := pickAll_outcome ha
    cases hm : mask k with
    | true => rw [h1 k (by omega) hm]
    | false =>
      obtain ⟨d1, d2⟩ := h2 k (by omega)
      have hn : ∃ i < n, l k i ≠ ⊥ := by unfold Prog.Dead at d1; push Not at d1; exact d1
      have hn' : ∃ i < n, l' k i ≠ ⊥ := by unfold Prog.Dead at d2; push Not at d2; exact d2
      have h0 : 0 < n := by obtain ⟨i, hi, -⟩ := hn; omega
      have hc : ∀ i ∈ Finset.range n, H (Function.update a k i) = H (Function.update a k 0) := by
        intro i hi
        refine h3 _ _ ?_ ?_ ?_
        · intro f hf
          by_cases hfk : f = k
          · subst hfk; simp [Finset.mem_range.1 hi, h0]
          · rw [Function.update_of_ne hfk, Function.update_of_ne hfk]; exact ⟨hav f (by omega), hav f (by omega)⟩
        · intro f hf hmf
          have hfk : f ≠ k := by rintro rfl; rw [hm] at hmf; cases hmf
          rw [Function.update_of_ne hfk, Function.update_of_ne hfk]
        · intro f hf
          rw [Function.update_of_ne (by omega), Function.update_of_ne (by omega)]
      have hs : ∀ q : ℕ → LogV, (∃ i < n, q i ≠ ⊥) →
          ∑ i ∈ Finset.range n, ENNReal.ofReal (softmax n q i) * H (Function.update a k i) =
            H (Function.update a k 0) := by
        intro q hq
        have e1 : ∀ i ∈ Finset.range n, ENNReal.ofReal (softmax n q i) * H (Function.update a k i) =
            ENNReal.ofReal (softmax n q i) * H (Function.update a k 0) := fun i hi => by rw [hc i hi]
        rw [Finset.sum_congr rfl e1, ← Finset.sum_mul,
          ← ENNReal.ofReal_sum_of_nonneg fun i _ => softmax_nonneg _ _ _, sum_softmax hq, ENNReal.ofReal_one, one_mul]
      rw [hs _ hn, hs _ hn']

/-- The law of `_sample` depends on channel indices only at active features. -/
theorem sample_E_active {ev : Option Row} {r : ℕ} {c : Circ} (h : Accepted c) (hp : PosCh c) (hr : RepS r c)
    (hev : EvOk ev r c) : ∀ (ch ch' : ℕ → ℕ) (mask mask' : ℕ → Bool), (∀ f < F c, ch f < C c) →
      (∀ f < F c, ch' f < C c) → (∀ f < F c, mask f = mask' f) → (∀ f < F c, mask f = true → ch f = ch' f) →
      ∀ y g, (sample ev r c ch mask y).E g = (sample ev r c ch' mask' y).E g := by
  induction c with
  | leaf q C R d =>
    intro ch ch' mask mask' h1 h2 hm hc y g
    rw [sample_leaf hp h1 hr, sample_leaf hp h2 hr]
    have : (fun i : Fin q.length => sampleCell (d i (ch i) r) (mask i) q[i]) =
        fun i : Fin q.length => sampleCell (d i (ch' i) r) (mask' i) q[i] := by
      funext i y
      rw [← hm i i.2]
      cases hmi : mask i with
      | false => rfl
      | true => rw [hc i i.2 hmi]
    rw [this]
  | cat1 n cs ih =>
    intro ch ch' mask mask' h1 h2 hm hc y g
    rw [sample_cat1 h hp hr h1, sample_cat1 h hp hr h2]
    exact seqAll_ofFn_E _ _ (fun i y g => ih i (h.1 i) (hp i) (hr i) (fun e he => hev e he i) _ _ _ _
      (fun f hf => by rw [cat1_C h.2 i]; exact h1 _ (offF_lt i hf))
      (fun f hf => by rw [cat1_C h.2 i]; exact h2 _ (offF_lt i hf))
      (fun f hf => hm _ (offF_lt i hf)) (fun f hf => hc _ (offF_lt i hf)) y g) y g
  | cat2 n cs ih =>
    intro ch ch' mask mask' h1 h2 hm hc y g
    rw [sample_cat2 h hp hr h1, sample_cat2 h hp hr h2]
    refine seqAll_ofFn_E _ _ (fun i y g => ih i (h.1 i) (hp i) (hr i) (fun e he => hev e he i) _ _ _ _ ?_ ?_ ?_ ?_ y g) y g
    · intro f hf
      have := posC (h.1 i) (hp i)
      split <;> omega
    · intro f hf
      have := posC (h.1 i) (hp i)
      split <;> omega
    · intro f hf
      rw [cat2_F h.2 i] at hf
      rw [← hm f hf]
      cases hmf : mask f with
      | false => simp
      | true => rw [hc f hf hmf]
    · intro f hf hmf
      rw [cat2_F h.2 i] at hf
      simp only [Bool.and_eq_true] at hmf
      rw [hc f hf hmf.2]
  | prod c ih =>
    intro ch ch' mask mask' h1 h2 hm hc y g
    have h0 : ch 0 < C c := h1 0 (by simp [F])
    have h0' : ch' 0 < C c := h2 0 (by simp [F])
    rw [sample_prod (show Accepted c from h) hp hr h0, sample_prod (show Accepted c from h) hp hr h0']
    exact ih h hp hr hev _ _ _ _ (fun _ _ => h0) (fun _ _ => h0') (fun _ _ => hm 0 (by simp [F]))
      (fun _ _ hmm => hc 0 (by simp [F]) hmm) y g
  | sum c Co R θ ih =>
    intro ch ch' mask mask' h1 h2 hm hc y g
    have hevc : EvOk ev r c := fun e he => (hev e he).1
    rw [sample_sum h hr h1, sample_sum h hr h2, Prog.E_bind, Prog.E_bind]
    have s2 : (pickAll (C c) (sumLogits ev r c θ ch') (F c)).E (fun a => (sample ev r c a mask y).E g) =
        (pickAll (C c) (sumLogits ev r c θ ch') (F c)).E (fun a => (sample ev r c a mask' y).E g) :=
      Prog.E_congr fun a ha => ih h.1 hp hr.1 hevc _ _ _ _ (pickAll_outcome ha) (pickAll_outcome ha) hm
        (fun _ _ _ => rfl) y g
    rw [← s2]
    refine pickAll_active (mask := mask) (F c) _ ?_ ?_ ?_
    · intro f hf hmf
      unfold sumLogits
      rw [hc f hf hmf]
    · exact fun f hf => ⟨sumLogits_alive h hr.2 hev hf (h1 f hf), sumLogits_alive h hr.2 hev hf (h2 f hf)⟩
    · intro a b hab hmm _
      exact ih h.1 hp hr.1 hevc _ _ _ _ (fun f hf => (hab f hf).1) (fun f hf => (hab f hf).2) (fun _ _ => rfl) hmm y g

/-! ## Re-indexing the choice -/

theorem pickAll_map {N n : ℕ} {l l' : ℕ → ℕ → LogV} {φ : ℕ → ℕ → ℕ} (Fn : ℕ) :
    (∀ f < Fn, ∀ G : ℕ → ENNReal, ∑ k ∈ Finset.range N, ENNReal.ofReal (softmax N (l f) k) * G k =
      ∑ i ∈ Finset.range n, ENNReal.ofReal (softmax n (l' f) i) * G (φ f i)) →
    ∀ H : (ℕ → ℕ) → ENNReal, (pickAll N l Fn).E H =
      (pickAll n l' Fn).E fun s => H fun f => if f < Fn then φ f (s f) else 0 := by
  induction Fn with
  | zero => intro _ H; simp [pickAll, Prog.E]
  | succ k ih =>
    intro hφ H
    rw [pickAll, pickAll, Prog.E_bind, Prog.E_bind, ih (fun f hf => hφ f (by omega))]
    refine congrArg _ (funext fun s => ?_)
    simp only [Prog.E]
    rw [hφ k (by omega)]
    refine Finset.sum_congr rfl fun i _ => congrArg _ (congrArg _ (funext fun f => ?_))
    by_cases hfk : f = k
    · subst hfk; simp
    · rw [Function.update_of_ne hfk, Function.update_of_ne hfk]
      by_cases hlt : f < k
      · rw [if_pos hlt, if_pos (by omega)]
      · rw [if_neg hlt, if_neg (by omega)]

theorem softmax_logSoftmax (n : ℕ) (M : ℕ → LogV) (i : ℕ) : softmax n (logSoftmax n M) i = softmax n M i := by
  rw [softmax_eq, softmax_eq]
  simp only [expL_logSoftmax, ← Finset.sum_div]
  by_cases h : ∑ j ∈ Finset.range n, expL (M j) = 0
  · simp [h]
  · rw [div_self h, div_one]

/-- what the cached evidence adds to the logits -/
noncomputable def evTerm (ev : Option Row) (r : ℕ) (c : Circ) (f k : ℕ) : LogV :=
  match ev with
  | none => 0
  | some x => featAt (den c) f x r k

theorem softmax_sumLogits (ev : Option Row) (r : ℕ) (c : Circ) (θ : ℕ → ℕ → ℕ → ℕ → LogV) (ch : ℕ → ℕ) (f k : ℕ) :
    softmax (C c) (sumLogits ev r c θ ch f) k = softmax (C c) (fun j => θ f j (ch f) r + evTerm ev r c f j) k := by
  cases ev with
  | none => simp [sumLogits, evTerm]
  | some x => exact softmax_logSoftmax _ _ _

theorem softmax_logits {ev : Option Row} {r : ℕ} {e : ES} {ch : ℕ → ℕ} {f : ℕ} (hch : ch f < e.C) (i : ℕ) :
    softmax e.cs.length (e.logits ev r ch f) i = softmax e.cs.length
      (fun j => e.θ f (ch f / e.Co) (ch f % e.Co) j r +
        if hj : j < e.cs.length then evTerm ev r e.cs[j] f (inCh e.cs[j] (ch f / e.Co)) else ⊥) i ∨ e.cs.length ≤ i := by
  by_cases hi : i < e.cs.length
  · left
    cases ev with
    | none =>
      rw [softmax_eq, softmax_eq]
      have e1 : ∀ j < e.cs.length, e.logits none r ch f j = e.θ f (ch f / e.Co) (ch f % e.Co) j r +
          if hj : j < e.cs.length then evTerm none r e.cs[j] f (inCh e.cs[j] (ch f / e.Co)) else ⊥ := by
        intro j hj
        rw [dif_pos hj]
        simp [ES.logits, evTerm]
      rw [e1 i hi, Finset.sum_congr rfl fun j hj => by rw [e1 j (Finset.mem_range.1 hj)]]
    | some x =>
      rw [show e.logits (some x) r ch f = logSoftmax e.cs.length fun i =>
        e.θ f (ch f / e.Co) (ch f % e.Co) i r + e.inAt f x r i (ch f / e.Co) from rfl, softmax_logSoftmax]
      rw [softmax_eq, softmax_eq]
      have e1 : ∀ j < e.cs.length, e.θ f (ch f / e.Co) (ch f % e.Co) j r + e.inAt f x r j (ch f / e.Co) =
          e.θ f (ch f / e.Co) (ch f % e.Co) j r +
          if hj : j < e.cs.length then evTerm (some x) r e.cs[j] f (inCh e.cs[j] (ch f / e.Co)) else ⊥ := by
        intro j hj
        rw [dif_pos hj, inAt_eq hj (div_lt_Cin hch).1]
        rfl
      rw [e1 i hi, Finset.sum_congr rfl fun j hj => by rw [e1 j (Finset.mem_range.1 hj)]]
  · right; omega

theorem sum_blocks_gen {M : Type*} [AddCommMonoid M] {n : ℕ} (k : Fin n → ℕ) (h : ℕ → M) :
    ∑ f ∈ Finset.range (List.ofFn k).sum, h f =
      ∑ i : Fin n, ∑ f ∈ Finset.range (k i), h (((List.ofFn k).take i).sum + f) := by
  induction n generalizing h with
  | zero => simp
  | succ n ih =>
    rw [List.ofFn_succ, List.sum_cons, Finset.sum_range_add, Fin.sum_univ_succ]
    congr 1
    · simp
    · rw [ih (fun i => k i.succ) fun f => h (k 0 + f)]
      refine Finset.sum_congr rfl fun i _ => Finset.sum_congr rfl fun f _ => ?_
      simp [add_assoc]

/-- flat index of channel `ci` of input `i` -/
noncomputable def flatIn (e : ES) (i ci : ℕ) : ℕ :=
  offC e.cs.get i + if hi : i < e.cs.length then inCh e.cs[i] ci else 0

theorem choice_eq {e : ES} (h : Ready e) {ev : Option Row} {r : ℕ} {ch : ℕ → ℕ} {f : ℕ} (hf : f < e.F)
    (hch : ch f < e.C) (G : ℕ → ENNReal) :
    ∑ k ∈ Finset.range (C (cat2 e.cs.length e.cs.get)),
        ENNReal.ofReal (softmax (C (cat2 e.cs.length e.cs.get))
          (sumLogits ev r (cat2 e.cs.length e.cs.get) (embθ e) ch f) k) * G k =
      ∑ i ∈ Finset.range e.cs.length, ENNReal.ofReal (softmax e.cs.length (e.logits ev r ch f) i) *
        G (flatIn e i (ch f / e.Co)) := by
  have hC : 1 ≤ e.Cin := Nat.lt_of_le_of_lt (Nat.zero_le _) (div_lt_Cin hch).1
  have hev : ∀ (i : Fin e.cs.length) k, k < C e.cs[i] →
      evTerm ev r (cat2 e.cs.length e.cs.get) f (offC e.cs.get i + k) = evTerm ev r e.cs[i] f k := by
    intro i k hk
    cases ev with
    | none => rfl
    | some x => exact featAt_cat2 (cs := e.cs.get) i (by rw [cat_F h hC]; exact hf) hk x r
  have hden : ∑ k ∈ Finset.range (C (cat2 e.cs.length e.cs.get)),
      expL (embθ e f k (ch f) r + evTerm ev r (cat2 e.cs.length e.cs.get) f k) =
      ∑ i : Fin e.cs.length, expL (e.θ f (ch f / e.Co) (ch f % e.Co) i r) *
        expL (evTerm ev r e.cs[i] f (inCh e.cs[i] (ch f / e.Co))) := by
    rw [sum_emb]
    refine Finset.sum_congr rfl fun i _ => ?_
    rw [← block_sum h i hch f r fun k => expL (evTerm ev r e.cs[i] f k)]
    refine Finset.sum_congr rfl fun k hk => ?_
    rw [expL_add, hev i k (Finset.mem_range.1 hk)]
  have hden' : ∑ j ∈ Finset.range e.cs.length, expL (e.θ f (ch f / e.Co) (ch f % e.Co) j r +
        if hj : j < e.cs.length then evTerm ev r e.cs[j] f (inCh e.cs[j] (ch f / e.Co)) else ⊥) =
      ∑ i : Fin e.cs.length, expL (e.θ f (ch f / e.Co) (ch f % e.Co) i r) *
        expL (evTerm ev r e.cs[i] f (inCh e.cs[i] (ch f / e.Co))) := by
    rw [Finset.sum_range]
    refine Finset.sum_congr rfl fun i _ => ?_
    rw [dif_pos i.2, expL_add]
    rfl
  have hb := sum_blocks_gen (fun i : Fin e.cs.length => C (e.cs.get i)) fun k =>
    ENNReal.ofReal (softmax (C (cat2 e.cs.length e.cs.get))
          (sumLogits ev r (cat2 e.cs.length e.cs.get) (embθ e) ch f) k) * G k
  refine hb.trans ?_
  rw [Finset.sum_range]
  refine Finset.sum_congr rfl fun i _ => ?_
  have hlt : inCh e.cs[i] (ch f / e.Co) < C e.cs[i] := inCh_lt h (List.getElem_mem i.2) (div_lt_Cin hch).1
  have hoff : ∀ k, ((List.ofFn fun i : Fin e.cs.length => C (e.cs.get i)).take i).sum + k = offC e.cs.get i + k :=
    fun k => rfl
  rw [Finset.sum_eq_single (inCh e.cs[i] (ch f / e.Co))]
  · rw [hoff]
    have hfl : flatIn e i (ch f / e.Co) = offC e.cs.get i + inCh e.cs[i] (ch f / e.Co) := by
      unfold flatIn; rw [dif_pos i.2]; rfl
    rw [hfl]
    congr 2
    rw [softmax_sumLogits, (softmax_logits hch i).resolve_right (by have := i.2; omega), softmax_eq, softmax_eq, hden,
      hden', dif_pos i.2, hev i _ hlt, embθ_at e i hlt, if_pos]
    · rfl
    · unfold inCh
      by_cases h1 : C e.cs[i] = 1
      · exact .inl h1
      · right; rw [if_neg h1]
  · intro k hk hne
    have hk' : k < C e.cs[i] := Finset.mem_range.1 hk
    rw [hoff, softmax_sumLogits, softmax_eq, embθ_at e i hk', if_neg]
    · simp
    · rintro (h1 | h1)
      · apply hne; unfold inCh; rw [if_pos h1]; omega
      · apply hne
        unfold inCh
        split
        · omega
        · exact h1
  · intro hn; exact absurd (Finset.mem_range.2 hlt) hn

theorem mapIdx_ofFn {α β : Type*} (l : List α) (g : ℕ → α → β) :
    l.mapIdx g = List.ofFn fun i : Fin l.length => g i l[i] := by
  apply List.ext_getElem <;> simp

/-- What sampling needs: positive channel counts, repetition `r` everywhere, live units on cached evidence. -/
structure Sampleable (ev : Option Row) (r : ℕ) (e : ES) : Prop where
  pos : ∀ c ∈ e.cs, PosCh c
  rep : ∀ c ∈ e.cs, RepS r c
  rep' : r < e.R
  ev : ∀ c ∈ e.cs, EvOk ev r c

theorem Cin_pos {e : ES} (h : Ready e) (hp : ∀ c ∈ e.cs, PosCh c) : 1 ≤ e.Cin := by
  obtain ⟨c, hc⟩ := List.exists_mem_of_ne_nil _ h.ne
  exact (posC (h.acc c hc) (hp c hc)).trans (le_maxC hc)

/-- **C66 (sampling = sampling of the equivalent Sum).** For every routing context whose input channels exist in all
inputs, `_sample` has the same law as `_sample` of `Sum(Cat(inputs))` with block-diagonal weights. -/
theorem sample_emb {ev : Option Row} {r : ℕ} {e : ES} (h : Ready e) (hs : Sampleable ev r e) {ch : ℕ → ℕ}
    {mask : ℕ → Bool} (hch : ∀ f < e.F, ch f < e.C) (hin : ∀ f < e.F, ∀ c ∈ e.cs, ch f / e.Co < C c) (y : Row)
    (g : Row → ENNReal) :
    (e.sample ev r ch mask y).E g = (Circ.sample ev r (emb e) ch mask y).E g := by
  have hC := Cin_pos h hs.pos
  have hacc := emb_accepted h hC
  have hF := cat_F h hC
  have hrS : RepS r (emb e) := ⟨fun i => hs.rep _ (List.get_mem _ i), hs.rep'⟩
  have hch' : ∀ f < F (cat2 e.cs.length e.cs.get), ch f < e.C := fun f hf => hch f (by rwa [hF] at hf)
  have e1 : Circ.sample ev r (emb e) ch mask y = _ := sample_sum hacc hrS hch' y
  have e2 : e.sample ev r ch mask y = (pickAll e.cs.length (e.logits ev r ch) e.F).bind fun sel =>
      seqAll (List.ofFn fun i : Fin e.cs.length =>
        Circ.sample ev r e.cs[i] (fun f => ch f / e.Co) (fun f => mask f && sel f == i)) y := by
    unfold ES.sample
    have hall : ((List.range e.F).all fun f => decide (ch f < e.C)) = true := by simpa using hch
    rw [validCtx_of (show 1 ≤ e.C from Nat.mul_pos h.co hC) hch hs.rep', hall]
    simp only [Bool.not_true, Bool.false_eq_true, if_false, mapIdx_ofFn]
  rw [e1, e2, Prog.E_bind, Prog.E_bind, hF,
    pickAll_map (φ := fun f i => flatIn e i (ch f / e.Co)) e.F
      (fun f hf G => choice_eq h hf (hch f hf) G)]
  refine Prog.E_congr fun sel hsel => ?_
  have hsv := pickAll_outcome hsel
  have hfl : ∀ f < e.F, ∃ hi : sel f < e.cs.length, flatIn e (sel f) (ch f / e.Co) =
      offC e.cs.get (sel f) + ch f / e.Co ∧ ch f / e.Co < C e.cs[sel f] := by
    intro f hf
    refine ⟨hsv f hf, ?_⟩
    have hlt := hin f hf _ (List.getElem_mem (hsv f hf))
    refine ⟨?_, hlt⟩
    unfold flatIn
    rw [dif_pos (hsv f hf)]
    unfold inCh
    by_cases h1 : C (e.cs[sel f]'(hsv f hf)) = 1
    · rw [if_pos h1]
      rw [h1] at hlt
      rw [Nat.lt_one_iff.1 hlt]
    · rw [if_neg h1]
  rw [sample_cat2 hacc.1 (fun i => hs.pos _ (List.get_mem _ i)) hrS.1]
  · refine seqAll_ofFn_E _ _ (fun i y g => ?_) y g
    have hFi : F (e.cs.get i) = e.F := by rw [cat2_F (emb_check h hC) i, hF]
    refine sample_E_active (h.acc _ (List.get_mem _ i)) (hs.pos _ (List.get_mem _ i)) (hs.rep _ (List.get_mem _ i))
      (hs.ev _ (List.get_mem _ i)) _ _ _ _ ?_ ?_ ?_ ?_ y g
    · intro f hf
      replace hf : f < e.F := lt_of_lt_of_eq hf hFi
      exact hin f hf _ (List.get_mem _ i)
    · intro f hf
      have := posC (h.acc _ (List.get_mem _ i)) (hs.pos _ (List.get_mem _ i))
      have key : ∀ a o k : ℕ, 1 ≤ k → (if o ≤ a ∧ a < o + k then a - o else 0) < k := by
        intro a o k hk; split <;> omega
      exact key _ _ _ this
    · intro f hf
      replace hf : f < e.F := lt_of_lt_of_eq hf hFi
      obtain ⟨hi, hv, hlt⟩ := hfl f hf
      rw [if_pos hf, hv, Bool.and_comm]
      congr 1
      rw [Bool.eq_iff_iff, beq_iff_eq, decide_eq_true_eq]
      have hown : offC e.cs.get (⟨sel f, hi⟩ : Fin e.cs.length) ≤ offC e.cs.get (sel f) + ch f / e.Co ∧
          offC e.cs.get (sel f) + ch f / e.Co < offC e.cs.get (⟨sel f, hi⟩ : Fin e.cs.length) +
            C (e.cs.get ⟨sel f, hi⟩) := ⟨Nat.le_add_right _ _, Nat.add_lt_add_left hlt _⟩
      constructor
      · intro he
        have : (⟨sel f, hi⟩ : Fin e.cs.length) = i := Fin.ext he
        rw [this] at hown
        exact hown
      · intro hh
        have := owner_unique e.cs.get hown hh
        rw [← this]
    · intro f hf hm
      replace hf : f < e.F := lt_of_lt_of_eq hf hFi
      simp only [Bool.and_eq_true, beq_iff_eq] at hm
      obtain ⟨hi, hv, hlt⟩ := hfl f hf
      have hC' : ch f / e.Co < C (e.cs.get i) := hin f hf _ (List.get_mem _ i)
      rw [if_pos hf, hv, hm.2, if_pos ⟨Nat.le_add_right _ _, Nat.add_lt_add_left hC' _⟩, Nat.add_sub_cancel_left]
  · intro f hf
    rw [hF] at hf
    obtain ⟨hi, hv, hlt⟩ := hfl f hf
    rw [if_pos hf, hv]
    exact offC_lt (cs := e.cs.get) ⟨sel f, hi⟩ hlt

end Verif.ESum

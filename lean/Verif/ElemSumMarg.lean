import Verif.ElemSumLaw
import Verif.EmProps
import Verif.MarginalizeProps

/-!
# C66: `ElementwiseSum.marginalize`
-/

namespace Verif.ESum
open Verif Verif.Circ Verif.Em

/-! ## Repetitions of the rebuilt inputs -/

/-- With the same number of repetitions everywhere, all notions of "number of repetitions" agree. -/
theorem reps_same {T : ℕ} {c : Circ} : Accepted c → SameReps T c →
    tensorR c = some T ∧ Circ.R c = T ∧ (1 ≤ T → ftsCols c = .ok T) := by
  induction c with
  | leaf q C R d => intro _ hs; have : R = T := hs; subst this; exact ⟨rfl, rfl, fun _ => rfl⟩
  | cat1 n cs ih =>
    intro h hs
    have hn : 0 < n := by
      have := (check1_ok h.2).2.2.1
      rw [Ne, List.ofFn_eq_nil_iff] at this
      omega
    have hi := fun i => ih i (h.1 i) (hs i)
    refine ⟨tensorR_cat1.2 ⟨hn, fun i => (hi i).1⟩, ?_, fun hT => ?_⟩
    · rw [Circ.R, dif_pos hn]; exact (hi _).2.1
    · rw [ftsCols, dif_pos hn]
      simp only [bind, Except.bind, (hi _).2.2 hT]
      rw [if_pos]
      · rfl
      · rw [List.all_eq_true]
        intro x hx
        obtain ⟨i, rfl⟩ := List.mem_ofFn.1 hx
        simp
  | cat2 n cs ih =>
    intro h hs
    have hn : 0 < n := by
      have := (check2_ok h.2).2.2
      rw [Ne, List.ofFn_eq_nil_iff] at this
      omega
    have hi := fun i => ih i (h.1 i) (hs i)
    refine ⟨tensorR_cat2.2 ⟨hn, fun i => (hi i).1⟩, ?_, fun hT => ?_⟩
    · rw [Circ.R, dif_pos hn]; exact (hi _).2.1
    · rw [ftsCols, dif_pos hn]; exact (hi _).2.2 hT
  | prod c ih =>
    intro h hs
    obtain ⟨h1, h2, h3⟩ := ih h hs
    refine ⟨h1, h2, fun hT => ?_⟩
    rw [ftsCols]
    simp only [bind, Except.bind, pure, Except.pure, throw, throwThe, MonadExceptOf.throw, h3 hT, h2]
    rw [if_neg (by omega), if_neg (by omega)]
  | sum c Co R θ ih =>
    intro h hs
    obtain ⟨h1, h2, h3⟩ := ih h.1 hs.1
    have hR : R = T := hs.2
    refine ⟨?_, hR, fun hT => ?_⟩
    · simp only [tensorR, h1, hR, if_true]
    · rw [ftsCols]; exact h3 hT

theorem collect_mem {l : List (Except Exc (Option Circ))} {out : List Circ} (h : collect l = .ok out) :
    ∀ m ∈ out, .ok (some m) ∈ l := by
  induction l generalizing out with
  | nil => cases h; simp
  | cons a l ih =>
    rw [collect] at h
    simp only [bind, Except.bind, pure, Except.pure] at h
    cases a with
    | error x => cases h
    | ok o =>
      simp only at h
      cases hc : collect l with
      | error x => rw [hc] at h; cases h
      | ok rest =>
        rw [hc] at h
        simp only [Except.ok.injEq] at h
        cases o with
        | none => simp only at h; subst h; exact fun m hm => List.mem_cons_of_mem _ (ih hc m hm)
        | some c =>
          simp only at h; subst h
          intro m hm
          rcases List.mem_cons.1 hm with rfl | hm
          · exact List.mem_cons_self
          · exact List.mem_cons_of_mem _ (ih hc m hm)

theorem mkCat_reps {T : ℕ} {dim : ℤ} {l : List Circ} {m : Circ} (h : mkCat dim l = .ok m) (hl : ∀ c ∈ l, SameReps T c) :
    SameReps T m := by
  unfold mkCat at h
  split at h
  · simp only [bind, Except.bind, pure, Except.pure] at h
    split at h
    · cases h
    · cases h; exact fun i => hl _ (List.get_mem _ i)
  · split at h
    · simp only [bind, Except.bind, pure, Except.pure] at h
      split at h
      · cases h
      · cases h; exact fun i => hl _ (List.get_mem _ i)
    · cases h

theorem finishCat_reps {T : ℕ} {dim : ℤ} {prune : Bool} {l : List Circ} {m : Circ}
    (h : finishCat dim prune l = .ok (some m)) (hl : ∀ c ∈ l, SameReps T c) : SameReps T m := by
  have key : (do return some (← mkCat dim l) : Except Exc (Option Circ)) = .ok (some m) → SameReps T m := by
    intro h
    simp only [bind, Except.bind, pure, Except.pure] at h
    split at h
    · cases h
    · rename_i c hc
      cases h
      exact mkCat_reps hc hl
  unfold finishCat at h
  split at h
  · cases h
  · split at h
    · cases h; exact hl _ (by simp)
    · exact key h
  · exact key h

theorem mkSum_one {c' m : Circ} {w : Weights} (h : mkSum [c'] w = .ok m) : ∃ θ, m = sum c' w.Co w.R θ := by
  unfold mkSum at h
  simp only [bind, Except.bind, pure, Except.pure, throw, throwThe, MonadExceptOf.throw, List.isEmpty_cons,
    Bool.false_eq_true, if_false] at h
  split at h
  · cases h
  · split at h
    · cases h
    · cases h; exact ⟨_, rfl⟩

theorem marg_reps {T : ℕ} {M : List Var} {prune : Bool} {c : Circ} : ∀ {c' : Circ}, SameReps T c →
    marg M prune c = .ok (some c') → SameReps T c' := by
  induction c with
  | leaf q C R d =>
    intro c' hs h
    simp only [marg, margLeaf, Except.ok.injEq] at h
    split at h
    · cases h
    · cases h; exact hs
  | cat1 n cs ih =>
    intro c' hs h
    rw [marg] at h
    split at h
    · simp only [bind, Except.bind] at h
      split at h
      · cases h
      · rename_i l hl
        refine finishCat_reps h fun m hm => ?_
        obtain ⟨i, hi⟩ := List.mem_ofFn.1 (collect_mem hl m hm)
        exact ih i (hs i) hi
    · cases h; exact hs
  | cat2 n cs ih =>
    intro c' hs h
    rw [marg] at h
    split at h
    · simp only [bind, Except.bind] at h
      split at h
      · cases h
      · rename_i l hl
        refine finishCat_reps h fun m hm => ?_
        obtain ⟨i, hi⟩ := List.mem_ofFn.1 (collect_mem hl m hm)
        exact ih i (hs i) hi
    · cases h; exact hs
  | prod c ih =>
    intro c' hs h
    replace hs : SameReps T c := hs
    have fin : ∀ o, (∀ m, o = some m → SameReps T m) → finishProd prune o = some c' → SameReps T c' := by
      intro o ho h
      unfold finishProd at h
      split at h
      · cases h
      · split at h
        · cases h; exact ho _ rfl
        · cases h; have := ho _ rfl; exact this
    rw [marg] at h
    split at h
    · cases h
    · split at h
      · simp only [bind, Except.bind, pure, Except.pure] at h
        split at h
        · cases h
        · rename_i o ho
          simp only [Except.ok.injEq] at h
          exact fin o (fun m hm => ih hs (by rw [ho, hm])) h
      · simp only [Except.ok.injEq] at h
        exact fin _ (fun m hm => by cases hm; exact hs) h
  | sum c Co R θ ih =>
    intro c' hs h
    have fin : ∀ c₀ : Circ, SameReps T c₀ → ∀ w : Weights, w.R = R → mkSum [c₀] w = .ok c' → SameReps T c' := by
      intro c₀ h0 w hw hm
      obtain ⟨θ', rfl⟩ := mkSum_one hm
      exact ⟨h0, hw.trans hs.2⟩
    rw [marg] at h
    split at h
    · cases h
    · split at h
      · simp only [bind, Except.bind, pure, Except.pure] at h
        split at h
        · cases h
        · rename_i o ho
          split at h
          · cases h
          · split at h
            · cases h
            · rename_i c₀ _ hm
              cases h
              exact fin _ (ih hs.1 ho) _ rfl hm
      · simp only [bind, Except.bind, pure, Except.pure] at h
        split at h
        · cases h
        · rename_i hm
          cases h
          exact fin _ hs.1 _ rfl hm

/-! ## The theorem -/

/-- Feature `f` of the inputs is exactly the variable at position `f` of the module's scope. -/
structure FeatureIsVariable (e : ES) : Prop where
  len : e.scope.query.length = e.F
  var : ∀ c ∈ e.cs, ∀ f < e.F, fscope c f = {e.scope.query.getD f 0}

theorem keepPos_eq {e : ES} (h : Ready e) (hv : FeatureIsVariable e) (M : List Var) {c : Circ} (hc : c ∈ e.cs) :
    ES.keepPos M e.scope.query = keepFeat M c := by
  unfold ES.keepPos keepFeat
  rw [hv.len, ES.F, feats_eq h.fit.features hc]
  refine List.filter_congr fun f hf => ?_
  rw [hv.var c hc f (by rw [ES.F, feats_eq h.fit.features hc]; simpa using hf)]
  simp

theorem margInputs_ok {M : List Var} {prune : Bool} {cs : List Circ} {os : List (Option Circ)}
    (h : List.Forall₂ (fun c o => marg M prune c = .ok o) cs os) : ES.margInputs M prune cs = .ok os := by
  induction h with
  | nil => rfl
  | @cons c o cs os h _ ih =>
    rw [ES.margInputs]
    simp only [h, ih, bind, Except.bind, pure, Except.pure]

theorem scope_mem {e : ES} (h : Ready e) {c : Circ} (hc : c ∈ e.cs) (v : Var) :
    v ∈ e.scope.query ↔ v ∈ (Circ.scope c).query := by
  unfold ES.scope
  have hne := h.ne
  cases hcs : e.cs with
  | nil => exact absurd hcs hne
  | cons a l =>
    exact h.fit.scopes a (by rw [hcs]; simp) c hc v

theorem maxC_congr {l l' : List Circ} (h : l.map Circ.C = l'.map Circ.C) : maxC l = maxC l' := by
  unfold maxC; rw [h]

/-- What a rebuilt module is: inputs `c'` (position-wise marginals of the inputs), weights of the kept features. -/
theorem rebuild {M : List Var} {T : ℕ} {e : ES} (h : Ready e) (hR : e.R = T) (hT : 1 ≤ T)
    (hfin : ∀ f < e.F, ∀ ci < e.Cin, ∀ co < e.Co, ∀ i < e.cs.length, ∀ r < e.R, e.θ f ci co i r ≠ ⊥)
    (hs : ∀ c ∈ e.cs, SameReps T c) {l : List Circ} (hl : l.length = e.cs.length)
    (hg : ∀ i (hi : i < e.cs.length), Good M T e.cs[i] (l[i]'(by rw [hl]; exact hi)))
    (hsl : ∀ c ∈ l, SameReps T c) {keep : List ℕ}
    (hkeep : ∀ c ∈ e.cs, keepFeat M c = keep) {Fw : ℕ} (hFw : Fw = keep.length) {idx : ℕ → ℕ}
    (hidx : ∀ k < Fw, idx k = keep.getD k 0) :
    ∃ e', build l none (some (.t5 ⟨Fw, e.Cin, e.Co, e.cs.length, e.R, fun k => e.weight (idx k)⟩)) none
        (fun _ _ _ _ _ => 0) = .ok e' ∧ Ready e' ∧ e'.C = e.C ∧ e'.R = T ∧ e'.F = keep.length ∧ e'.cs = l ∧
      ∀ k < e'.F, ∀ x, ∀ r < T, ∀ ch < e.C, e'.val k x r ch = e.val (keep.getD k 0) (nanOut M x) r ch := by
  have hmem : ∀ c ∈ l, ∃ i, ∃ hi : i < e.cs.length, Good M T e.cs[i] c ∧ c = l[i]'(by rw [hl]; exact hi) := by
    intro c hc
    obtain ⟨i, hi, rfl⟩ := List.getElem_of_mem hc
    exact ⟨i, by rw [← hl]; exact hi, hg i (by rw [← hl]; exact hi), rfl⟩
  have hfs : ∀ a ∈ e.cs, ∀ b ∈ e.cs, ∀ f, fscope a f = fscope b f := by
    intro a ha b hb f
    by_cases hf : f < Circ.F a
    · exact h.fit.aligned (by omega) a ha b hb f hf
    · have hF := h.fit.features a ha b hb
      unfold fscope
      rw [List.getElem?_eq_none (by rw [den_length]; omega), List.getElem?_eq_none (by rw [den_length]; omega)]
  have hacc : ∀ c ∈ l, Accepted c := fun c hc => by obtain ⟨i, hi, g, -⟩ := hmem c hc; exact g.acc
  have hFl : ∀ c ∈ l, Circ.F c = keep.length := fun c hc => by
    obtain ⟨i, hi, g, -⟩ := hmem c hc
    rw [(forall₂_surviving.1 g.feats).1, hkeep _ (List.getElem_mem hi)]
  have hCmap : l.map Circ.C = e.cs.map Circ.C := by
    apply List.ext_getElem (by simpa using hl)
    intro i h1 h2
    simp only [List.getElem_map]
    exact (hg i (by simpa using h2)).ch
  have hmax : maxC l = e.Cin := maxC_congr hCmap
  have hne : l ≠ [] := by
    intro h0; rw [h0] at hl
    exact h.ne (List.length_eq_zero_iff.1 (by simpa using hl.symm))
  have hn0 : 0 < e.cs.length := List.length_pos_of_ne_nil h.ne
  have hlt : ∀ k < Fw, idx k < e.F := by
    intro k hk
    have hm := List.getElem_mem hn0
    have hk' : k < (keepFeat M e.cs[0]).length := by rw [hkeep _ hm, ← hFw]; exact hk
    have := keepFeat_getD hk'
    rw [hidx k hk, ← hkeep _ hm, ES.F, feats_eq h.fit.features hm]
    exact this
  have hsum : ∀ k < Fw, ∀ ci < e.Cin, ∀ co < e.Co, ∀ r < e.R,
      ∑ i ∈ Finset.range e.cs.length, e.weight (idx k) ci co i r = 1 := fun k hk ci hci co hco r hr =>
    (C66_weights_convex h (hlt k hk) hci hco hr).2
  have hwpos : ∀ k < Fw, ∀ ci < e.Cin, ∀ co < e.Co, ∀ i < e.cs.length, ∀ r < e.R, 0 < e.weight (idx k) ci co i r := by
    intro k hk ci hci co hco i hi r hr
    unfold ES.weight
    exact softmax_pos hi (hfin _ (hlt k hk) ci hci co hco i hi r hr)
  have hfit : Fit l e.R := by
    refine ⟨fun a ha b hb => by rw [hFl a ha, hFl b hb], fun a ha => ?_, fun a ha b hb v => ?_, fun _ a ha => ?_,
      fun _ a ha b hb f hf => ?_⟩
    · obtain ⟨i, hi, g, -⟩ := hmem a ha
      rw [g.ch]
      rcases h.fit.channels _ (List.getElem_mem hi) with h1 | h1
      · exact .inl h1
      · right
        intro b hb
        obtain ⟨j, hj, g', -⟩ := hmem b hb
        rw [g'.ch]
        exact h1 _ (List.getElem_mem hj)
    · obtain ⟨i, hi, g, -⟩ := hmem a ha
      obtain ⟨j, hj, g', -⟩ := hmem b hb
      rw [g.mem_scope (h.acc _ (List.getElem_mem hi)), g'.mem_scope (h.acc _ (List.getElem_mem hj)),
        h.fit.scopes _ (List.getElem_mem hi) _ (List.getElem_mem hj)]
    · exact ⟨T, (reps_same (hacc a ha) (hsl a ha)).2.2 hT, by omega⟩
    · obtain ⟨i, hi, g, -⟩ := hmem a ha
      obtain ⟨j, hj, g', -⟩ := hmem b hb
      rw [((forall₂_surviving.1 g.feats).2 f hf).1,
        ((forall₂_surviving.1 g'.feats).2 f (by rw [hFl b hb, ← hFl a ha]; exact hf)).1,
        hkeep _ (List.getElem_mem hi), hkeep _ (List.getElem_mem hj),
        hfs _ (List.getElem_mem hi) _ (List.getElem_mem hj)]
  have hwok : WOk l ⟨Fw, e.Cin, e.Co, e.cs.length, e.R, fun k => e.weight (idx k)⟩ := by
    refine ⟨fun a ha => hFw.trans (hFl a ha).symm, hmax.symm, hl.symm, ?_, ?_⟩
    · intro k hk ci hci co hco i hi r hr
      exact hwpos k hk ci hci co hco i hi r hr
    · intro k hk ci hci co hco r hr
      have h1 : CloseToOne 1 := by unfold CloseToOne; norm_num
      exact (hsum k hk ci hci co hco r hr).symm ▸ h1
  have hb := (build_weights hacc (rnd := fun _ _ _ _ _ => 0)).2 ⟨⟨hne, h.co, hfit, hwok⟩, rfl⟩
  obtain ⟨hrd, -, -⟩ := build_ready hacc (fun _ _ _ _ _ => le_rfl) hb
  have hF' : feats l = keep.length := by
    obtain ⟨a, ha⟩ := List.exists_mem_of_ne_nil _ hne
    rw [feats_eq hfit.features ha, hFl a ha]
  refine ⟨_, hb, hrd, congrArg (e.Co * ·) hmax, hR, hF', rfl, ?_⟩
  intro k hk x r hr ch hch
  replace hk : k < keep.length := lt_of_lt_of_eq hk hF'
  have hkw : k < Fw := by omega
  apply expL_injective
  have hCe : ES.C (⟨l, e.Co, e.R, fun f ci co i r => logL (e.weight (idx f) ci co i r)⟩ : ES) = e.C :=
    congrArg (e.Co * ·) hmax
  have e1 := expL_val (e := ⟨l, e.Co, e.R, fun f ci co i r => logL (e.weight (idx f) ci co i r)⟩) (f := k) (r := r)
    (lt_of_lt_of_eq hch hCe.symm) x
  refine e1.trans ?_
  rw [expL_val hch]
  obtain ⟨hd1, hd2⟩ := div_lt_Cin hch
  have hweight : ∀ i < e.cs.length, ES.weight ⟨l, e.Co, e.R, fun f ci co i r => logL (e.weight (idx f) ci co i r)⟩ k
      (ch / e.Co) (ch % e.Co) i (bc e.R r) = e.weight (keep.getD k 0) (ch / e.Co) (ch % e.Co) i (bc e.R r) := by
    intro i hi
    have hrr : bc e.R r < e.R := by unfold bc; split <;> omega
    have hw0 : ∀ j < e.cs.length, 0 < e.weight (idx k) (ch / e.Co) (ch % e.Co) j (bc e.R r) := fun j hj =>
      hwpos k hkw _ hd1 _ hd2 j hj _ hrr
    show softmax l.length (fun j => logL (e.weight (idx k) (ch / e.Co) (ch % e.Co) j (bc e.R r))) i = _
    rw [softmax_eq, hl, expL_logL (hw0 i hi).le,
      Finset.sum_congr rfl fun j hj => expL_logL (hw0 j (Finset.mem_range.1 hj)).le, hsum k hkw _ hd1 _ hd2 _ hrr,
      div_one, hidx k hkw]
  refine Fintype.sum_equiv (finCongr hl) _ _ fun i => ?_
  have hi : i.1 < e.cs.length := lt_of_lt_of_eq i.2 hl
  have hm := List.getElem_mem hi
  have g : Good M T e.cs[i.1] l[i.1] := hg i.1 hi
  have hin : inCh l[i.1] (ch / e.Co) = inCh e.cs[i.1] (ch / e.Co) := by unfold inCh; rw [g.ch]
  have hkc : k < Circ.F l[i.1] := by rw [hFl _ (List.getElem_mem i.2)]; exact hk
  have hv := ((forall₂_surviving.1 g.feats).2 k hkc).2 x r
    (repIn_of_tensorR (reps_same (h.acc _ hm) (hs _ hm)).1 (.inr hr)) _ (inCh_lt h hm hd1)
  rw [hkeep _ hm] at hv
  have hv' : featAt (den l[i.1]) k x r (inCh l[i.1] (ch / e.Co)) =
      featAt (den e.cs[i.1]) (keep.getD k 0) (nanOut M x) r (inCh e.cs[i.1] (ch / e.Co)) := by rw [hin]; exact hv
  exact congrArg₂ (· * ·) (hweight i.1 hi) (congrArg expL hv')

/-- **C66 (marginalize).** For an ElementwiseSum each of whose features is one variable, in the order of its scope, and with
one number of repetitions throughout: `marginalize(M)` raises nothing, returns None iff every variable is marginalised, and
otherwise a module over the remaining features - in order - whose values are those of the original on rows with `M` set
to NaN.  (For other modules the call raises or keeps the weights of the wrong features: see
`C66_marginalize_multivariate_raises`, `C66_marginalize_wrong_weights`.) -/
theorem C66_marginalize_partial (M : List Var) (prune : Bool) {T : ℕ} {e : ES} (h : Ready e) (hR : e.R = T) (hT : 1 ≤ T)
    (hfin : ∀ f < e.F, ∀ ci < e.Cin, ∀ co < e.Co, ∀ i < e.cs.length, ∀ r < e.R, e.θ f ci co i r ≠ ⊥)
    (hs : ∀ c ∈ e.cs, SameReps T c) (hal : ∀ c ∈ e.cs, Aligned c) (hfc : ∀ c ∈ e.cs, FiniteLogits c)
    (hln : ∀ c ∈ e.cs, LeavesNonempty c) (hv : FeatureIsVariable e) :
    ∃ o, e.marginalize M prune = .ok o ∧ (o = none ↔ ∀ v ∈ e.scope.query, v ∈ M) ∧
      ∀ e', o = some e' → Ready e' ∧ e'.C = e.C ∧ e'.R = T ∧
        (∀ c ∈ e'.cs, ∀ v, v ∈ (Circ.scope c).query ↔ v ∈ e.scope.query ∧ v ∉ M) ∧
        ∃ keep : List ℕ, keep.Pairwise (· < ·) ∧ (∀ f, f ∈ keep ↔ f < e.F ∧ e.scope.query.getD f 0 ∉ M) ∧
          e'.F = keep.length ∧ ∀ k < e'.F, ∀ x, ∀ r < T, ∀ ch < e.C,
            e'.val k x r ch = e.val (keep.getD k 0) (nanOut M x) r ch := by
  have hkp : (ES.keepPos M e.scope.query).Pairwise (· < ·) := List.pairwise_lt_range.filter _
  have hkm : ∀ f, f ∈ ES.keepPos M e.scope.query ↔ f < e.F ∧ e.scope.query.getD f 0 ∉ M := by
    intro f
    simp [ES.keepPos, hv.len]
  unfold ES.marginalize
  simp only
  by_cases hc : covers M e.scope = true
  · rw [if_pos hc]
    exact ⟨none, rfl, ⟨fun _ => covers_iff.1 hc, fun _ => rfl⟩, by simp⟩
  · rw [if_neg hc]
    have hnone : ¬ ∀ v ∈ e.scope.query, v ∈ M := fun hh => hc (covers_iff.2 hh)
    have hpost : ∀ i : Fin e.cs.length, ∃ c', marg M prune e.cs[i] = .ok (some c') ∧ Good M T e.cs[i] c' := by
      intro i
      have hm : e.cs[i] ∈ e.cs := List.getElem_mem i.2
      obtain ⟨o, ho, hp⟩ := marg_post (M := M) (prune := prune) (h.acc _ hm) (hal _ hm) (hfc _ hm) (hln _ hm)
        (reps_same (h.acc _ hm) (hs _ hm)).1
      cases o with
      | none =>
        exfalso
        apply hnone
        intro v hv
        exact (surviving_nil_iff (h.acc _ hm)).1 hp v ((scope_mem h hm v).1 hv)
      | some c' => exact ⟨c', ho, hp⟩
    choose l hl hg using hpost
    by_cases ht : touches M e.scope = true
    · rw [if_pos ht]
      have hmi : ES.margInputs M prune e.cs = .ok (List.ofFn fun i => some (l i)) := by
        refine margInputs_ok ?_
        rw [List.forall₂_iff_get]
        refine ⟨by simp, fun i h1 h2 => ?_⟩
        simpa using hl ⟨i, h1⟩
      have hred : (List.ofFn fun i => some (l i)).reduceOption = List.ofFn l := by
        have := reduceOption_map_some (List.ofFn l)
        rw [List.map_ofFn] at this
        exact this
      have hn0 : 0 < e.cs.length := List.length_pos_of_ne_nil h.ne
      obtain ⟨e', he', hrd, hC', hR', hF', hcs', hval⟩ := rebuild h hR hT hfin hs (l := List.ofFn l) (by simp) (M := M)
        (fun i hi => by simpa using hg ⟨i, hi⟩)
        (fun c hc => by
          obtain ⟨i, rfl⟩ := List.mem_ofFn.1 hc
          exact marg_reps (hs _ (List.getElem_mem i.2)) (hl i))
        (keep := ES.keepPos M e.scope.query) (fun c hc => (keepPos_eq h hv M hc).symm) rfl
        (idx := fun k => (ES.keepPos M e.scope.query).getD k 0) (fun _ _ => rfl)
      refine ⟨some e', ?_, ⟨(fun h0 => by cases h0), fun h0 => absurd h0 hnone⟩, ?_⟩
      · simp only [bind, Except.bind, pure, Except.pure, throw, throwThe, MonadExceptOf.throw, hmi]
        rw [if_neg, if_neg (by rw [hv.len]; simp), if_neg, hred]
        · simp only [he']
        · simp
        · simp only [List.all_eq_true, not_forall]
          exact ⟨some (l ⟨0, hn0⟩), List.mem_ofFn.2 ⟨⟨0, hn0⟩, rfl⟩, by simp⟩
      · intro e'' h''
        cases h''
        refine ⟨hrd, hC', hR', ?_, _, hkp, hkm, hF', hval⟩
        intro c hc v
        rw [hcs'] at hc
        obtain ⟨i, rfl⟩ := List.mem_ofFn.1 hc
        have hm : e.cs[i] ∈ e.cs := List.getElem_mem i.2
        rw [(hg i).mem_scope (h.acc _ hm), scope_mem h hm]
    · rw [if_neg ht]
      have hno : ∀ v ∈ e.scope.query, v ∉ M := fun v hv hM => ht (touches_iff.2 ⟨v, hv, hM⟩)
      have hkr : ES.keepPos M e.scope.query = List.range e.F := by
        unfold ES.keepPos
        rw [List.filter_eq_self.2, hv.len]
        intro p hp
        have hp' : p < e.scope.query.length := by simpa using hp
        have := hno _ (List.getElem_mem hp')
        rw [List.getD_eq_getElem _ _ hp']
        simpa using this
      have hself : ∀ i (hi : i < e.cs.length), Good M T e.cs[i] e.cs[i] := by
        intro i hi
        have hm := List.getElem_mem hi
        refine good_self (h.acc _ hm) (hal _ hm) (hfc _ hm) (hln _ hm) (reps_same (h.acc _ hm) (hs _ hm)).1 ?_
        rw [← Bool.not_eq_true, touches_iff]
        rintro ⟨v, hv, hM⟩
        exact hno v ((scope_mem h hm v).2 hv) hM
      obtain ⟨e', he', hrd, hC', hR', hF', hcs', hval⟩ := rebuild h hR hT hfin hs (l := e.cs) rfl (M := M) hself hs
        (keep := ES.keepPos M e.scope.query) (fun c hc => (keepPos_eq h hv M hc).symm) (Fw := e.F) (by rw [hkr]; simp)
        (idx := fun k => k) (fun k hk => by rw [hkr, List.getD_eq_getElem _ _ (by simpa using hk)]; simp)
      refine ⟨some e', ?_, ⟨(fun h0 => by cases h0), fun h0 => absurd h0 hnone⟩, ?_⟩
      · simp only [bind, Except.bind, pure, Except.pure]
        have : (fun k => e.weight k) = e.weight := rfl
        rw [this] at he'
        simp only [he']
      · intro e'' h''
        cases h''
        refine ⟨hrd, hC', hR', ?_, _, hkp, hkm, hF', hval⟩
        intro c hc v
        rw [hcs'] at hc
        rw [← scope_mem h hc]
        exact ⟨fun hv => ⟨hv, hno v hv⟩, fun hv => hv.1⟩

end Verif.ESum

import Verif.Cms
import Verif.BuildKit
import Verif.LearnSpnProps
import Verif.SamplingProps

/-!
# Properties C64: the compiled continuous mixture is the trained one (factorized structure)
-/

namespace Verif.Cms

open Verif Verif.Circ Verif.LeafFit Verif.Build Verif.LearnSpn MeasureTheory Finset

/-! ## Specification -/

/-- The values a variable of the family takes. -/
def Exact : Fam → ℝ → Prop
  | .bernoulli, x => x = 0 ∨ x = 1
  | .categorical K, x => ∃ k < K, x = (k : ℝ)
  | .normal _, _ => True

/-- Reference measure of a variable. -/
noncomputable def ref : Fam → Measure ℝ
  | .bernoulli => Leaves.countBelow 2
  | .categorical K => Leaves.countBelow K
  | .normal _ => volume

/-- Admissible options. -/
def FamOk : Fam → Prop
  | .bernoulli => True
  | .categorical K => 2 ≤ K
  | .normal eps => 0 ≤ eps

/-- The variables `0, ..., F-1`. -/
def vars (F : ℕ) : Finset Var := (range F).image fun j : ℕ => (j : ℤ)

/-- A row of the data tensor: missing entries are NaN. -/
def toFl (x : Row) : ℕ → Fl := fun j => match x (j : ℤ) with
  | some t => .fin t
  | none => .nan

instance (fam : Fam) : SigmaFinite (ref fam) := by
  cases fam <;> unfold ref <;> infer_instance

/-! ## RQMC weights -/

/-- **C64, quadrature weights.** -/
theorem C64_rqmc (n d : ℤ) (eps : ℝ) :
    ((∃ ws, rqmcWeights n d eps = .ok ws) ↔ 1 ≤ n ∧ 1 ≤ d ∧ 0 < eps ∧ eps < 1 / 10) ∧
    ∀ ws, rqmcWeights n d eps = .ok ws → (ws.length : ℤ) = n ∧ ws.sum = 1 ∧ ∀ w ∈ ws, 0 < w := by
  unfold rqmcWeights
  constructor
  · split
    · simp; omega
    split
    · simp; omega
    split
    · rename_i h
      simp only [reduceCtorEq, exists_false, false_iff]
      rintro ⟨_, _, h1, h2⟩
      rcases h with h | h <;> linarith
    · rename_i h1 h2 h3
      push Not at h3
      simp only [Except.ok.injEq, exists_eq', true_iff]
      exact ⟨by omega, by omega, h3.1, h3.2⟩
  · intro ws h
    split at h
    · cases h
    split at h
    · cases h
    split at h
    · cases h
    rename_i h1 h2 h3
    injection h with h
    subst h
    have hn : (0 : ℝ) < n := by exact_mod_cast (by omega : 0 < n)
    have hc : ((n.toNat : ℕ) : ℝ) = n := by
      have : ((n.toNat : ℕ) : ℤ) = n := Int.toNat_of_nonneg (by omega)
      exact_mod_cast congrArg (fun z : ℤ => (z : ℝ)) this
    refine ⟨by simp; omega, ?_, fun w hw => ?_⟩
    · rw [List.sum_replicate, nsmul_eq_mul, hc]
      field_simp
    · rw [List.eq_of_mem_replicate hw]; positivity

/-! ## Leaves -/

theorem softplus_pos (x : ℝ) : 0 < softplus x := by
  unfold softplus
  exact Real.log_pos (by have := Real.exp_pos x; linarith)

theorem sigmoid_bounds (x : ℝ) : 0 < sigmoid x ∧ sigmoid x < 1 := by
  unfold sigmoid
  have := Real.exp_pos (-x)
  constructor
  · positivity
  · rw [div_lt_one (by positivity)]; linarith

theorem exp_neg_softplus (x : ℝ) : Real.exp (- softplus x) = sigmoid (-x) := by
  unfold softplus sigmoid
  rw [Real.exp_neg, Real.exp_log (by positivity), neg_neg, one_div]

theorem one_sub_sigmoid (x : ℝ) : 1 - sigmoid x = sigmoid (-x) := by
  unfold sigmoid
  rw [neg_neg, Real.exp_neg]
  have := Real.exp_pos x
  field_simp
  ring

/-- The training score of an observed value is the log-density of the compiled leaf. -/
theorem perFeat_eq {fam : Fam} (hfam : FamOk fam) (F : ℕ) (out : ℕ → ℝ) (j : ℕ) {x : ℝ} (hx : Exact fam x) :
    ((perFeat F out j fam x : ℝ) : LogV) = leafDens F out j fam x := by
  apply expL_injective
  cases fam with
  | bernoulli =>
    rw [expL_coe]
    simp only [perFeat, leafDens, Leaves.bernoulliLL]
    rcases hx with rfl | rfl
    · rw [if_neg (by norm_num), if_pos rfl, expL_logL (by linarith [(sigmoid_bounds (out j)).2]), one_sub_sigmoid,
        ← exp_neg_softplus]
      congr 1; ring
    · rw [if_pos rfl, expL_logL (sigmoid_bounds _).1.le, ← neg_neg (out j), ← exp_neg_softplus, neg_neg]
      congr 1; ring
  | categorical K =>
    obtain ⟨k, hk, rfl⟩ := hx
    rw [expL_coe]
    simp only [perFeat, leafDens, Nat.floor_natCast]
    rw [Leaves.categoricalLL_nat _ hk, expL_logSoftmax]
    simp only [expL_coe]
    rw [Real.exp_sub, Real.exp_log]
    exact sum_pos (fun i _ => Real.exp_pos _) ⟨k, mem_range.2 hk⟩
  | normal eps =>
    rw [expL_coe]
    simp only [perFeat, leafDens, Leaves.normalLL, expL_coe]
    congr 1
    have hs : 0 < softplus (out (F + j)) + eps := by
      have := softplus_pos (out (F + j))
      have : 0 ≤ eps := hfam
      linarith
    set s := softplus (out (F + j)) + eps
    clear_value s
    rw [Real.log_sqrt (by positivity)]
    field_simp
    ring

theorem leafDens_ok {fam : Fam} (hfam : FamOk fam) (F : ℕ) (out : ℕ → ℝ) (j : ℕ) :
    Measurable (fun t => expL (leafDens F out j fam t)) ∧
      ∫⁻ t, ENNReal.ofReal (expL (leafDens F out j fam t)) ∂ref fam = 1 := by
  cases fam with
  | bernoulli =>
    exact ⟨Leaves.bernoulli_measurable _, Leaves.bernoulli_normalised (sigmoid_bounds _).1.le (sigmoid_bounds _).2.le⟩
  | categorical K =>
    have hK : 2 ≤ K := hfam
    exact ⟨Leaves.categorical_measurable _ _, Leaves.categorical_normalised ⟨0, by omega, WithBot.coe_ne_bot⟩⟩
  | normal eps =>
    have hs : 0 < softplus (out (F + j)) + eps := by
      have := softplus_pos (out (F + j))
      have : 0 ≤ eps := hfam
      linarith
    exact ⟨Leaves.normal_measurable _ hs, Leaves.normal_normalised _ hs⟩

theorem leafDens_pos {fam : Fam} (hfam : FamOk fam) (F : ℕ) (out : ℕ → ℝ) (j : ℕ) {x : ℝ} (hx : Exact fam x) :
    leafDens F out j fam x ≠ ⊥ := by
  rw [← perFeat_eq hfam F out j hx]
  exact WithBot.coe_ne_bot

theorem exact_ok {fam : Fam} {x : ℝ} (hx : Exact fam x) : okValue fam x := by
  cases fam with
  | bernoulli =>
    rcases hx with rfl | rfl
    · simp [okValue, nearInt]; norm_num
    · simp [okValue, nearInt]; norm_num
  | categorical K =>
    obtain ⟨k, hk, rfl⟩ := hx
    refine ⟨?_, by positivity, by exact_mod_cast hk⟩
    unfold nearInt
    rw [round_natCast]
    simp
    positivity
  | normal eps => trivial

/-! ## Components -/

/-- The compiled leaf. -/
noncomputable def leafC (fam : Fam) (F : ℕ) (out : ℕ → ℝ) (j : ℕ) : Circ :=
  leaf [(j : ℤ)] 1 1 fun _ _ _ => leafDens F out j fam

theorem mapM_map {α β ε : Type} {f : α → Except ε β} {g : α → β} (l : List α) (h : ∀ a ∈ l, f a = .ok (g a)) :
    l.mapM f = .ok (l.map g) := by
  induction l with
  | nil => rfl
  | cons a l ih =>
    simp [List.mapM_cons, h a (by simp), ih fun x hx => h x (by simp [hx]), bind, Except.bind, pure, Except.pure]

theorem leafC_pre {fam : Fam} (hfam : FamOk fam) (F : ℕ) (out : ℕ → ℝ) (j : ℕ) :
    mkLeaf [(j : ℤ)] 1 1 (fun _ _ _ => leafDens F out j fam) = .ok (leafC fam F out j) ∧
      Pre (fun _ => ref fam) (fun v => v = (j : ℤ)) (leafC fam F out j) := by
  obtain ⟨h1, h2⟩ := leaf_pre (μ := fun _ => ref fam) (q := [(j : ℤ)]) (C := 1) (d := fun _ _ _ => leafDens F out j fam)
    (by simp) (by simp) le_rfl (fun _ _ _ _ => leafDens_ok hfam F out j)
  exact ⟨h1, h2.congr fun v => by simp⟩

theorem joint_leafC (fam : Fam) (F : ℕ) (out : ℕ → ℝ) (j : ℕ) (x : Row) :
    joint (leafC fam F out j) x 0 = expL (cellVal (leafDens F out j fam) (x (j : ℤ))) := by
  rw [joint_one rfl]
  unfold leafC
  rw [featAt_leaf (v := (j : ℤ)) rfl]
  cases x (j : ℤ) <;> rfl

/-- Structure shared by every module the compiler builds: channels, repetition 0, no dead unit on exact rows. -/
structure Smp (e : Row) (c : Circ) : Prop where
  pos : PosCh c
  rep : RepS 0 c
  live : Live e 0 c

theorem mkProd_smp {e : Row} {l : List Circ} {c : Circ} (h : mkProd l = .ok c) (hl : ∀ m ∈ l, Smp e m) : Smp e c := by
  rcases l with _ | ⟨a, _ | ⟨b, l⟩⟩
  · have h' : mkProd [] = .error .typeError := rfl
    rw [h'] at h; cases h
  · have h' : (Except.ok (prod a) : Except Exc Circ) = .ok c := h
    injection h' with h'
    subst h'
    have := hl a (by simp)
    exact ⟨this.pos, this.rep, this.live⟩
  · unfold mkProd mkCat at h
    cases hck : check1 (a :: b :: l) with
    | error e => simp [hck, bind, Except.bind] at h
    | ok u =>
      simp only [hck, bind, Except.bind, pure, Except.pure, if_true] at h
      injection h with h
      subst h
      exact ⟨fun i => (hl _ (List.get_mem _ i)).pos, fun i => (hl _ (List.get_mem _ i)).rep,
        fun i => (hl _ (List.get_mem _ i)).live⟩

theorem component_ok {fam : Fam} (hfam : FamOk fam) {F : ℕ} (hF : 1 ≤ F) (out : ℕ → ℝ) :
    ∃ c, component fam F out = .ok c ∧ Ok (fun _ => ref fam) (fun v => v ∈ vars F) c ∧ C c = 1 ∧
      (∀ x, expL (featAt (den c) 0 x 0 0) = ∏ j ∈ range F, expL (cellVal (leafDens F out j fam) (x (j : ℤ)))) ∧
      ∀ e, Smp e c := by
  have hm : ((List.range F).mapM fun j : ℕ => mkLeaf [(j : ℤ)] 1 1 fun _ _ _ => leafDens F out j fam) =
      .ok ((List.range F).map (leafC fam F out)) := mapM_map _ fun j _ => (leafC_pre hfam F out j).1
  obtain ⟨c, h1, h2, h3⟩ := prod_ok (μ := fun _ => ref fam) (l := (List.range F).map (leafC fam F out)) (K := 1)
    (Vs := fun m v => v ∈ (scope m).query) (by simp; omega)
    (by
      intro m hm
      obtain ⟨j, _, rfl⟩ := List.mem_map.1 hm
      have := (leafC_pre hfam F out j).2
      exact this.congr fun v => (this.sc v).symm)
    (by intro m hm; obtain ⟨j, _, rfl⟩ := List.mem_map.1 hm; rfl)
    (by
      rw [List.pairwise_map]
      refine List.Pairwise.imp ?_ (List.nodup_range (n := F))
      intro a b hab v h1 h2
      rw [(leafC_pre hfam F out a).2.sc] at h1
      rw [(leafC_pre hfam F out b).2.sc] at h2
      apply hab
      exact_mod_cast h1.symm.trans h2)
  refine ⟨c, ?_, h2.congr fun v => ?_, h3, fun x => ?_, fun e => mkProd_smp h1 ?_⟩
  · unfold component
    rw [hm]
    exact h1
  · constructor
    · rintro ⟨m, hm, hv⟩
      obtain ⟨j, hj, rfl⟩ := List.mem_map.1 hm
      rw [(leafC_pre hfam F out j).2.sc] at hv
      exact mem_image.2 ⟨j, mem_range.2 (List.mem_range.1 hj), hv.symm⟩
    · intro hv
      obtain ⟨j, hj, rfl⟩ := mem_image.1 hv
      exact ⟨_, List.mem_map.2 ⟨j, List.mem_range.2 (mem_range.1 hj), rfl⟩, ((leafC_pre hfam F out j).2.sc _).2 rfl⟩
  · rw [mkProd_value h1, List.map_map]
    show ((List.range F).map fun j => joint (leafC fam F out j) x 0).prod = _
    rw [List.map_congr_left (g := fun j : ℕ => expL (cellVal (leafDens F out j fam) (x (j : ℤ))))
      fun j _ => joint_leafC fam F out j x]
    rfl
  · intro m hm
    obtain ⟨j, _, rfl⟩ := List.mem_map.1 hm
    exact ⟨le_rfl, Nat.zero_lt_one, trivial⟩

/-! ## The mixture -/

theorem spread_ones (ws : List ℝ) (cs : List Circ) (hlen : ws.length = cs.length) (h : ∀ c ∈ cs, C c = 1) :
    spread (ws.zip cs) = ws := by
  induction ws generalizing cs with
  | nil => simp [spread]
  | cons w ws ih =>
    rcases cs with _ | ⟨c, cs⟩
    · simp at hlen
    · rw [List.zip_cons_cons, spread, h c (by simp), ih cs (by simpa using hlen) fun d hd => h d (by simp [hd])]
      simp

theorem mkSum_smp {e : Row} {l : List Circ} {w : Weights} {c : Circ} (h : mkSum l w = .ok c) (hl : ∀ m ∈ l, Smp e m)
    (hR : w.R = 1) (hv : ∀ f < F c, ∀ co < C c, featAt (den c) f e 0 co ≠ ⊥) : Smp e c := by
  unfold mkSum at h
  simp only [bind, Except.bind, pure, Except.pure, throw, throwThe, MonadExceptOf.throw] at h
  split at h
  · cases h
  split at h
  · cases h
  have fin : ∀ c' θ, Smp e c' → c'.sum w.Co w.R θ = c → Smp e c := by
    intro c' θ hs h
    subst h
    exact ⟨hs.pos, ⟨hs.rep, by rw [hR]; exact Nat.zero_lt_one⟩, ⟨hs.live, hv⟩⟩
  rcases l with _ | ⟨a, _ | ⟨b, l⟩⟩
  · simp at *
  · cases hθ : setWeights a w.Co w.R w with
    | error err => simp only [hθ] at h; cases h
    | ok θ =>
      simp only [hθ] at h
      injection h with h
      exact fin a θ (hl a (by simp)) h
  · cases hck : check2 (a :: b :: l) with
    | error err =>
      have : mkCat 2 (a :: b :: l) = .error err := by
        unfold mkCat
        rw [if_neg (by norm_num), if_pos rfl, hck]; rfl
      simp only [this] at h
      cases h
    | ok u =>
      have : mkCat 2 (a :: b :: l) = .ok (cat2 (a :: b :: l).length (a :: b :: l).get) := by
        unfold mkCat
        rw [if_neg (by norm_num), if_pos rfl, hck]; rfl
      simp only [this] at h
      cases hθ : setWeights (cat2 (a :: b :: l).length (a :: b :: l).get) w.Co w.R w with
      | error err => simp only [hθ] at h; cases h
      | ok θ =>
        simp only [hθ] at h
        injection h with h
        exact fin (cat2 (a :: b :: l).length (a :: b :: l).get) θ ⟨fun i => (hl _ (List.get_mem _ i)).pos,
          fun i => (hl _ (List.get_mem _ i)).rep, fun i => (hl _ (List.get_mem _ i)).live⟩ h

theorem sum_zip (ws : List ℝ) (outs : List (ℕ → ℝ)) (cs : List Circ) (φ : Circ → ℝ) (ψ : (ℕ → ℝ) → ℝ)
    (h : List.Forall₂ (fun o c => φ c = ψ o) outs cs) (hlen : ws.length = outs.length) :
    ((ws.zip cs).map fun a => a.1 * φ a.2).sum = ∑ i ∈ range ws.length, ws.getD i 0 * ψ (outs.getD i fun _ => 0) := by
  induction h generalizing ws with
  | nil =>
    have : ws = [] := List.length_eq_zero_iff.1 hlen
    subst this; simp
  | cons h1 _ ih =>
    rcases ws with _ | ⟨w, ws⟩
    · simp at hlen
    · rw [List.zip_cons_cons, List.map_cons, List.sum_cons, ih ws (by simpa using hlen), List.length_cons,
        sum_range_succ', h1, add_comm]
      simp

/-- The density of the compiled model: the weighted sum over the integration points of the product of the densities that
the decoder output describes. -/
noncomputable def mixture (fam : Fam) (F : ℕ) (outs : List (ℕ → ℝ)) (ws : List ℝ) (x : Row) : ℝ :=
  ∑ i ∈ range ws.length, ws.getD i 0 * ∏ j ∈ range F, expL (cellVal (leafDens F (outs.getD i fun _ => 0) j fam) (x (j : ℤ)))

theorem mixture_pos {fam : Fam} (hfam : FamOk fam) (F : ℕ) {outs : List (ℕ → ℝ)} {ws : List ℝ}
    (hne : outs ≠ []) (hlen : ws.length = outs.length) (hw : ∀ w ∈ ws, 0 < w) {e : Row}
    (he : ∀ v t, e v = some t → Exact fam t) : 0 < mixture fam F outs ws e := by
  refine sum_pos (fun i hi => mul_pos ?_ (prod_pos fun j _ => ?_)) ?_
  · rw [List.getD_eq_getElem _ _ (mem_range.1 hi)]
    exact hw _ (List.getElem_mem _)
  · rw [expL_pos_iff]
    cases hx : e (j : ℤ) with
    | none => simp [cellVal]
    | some t => exact leafDens_pos hfam F _ j (he _ _ hx)
  · refine ⟨0, mem_range.2 ?_⟩
    rw [hlen]
    exact List.length_pos_of_ne_nil hne

theorem compile_ok {fam : Fam} (hfam : FamOk fam) {F : ℕ} (hF : 1 ≤ F) {outs : List (ℕ → ℝ)} {ws : List ℝ}
    (hne : outs ≠ []) (hlen : ws.length = outs.length) (hw : ∀ w ∈ ws, 0 < w) (hs : ws.sum = 1) :
    ∃ c, compile fam F outs ws = .ok c ∧ Ok (fun _ => ref fam) (fun v => v ∈ vars F) c ∧ C c = 1 ∧
      (∀ x, expL (featAt (den c) 0 x 0 0) = mixture fam F outs ws x) ∧
      ∀ e, (∀ v t, e v = some t → Exact fam t) → Smp e c := by
  obtain ⟨cs, hcs, hf⟩ := mapM_ok (f := component fam F) (P := fun out c =>
      Ok (fun _ => ref fam) (fun v => v ∈ vars F) c ∧ C c = 1 ∧
      (∀ x, expL (featAt (den c) 0 x 0 0) = ∏ j ∈ range F, expL (cellVal (leafDens F out j fam) (x (j : ℤ)))) ∧
      ∀ e, Smp e c) outs (fun out _ => component_ok hfam hF out)
  have hlen' : ws.length = cs.length := by rw [hlen]; exact hf.length_eq
  have hcs1 : ∀ c ∈ cs, Ok (fun _ => ref fam) (fun v => v ∈ vars F) c ∧ C c = 1 ∧ ∀ e, Smp e c := by
    intro c hc
    obtain ⟨o, _, h1, h2, _, h4⟩ := forall₂_mem_right hf hc
    exact ⟨h1, h2, h4⟩
  have hcne : cs ≠ [] := by
    intro h
    rw [h] at hf
    have := hf.length_eq
    simp at this
    exact hne this
  have hzip : ∀ a ∈ ws.zip cs, a.1 ∈ ws ∧ a.2 ∈ cs := fun a ha => ⟨(List.of_mem_zip ha).1, (List.of_mem_zip ha).2⟩
  have hfst : (ws.zip cs).map Prod.fst = ws := List.map_fst_zip (by omega)
  have hsnd : (ws.zip cs).map Prod.snd = cs := List.map_snd_zip (by omega)
  obtain ⟨c, h1, h2, h3, h4⟩ := sum_ok (μ := fun _ => ref fam) (l := ws.zip cs) (V := fun v => v ∈ vars F)
    (by intro h; apply hcne; rw [← hsnd, h]; rfl)
    (fun a ha => (hcs1 _ (hzip a ha).2).1) (fun a ha => hw _ (hzip a ha).1) (by rw [hfst]; exact hs)
  have hW : spreadW 1 (ws.zip cs) = ⟨1, ws.length, 1, 1, fun _ i _ _ => ws.getD i 0⟩ := by
    have hsum : ((ws.zip cs).map Prod.snd |>.map C).sum = ws.length := by
      rw [hsnd, List.map_congr_left (g := fun _ => 1) fun c hc => (hcs1 c hc).2.1]
      simp [hlen']
    unfold spreadW
    rw [spread_ones ws cs hlen' fun c hc => (hcs1 c hc).2.1, hsum]
  rw [hsnd, hW] at h1
  have hval : ∀ x, expL (featAt (den c) 0 x 0 0) = mixture fam F outs ws x := by
    intro x
    rw [h4 x]
    have hone : ∀ a ∈ ws.zip cs, a.1 * ((∑ k ∈ range (C a.2), expL (featAt (den a.2) 0 x 0 k)) / (C a.2 : ℝ)) =
        a.1 * expL (featAt (den a.2) 0 x 0 0) := by
      intro a ha
      rw [(hcs1 _ (hzip a ha).2).2.1]
      simp
    rw [List.map_congr_left hone]
    exact sum_zip ws outs cs (fun c => expL (featAt (den c) 0 x 0 0))
      (fun o => ∏ j ∈ range F, expL (cellVal (leafDens F o j fam) (x (j : ℤ)))) (hf.imp fun _ _ h => h.2.2.1 x) hlen
  refine ⟨c, ?_, h2, h3, hval, fun e he => mkSum_smp h1 (fun m hm => (hcs1 m hm).2.2 e) rfl ?_⟩
  · unfold compile broadcastWeights
    rw [hcs]
    simp only [bind, Except.bind, pure, Except.pure, throw, throwThe, MonadExceptOf.throw]
    rw [if_neg (by simpa using hcne), if_neg (by rw [not_not]; exact hw), if_neg (by rw [not_not, hs]; norm_num)]
    exact h1
  · intro f hf co hco
    rw [h2.one] at hf
    rw [h3] at hco
    have hf0 : f = 0 := by omega
    have hc0 : co = 0 := by omega
    rw [hf0, hc0, ← expL_pos_iff, hval]
    exact mixture_pos hfam F hne hlen hw he

theorem expL_cell {fam : Fam} (hfam : FamOk fam) (F : ℕ) (out : ℕ → ℝ) (j : ℕ) {x : Row}
    (hx : ∀ v t, x v = some t → Exact fam t) :
    Real.exp (perCell F out j fam (toFl x j)) = expL (cellVal (leafDens F out j fam) (x (j : ℤ))) := by
  unfold toFl
  cases h : x (j : ℤ) with
  | none => simp [perCell, cellVal]
  | some t =>
    show Real.exp (perFeat F out j fam t) = expL (leafDens F out j fam t)
    rw [← perFeat_eq hfam F out j (hx _ _ h), expL_coe]

/-- **C64, factorized structure.** For every family, number of features, decoder output and list of weights (each at least
1e-30, summing to one) the compiler succeeds; the module it returns is a normalised density over the `F` variables; and on
every batch of rows whose observed entries are values of the family (others missing), its log-likelihood is exactly the
objective that training maximised. -/
theorem C64_compiled_is_objective {fam : Fam} (hfam : FamOk fam) {F : ℕ} (hF : 1 ≤ F) {outs : List (ℕ → ℝ)}
    {ws : List ℝ} (hne : outs ≠ []) (hlen : ws.length = outs.length) (hw : ∀ w ∈ ws, (1e-30 : ℝ) ≤ w)
    (hs : ws.sum = 1) :
    ∃ c, compile fam F outs ws = .ok c ∧ Valid (fun _ => ref fam) (vars F) c ∧ C c = 1 ∧
      ∀ rows : List Row, (∀ x ∈ rows, ∀ v t, x v = some t → Exact fam t) →
        ∃ lls, factorizedLL fam F outs (rows.map toFl) = .ok lls ∧
          ∀ b (hb : b < rows.length),
            mixtureLL ws (lls.map fun l => l.getD b 0) = .ok (featAt (den c) 0 rows[b] 0 0) := by
  obtain ⟨c, h1, h2, h3, h4, -⟩ := compile_ok hfam hF hne hlen (fun w h => lt_of_lt_of_le (by norm_num) (hw w h)) hs
  refine ⟨c, h1, valid_of_ok h2 fun v => Iff.rfl, h3, fun rows hrows => ?_⟩
  refine ⟨outs.map fun out => (rows.map toFl).map fun row => ∑ j ∈ range F, perCell F out j fam (row j), ?_, ?_⟩
  · unfold factorizedLL
    rw [if_neg, if_neg]
    · rw [not_not]
      intro row hrow j _ t ht
      obtain ⟨x, hx, rfl⟩ := List.mem_map.1 hrow
      unfold toFl at ht
      cases hxj : x (j : ℤ) with
      | none => rw [hxj] at ht; cases ht
      | some u =>
        rw [hxj] at ht
        injection ht with ht
        subst ht
        exact exact_ok (hrows x hx _ _ hxj)
    · rw [not_not]
      cases fam with
      | bernoulli => trivial
      | categorical K => exact hfam
      | normal eps => trivial
  · intro b hb
    unfold mixtureLL
    rw [if_neg (by simp [hlen])]
    congr 1
    apply expL_injective
    rw [expL_lse, h4, mixture]
    refine sum_congr rfl fun i hi => ?_
    have hi' := mem_range.1 hi
    have hio : i < outs.length := by omega
    have hwi : (1e-30 : ℝ) ≤ ws.getD i 0 := by
      rw [List.getD_eq_getElem _ _ hi']; exact hw _ (List.getElem_mem _)
    rw [expL_add, max_eq_left hwi, expL_logL (le_trans (by norm_num) hwi), expL_coe]
    congr 1
    have : ((outs.map fun out => (rows.map toFl).map fun row => ∑ j ∈ range F, perCell F out j fam (row j)).map
        fun l => l.getD b 0).getD i 0 = ∑ j ∈ range F, perCell F (outs.getD i fun _ => 0) j fam (toFl rows[b] j) := by
      rw [List.map_map, List.getD_eq_getElem _ _ (by simpa using hio), List.getD_eq_getElem _ _ hio]
      simp [hb]
    rw [this, Real.exp_sum]
    exact prod_congr rfl fun j _ => expL_cell hfam F _ j fun v t h => hrows _ (List.getElem_mem _) v t h

/-- **C64, sampling (factorized).** Sampling the compiled module given any evidence row (with values of the family) returns
each completion with its conditional probability under the trained mixture. -/
theorem C64_sample_factorized {fam : Fam} (hfam : FamOk fam) {F : ℕ} (hF : 1 ≤ F) {outs : List (ℕ → ℝ)}
    {ws : List ℝ} (hne : outs ≠ []) (hlen : ws.length = outs.length) (hw : ∀ w ∈ ws, 0 < w) (hs : ws.sum = 1)
    {c : Circ} (hc : compile fam F outs ws = .ok c) (e x : Row) (he : ∀ v t, e v = some t → Exact fam t)
    (hx : Completes c e x) :
    (sampleWithEvidence c e).prob x = ENNReal.ofReal (mixture fam F outs ws x / mixture fam F outs ws e) := by
  obtain ⟨c', h1, h2, h3, h4, h5⟩ := compile_ok hfam hF hne hlen hw hs
  rw [hc] at h1
  injection h1 with h1
  subst h1
  have hl : ∀ y, likelihood c y = mixture fam F outs ws y := by
    intro y
    unfold likelihood
    rw [h2.one, prod_range_one, h4]
  have hsmp := h5 e he
  rw [C14_conditional_partial h2.acc h2.al hsmp.pos hsmp.rep e hsmp.live ?_ x hx, hl, hl]
  rw [hl]
  exact (mixture_pos hfam F hne hlen hw he).ne'

end Verif.Cms

import Verif.HcltIndep

/-!
C70: the constructor of a hidden Chow-Liu tree, the mixture of trees and the learner.
-/

namespace Verif.Hclt

open Finset MeasureTheory Verif.Circ
open Verif.Span (Edge Adj IsSpanningTree)
open Verif.LP (Mod)
open Verif.LP.Mod (Good)

variable {n : ℕ} {μ : Var → Measure ℝ}

/-! ### Specification -/

/-- What the constructors draw is usable: the emissions are normalised densities, the random Sum weights are positive and
sum to one (sum.py:173-177). -/
structure DrawsOk (μ : Var → Measure ℝ) (H : ℕ) (D : Draws n) : Prop where
  em : EmOk μ H D.em
  trans : ∀ v, (∀ z < H, 0 < D.trans v z) ∧ ∑ z ∈ range H, D.trans v z = 1
  prior : (∀ z < H, 0 < D.prior z) ∧ ∑ z ∈ range H, D.prior z = 1

/-- Channels of the transition Sums. -/
def chans (H : ℕ) (uniform : Bool) : ℕ := if uniform then H else 1

/-- Initial transition logits. -/
noncomputable def theta0 (H : ℕ) (uniform : Bool) (D : Draws n) (v : Fin n) (ci _co : ℕ) : LogV :=
  logL (if uniform then 1 / (H : ℝ) else D.trans v ci)

/-- Initial prior logits. -/
noncomputable def pi0 (H : ℕ) (uniform : Bool) (D : Draws n) (ci : ℕ) : LogV :=
  logL (if uniform then 1 / (H : ℝ) else D.prior ci)

/-! ### Sums of one input -/

theorem close_one {s : ℝ} (h : s = 1) : CloseToOne s := by
  unfold CloseToOne
  rw [h, sub_self, abs_zero]
  positivity

theorem setWeights_ok {m : Mod} {w : Weights} (hF : w.Fw = m.F) (hC : w.Ci = m.C)
    (hp : ∀ f < w.Fw, ∀ ci < w.Ci, ∀ co < w.Co, ∀ r < w.R, 0 < w.val f ci co r)
    (hs : ∀ f < w.Fw, ∀ co < w.Co, ∀ r < w.R, ∑ ci ∈ range w.Ci, w.val f ci co r = 1) :
    Mod.setWeights m w.Co w.R w = .ok fun f ci co r => logL (w.val f ci co r) := by
  unfold Mod.setWeights
  rw [if_neg (not_not.2 ⟨hF, hC, rfl, rfl⟩), if_neg (not_not.2 hp),
    if_neg (not_not.2 fun f hf co hco r hr => close_one (hs f hf co hco r hr))]

theorem mkSum_one {m : Mod} {w : Weights} (hF : w.Fw = m.F) (hC : w.Ci = m.C) (hCo : 1 ≤ w.Co)
    (hp : ∀ f < w.Fw, ∀ ci < w.Ci, ∀ co < w.Co, ∀ r < w.R, 0 < w.val f ci co r)
    (hs : ∀ f < w.Fw, ∀ co < w.Co, ∀ r < w.R, ∑ ci ∈ range w.Ci, w.val f ci co r = 1) :
    Mod.mkSum [m] w = .ok (.sum m w.Co w.R fun f ci co r => logL (w.val f ci co r)) := by
  have h1 : ¬ w.Co < 1 := by omega
  simp only [Mod.mkSum, List.isEmpty_cons, h1, if_false, setWeights_ok hF hC hp hs, bind, Except.bind, pure, Except.pure,
    Bool.false_eq_true]

theorem sum_unif {H : ℕ} (hH : 1 ≤ H) : ∑ _ci ∈ range H, 1 / (H : ℝ) = 1 := by
  rw [sum_const, card_range, nsmul_eq_mul]
  field_simp

section

variable {edges : List (Edge n)} {r : Fin n} {par : Fin n → Option (Fin n)} {d : Fin n → ℕ} {H : ℕ} {uniform : Bool}
  {D : Draws n}

theorem chans_pos (hH : 1 ≤ H) : 1 ≤ chans H uniform := by unfold chans; split_ifs <;> omega

theorem chans_width : Width H (chans H uniform) := by unfold chans Width; split_ifs <;> simp

theorem logL_ne_bot {p : ℝ} (h : 0 < p) : logL p ≠ ⊥ := by
  intro hc
  have := expL_logL h.le
  rw [hc, expL_bot] at this
  exact h.ne this

theorem theta0_finite (hH : 1 ≤ H) (hD : DrawsOk μ H D) : Finite H (chans H uniform) (theta0 H uniform D) := by
  intro v ci hci co _
  unfold theta0
  refine logL_ne_bot ?_
  split_ifs
  · positivity
  · exact (hD.trans v).1 ci hci

theorem theta0_usable (hH : 1 ≤ H) (hD : DrawsOk μ H D) : Usable H (chans H uniform) (theta0 H uniform D) :=
  fun v co hco => ⟨0, hH, theta0_finite hH hD v 0 hH co hco⟩

theorem pi0_finite (hH : 1 ≤ H) (hD : DrawsOk μ H D) : ∀ z < H, pi0 H uniform D z ≠ ⊥ := by
  intro z hz
  unfold pi0
  refine logL_ne_bot ?_
  split_ifs
  · positivity
  · exact hD.prior.1 z hz

theorem trans_sum (hH : 1 ≤ H) (hD : DrawsOk μ H D) {m : Mod} (hF : m.F = 1) (hC : m.C = H) (u : Fin n) :
    Mod.mkSum [m] (transWeights H uniform D u) = .ok (.sum m (chans H uniform) 1 fun _ ci co _ => theta0 H uniform D u ci co) := by
  cases uniform with
  | true =>
    exact mkSum_one (w := ⟨1, H, H, 1, fun _ _ _ _ => 1 / (H : ℝ)⟩) hF.symm hC.symm hH
      (fun _ _ _ _ _ _ _ _ => by positivity) fun _ _ _ _ _ _ => sum_unif hH
  | false =>
    exact mkSum_one (w := ⟨1, H, 1, 1, fun _ ci _ _ => D.trans u ci⟩) hF.symm hC.symm le_rfl
      (fun _ _ ci hci _ _ _ _ => (hD.trans u).1 ci hci) fun _ _ _ _ _ _ => (hD.trans u).2

theorem prior_sum (hH : 1 ≤ H) (hD : DrawsOk μ H D) {m : Mod} (hF : m.F = 1) (hC : m.C = H) :
    Mod.mkSum [m] (priorWeights H uniform D) = .ok (.sum m 1 1 fun _ ci _ _ => pi0 H uniform D ci) := by
  refine mkSum_one (w := priorWeights H uniform D) hF.symm hC.symm le_rfl (fun _ _ ci hci _ _ _ _ => ?_) fun _ _ _ _ _ _ => ?_
  · show 0 < if uniform then 1 / (H : ℝ) else D.prior ci
    split_ifs
    · positivity
    · exact hD.prior.1 ci hci
  · show ∑ ci ∈ range H, (if uniform then 1 / (H : ℝ) else D.prior ci) = 1
    split_ifs
    · exact sum_unif hH
    · exact hD.prior.2

/-! ### The recursion -/

theorem mapM_map_ok {α β ε : Type} {f : α → Except ε β} {g : α → β} (l : List α) (h : ∀ a ∈ l, f a = .ok (g a)) :
    l.mapM f = .ok (l.map g) := by
  induction l with
  | nil => rfl
  | cons a l ih =>
    rw [List.mapM_cons, h a (by simp), ih fun x hx => h x (by simp [hx])]
    rfl

theorem emission_ok (hH : 1 ≤ H) (hD : DrawsOk μ H D) (v : Fin n) : emission H D v = .ok (leafOf H D.em v) := by
  unfold emission
  rw [(leaf_ok hH hD.em v).2]
  rfl

theorem subtree_succ (hH : 1 ≤ H) (hD : DrawsOk μ H D) (k : ℕ) (v : Fin n) :
    subtree (fun v => edges.flatMap (ends v)) H uniform D (k + 1) v (par v) =
      (((kids edges par v).mapM (message (fun u => subtree (fun v => edges.flatMap (ends v)) H uniform D k u (some v)) H
        uniform D)).bind (joinMsgs (leafOf H D.em v))) := by
  rw [subtree, emission_ok hH hD v]
  rfl

theorem subtree_ok (hT : TreeList edges) (h : Rooted edges.toFinset r par d) (hH : 1 ≤ H) (hD : DrawsOk μ H D) :
    ∀ k v, (∀ w, Below par v w → d w < k + d v) →
      subtree (fun v => edges.flatMap (ends v)) H uniform D k v (par v) =
        .ok (net (fun v => edges.flatMap (ends v)) H (chans H uniform) D.em (theta0 H uniform D) k v (par v)) := by
  intro k
  induction k with
  | zero => intro v hv; have := hv v .self; omega
  | succ k ih =>
    intro v hv
    obtain ⟨hnd, hmem⟩ := children_spec hT h v
    have hk : ∀ u ∈ kids edges par v, ∀ w, Below par u w → d w < k + d u := fun u hu w hw => by
      have hp := (hmem u).1 hu
      have := h.depth u v hp
      have := hv w (.head hp hw)
      omega
    have hS : ∀ u ∈ kids edges par v, SubOk μ H (Below par u)
        (net (fun v => edges.flatMap (ends v)) H (chans H uniform) D.em (theta0 H uniform D) k u (some v)) := by
      intro u hu
      have := sub_ok hT h hH chans_width hD.em (theta0_usable (uniform := uniform) hH hD) k u (hk u hu)
      rwa [(hmem u).1 hu] at this
    have hmsg : ∀ u ∈ kids edges par v,
        message (fun u => subtree (fun v => edges.flatMap (ends v)) H uniform D k u (some v)) H uniform D u =
          .ok (msgOf edges H (chans H uniform) D.em (theta0 H uniform D) k v u) := by
      intro u hu
      have hI := ih u (hk u hu)
      rw [(hmem u).1 hu] at hI
      unfold message
      beta_reduce
      rw [hI]
      exact trans_sum hH hD (hS u hu).F1 (hS u hu).CH u
    rw [subtree_succ hH hD, mapM_map_ok _ hmsg, net_succ]
    unfold joinMsgs joined Except.bind
    dsimp only
    by_cases he : ((kids edges par v).map (msgOf edges H (chans H uniform) D.em (theta0 H uniform D) k v)).isEmpty = true
    · rw [if_pos he, if_pos he]
    · rw [if_neg he, if_neg he]
      refine (mul_ok (μ := μ) (Co := chans H uniform) hH chans_width (leaf_ok hH hD.em v).1 (B := Below par)
        (fun u hu => sum_ok (chans_pos hH) (hS u hu) (theta0_usable hH hD u)) ?_ (pairwise_kids hT h v)).1
      rintro u hu w rfl hb
      have h1 := h.depth u w ((hmem u).1 hu)
      have := hb.depth h
      omega

theorem subtree_deep (hT : TreeList edges) (h : Rooted edges.toFinset r par d) (hH : 1 ≤ H) (hD : DrawsOk μ H D) :
    ∀ k v, (∃ w, Below par v w ∧ k + d v ≤ d w) →
      subtree (fun v => edges.flatMap (ends v)) H uniform D k v (par v) = .error .recursionError := by
  intro k
  induction k with
  | zero => intro v _; rfl
  | succ k ih =>
    rintro v ⟨w, hw, hdw⟩
    obtain ⟨hnd, hmem⟩ := children_spec hT h v
    obtain ⟨u, hu, hub⟩ : ∃ u, par u = some v ∧ Below par u w := by
      rcases below_cases hw with rfl | h1
      · omega
      · exact h1
    rw [subtree_succ hH hD, CNet.mapM_dichotomy (e := .recursionError)]
    · rfl
    · intro a ha
      have hp := (hmem a).1 ha
      by_cases hex : ∃ w, Below par a w ∧ k + d a ≤ d w
      · right
        have := ih a hex
        rw [hp] at this
        unfold message
        beta_reduce
        rw [this]; rfl
      · left
        push Not at hex
        have := subtree_ok (uniform := uniform) hT h hH hD k a hex
        have hS := sub_ok hT h hH chans_width hD.em (theta0_usable (uniform := uniform) hH hD) k a hex
        rw [hp] at this hS
        refine ⟨msgOf edges H (chans H uniform) D.em (theta0 H uniform D) k v a, ?_⟩
        · unfold message
          beta_reduce
          rw [this]
          exact trans_sum hH hD hS.F1 hS.CH a
    · refine ⟨u, (hmem u).2 hu, ?_⟩
      have := ih u ⟨w, hub, by have := h.depth u v hu; omega⟩
      rw [hu] at this
      unfold message
      beta_reduce
      rw [this]; rfl

/-- **C70 (construction).** For a spanning tree and at least one hidden state the constructor succeeds exactly if the tree,
hung up at column 0, is shallower than the recursion limit; the result is the circuit of the density theorem with the
initial parameters. -/
theorem C70_construction (hT : TreeList edges) (hn : 0 < n) (h : Rooted edges.toFinset ⟨0, hn⟩ par d) (hH : 1 ≤ H)
    (hD : DrawsOk μ H D) (fuel : ℕ) :
    buildTree fuel edges H uniform D = if ∀ v, d v < fuel then
      .ok (hclt fuel edges ⟨0, hn⟩ H (chans H uniform) D.em (theta0 H uniform D) (pi0 H uniform D)) else .error .recursionError := by
  have hlt : ∀ e ∈ edges, e.1 < e.2 := fun e he => hT.2.1 e (List.mem_toFinset.2 he)
  have hlen : edges.length + 1 = n := by
    have := hT.2.2.1
    rwa [List.toFinset_card_of_nodup hT.1] at this
  have h1 : ¬ H < 1 := by omega
  have h2 : ¬ (edges.length + 1 ≠ n) := not_not.2 hlen
  unfold buildTree
  rw [if_neg h1, if_neg h2, adjacency_ok hlt]
  simp only [bind, Except.bind, pure, Except.pure, dif_pos hn]
  split_ifs with hd
  · have hok := subtree_ok (uniform := uniform) hT h hH hD fuel ⟨0, hn⟩ fun w _ => by have := hd w; omega
    have hS := sub_ok hT h hH chans_width hD.em (theta0_usable (uniform := uniform) hH hD) fuel ⟨0, hn⟩
      fun w _ => by have := hd w; omega
    rw [h.root] at hok hS
    rw [hok]
    exact prior_sum hH hD hS.F1 hS.CH
  · push Not at hd
    obtain ⟨w, hw⟩ := hd
    have := subtree_deep (uniform := uniform) hT h hH hD fuel ⟨0, hn⟩ ⟨w, below_root h w, by rw [h.zero]; omega⟩
    rw [h.root] at this
    rw [this]

/-- **C70 (rejections).** No hidden state, a wrong number of edges, or a self-edge. -/
theorem C70_rejects (fuel : ℕ) (edges : List (Edge n)) (D : Draws n) :
    buildTree fuel edges 0 uniform D = .error .invalidParameter ∧
    (edges.length + 1 ≠ n → ∀ H, buildTree fuel edges H uniform D = .error .invalidParameter) ∧
    ((∃ v, (v, v) ∈ edges) → ∀ H, buildTree fuel edges H uniform D = .error .invalidParameter) ∧
    ∀ mi H pick D' mix, learn (n := n) fuel mi 0 H uniform pick D' mix = .error .invalidParameter := by
  refine ⟨rfl, fun h H => ?_, fun ⟨v, hv⟩ H => ?_, fun _ _ _ _ _ => rfl⟩
  · unfold buildTree
    by_cases h1 : H < 1
    · rw [if_pos h1]; rfl
    · rw [if_neg h1, if_pos h]; rfl
  · unfold buildTree
    by_cases h1 : H < 1
    · rw [if_pos h1]; rfl
    · by_cases h2 : edges.length + 1 ≠ n
      · rw [if_neg h1, if_pos h2]; rfl
      · have : adjacency edges = .error .invalidParameter := by
          unfold adjacency
          rw [if_pos]
          exact List.any_eq_true.2 ⟨_, hv, by simp⟩
        rw [if_neg h1, if_neg h2, this]; rfl

end

end Verif.Hclt

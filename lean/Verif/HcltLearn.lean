import Verif.HcltBuild

/-!
C70: the mixture of hidden Chow-Liu trees and the learner.
-/

namespace Verif.Hclt

open Finset MeasureTheory Verif.Circ
open Verif.Prog (Fails Outcome)
open Verif.Span (Edge Adj IsSpanningTree)
open Verif.LP (Mod)
open Verif.LP.Mod (Good)

variable {n : ℕ} {μ : Var → Measure ℝ}

/-! ### The mixture -/

/-- Sum over the circuits `ms` with logits `ω`. -/
def mixture (ms : List Mod) (ω : ℕ → LogV) : Mod := .sum (.cat2 ms.length ms.get) 1 1 fun _ ci _ _ => ω ci

/-- What the learner returns for the circuits `ms`: a single one is returned as it is. -/
def assemble (ms : List Mod) (ω : ℕ → LogV) : Mod := if ms.length = 1 then ms.headD (mixture ms ω) else mixture ms ω

section

variable {ms : List Mod}

theorem cat2_ok (h : ∀ m ∈ ms, SubOk μ 1 (fun _ : Fin n => True) m) (hne : 0 < ms.length) :
    Mod.check2 ms = .ok () ∧ SubOk μ ms.length (fun _ : Fin n => True) (.cat2 ms.length ms.get) := by
  have hget : ∀ i, SubOk μ 1 (fun _ : Fin n => True) (ms.get i) := fun i => h _ (List.get_mem ms i)
  have hsc : Scope.allEqual (ms.map Mod.scope) = true := by
    rw [Scope.C03_allEqual]
    intro a ha b hb
    obtain ⟨ma, hma, rfl⟩ := List.mem_map.1 ha
    obtain ⟨mb, hmb, rfl⟩ := List.mem_map.1 hb
    rw [Scope.pyEq_iff]
    refine ⟨fun x => by rw [(h ma hma).sc x, (h mb hmb).sc x], fun x => ?_⟩
    rw [(Mod.scope_facts (h ma hma).good).2.1, (Mod.scope_facts (h mb hmb).good).2.1]
  have hck : Mod.check2 ms = .ok () := by
    obtain ⟨m0, tl, rfl⟩ := List.exists_cons_of_length_pos hne
    have hall : (m0 :: tl).all (fun m => m.F == (((m0 :: tl).head?).map Mod.F).getD 0) = true := by
      rw [List.all_eq_true]
      intro m hm
      simp [(h m hm).F1, (h m0 (by simp)).F1]
    unfold Mod.check2
    rw [hall, hsc]
    rfl
  have hC : (Mod.cat2 ms.length ms.get).C = ms.length := by
    show (List.ofFn fun i : Fin ms.length => Mod.C (ms.get i)).sum = _
    rw [Mod.ofFn_get_map ms Mod.C]
    have : ms.map Mod.C = List.replicate ms.length 1 := List.eq_replicate_iff.2 ⟨by simp, fun b hb => by
      obtain ⟨m, hm, rfl⟩ := List.mem_map.1 hb
      exact (h m hm).CH⟩
    rw [this]; simp
  refine ⟨hck, ⟨fun i => (hget i).good, by rw [List.ofFn_get]; exact hck, fun i j f hf => ?_⟩, ?_, hC, ?_, ?_,
    fun i => (hget i).pos, fun i => (hget i).rep, fun x => ?_⟩
  · rw [(hget i).F1] at hf
    rw [Nat.lt_one_iff.1 hf, (hget i).fs_eq, (hget j).fs_eq]
  · rw [Mod.F, dif_pos hne]; exact (hget _).F1
  · rw [Mod.R, dif_pos hne]; exact (hget _).R1
  · rw [Mod.tensorR, dif_pos hne, if_pos fun i => by rw [(hget i).T1, (hget _).T1]]; exact (hget _).T1
  · rw [Mod.scope, dif_pos hne]; exact (hget _).sc x

theorem cat2_val (h : ∀ m ∈ ms, SubOk μ 1 (fun _ : Fin n => True) m) (x : Row) (i : Fin ms.length) :
    Mod.val (.cat2 ms.length ms.get) 0 x 0 i = Mod.val (ms.get i) 0 x 0 0 := by
  have hC : ∀ i : Fin ms.length, (ms.get i).C = 1 := fun i => (h _ (List.get_mem ms i)).CH
  have := LP.catCh_off (fun i : Fin ms.length => Mod.C (ms.get i)) (fun i k => Mod.val (ms.get i) 0 x 0 k) i (j := 0)
    (by rw [hC i]; omega)
  have hoff : LP.off (fun i : Fin ms.length => Mod.C (ms.get i)) i = i := by
    unfold LP.off
    have : (List.ofFn fun i : Fin ms.length => Mod.C (ms.get i)) = List.replicate ms.length 1 := by
      rw [List.eq_replicate_iff]
      refine ⟨by simp, fun b hb => ?_⟩
      obtain ⟨j, rfl⟩ := List.mem_ofFn.1 hb
      exact hC j
    rw [this, List.take_replicate, List.sum_replicate, min_eq_left i.2.le]
    simp
  rw [hoff, Nat.add_zero] at this
  rw [Mod.val]
  exact this

theorem mixture_value (h : ∀ m ∈ ms, SubOk μ 1 (fun _ : Fin n => True) m) (hne : 0 < ms.length) (ω : ℕ → LogV) (x : Row) :
    Mod.likelihood (mixture ms ω) x = ∑ i : Fin ms.length, softmax ms.length ω i * Mod.likelihood (ms.get i) x := by
  obtain ⟨-, hS⟩ := cat2_ok h hne
  unfold Mod.likelihood
  have hF : (mixture ms ω).F = 1 := hS.F1
  rw [hF, prod_range_one]
  unfold mixture
  rw [Mod.expL_val_sum, hS.CH, sum_range]
  refine sum_congr rfl fun i _ => ?_
  rw [(h _ (List.get_mem ms i)).F1, prod_range_one, cat2_val h x i]

theorem mixture_ok (h : ∀ m ∈ ms, SubOk μ 1 (fun _ : Fin n => True) m) (hne : 0 < ms.length) {ω : ℕ → LogV}
    (hω : ∃ i < ms.length, ω i ≠ ⊥) : SubOk μ 1 (fun _ : Fin n => True) (mixture ms ω) := by
  obtain ⟨-, hS⟩ := cat2_ok h hne
  exact sum_ok (t := fun ci _ => ω ci) le_rfl hS fun _ _ => hω

theorem assemble_ok (h : ∀ m ∈ ms, SubOk μ 1 (fun _ : Fin n => True) m) (hne : 0 < ms.length) {ω : ℕ → LogV}
    (hω : ∃ i < ms.length, ω i ≠ ⊥) : SubOk μ 1 (fun _ : Fin n => True) (assemble ms ω) := by
  unfold assemble
  split_ifs with h1
  · obtain ⟨m, rfl⟩ := List.length_eq_one_iff.1 h1
    exact h m (by simp)
  · exact mixture_ok h hne hω

theorem assemble_value (h : ∀ m ∈ ms, SubOk μ 1 (fun _ : Fin n => True) m) (hne : 0 < ms.length) {ω : ℕ → LogV}
    (hω : ∃ i < ms.length, ω i ≠ ⊥) (x : Row) :
    Mod.likelihood (assemble ms ω) x = ∑ i : Fin ms.length, softmax ms.length ω i * Mod.likelihood (ms.get i) x := by
  unfold assemble
  split_ifs with h1
  · obtain ⟨m, rfl⟩ := List.length_eq_one_iff.1 h1
    obtain ⟨i, hi, hne⟩ := hω
    obtain rfl : i = 0 := by simpa using hi
    have := sum_softmax (n := 1) (f := ω) ⟨0, by simp, hne⟩
    rw [sum_range_one] at this
    show _ = ∑ i : Fin 1, softmax 1 ω i * Mod.likelihood ([m].get i) x
    rw [Fin.sum_univ_one]
    show _ = softmax 1 ω 0 * _
    rw [this, one_mul]
    rfl
  · exact mixture_value h hne ω x

theorem mixAll_ok (h : ∀ m ∈ ms, SubOk μ 1 (fun _ : Fin n => True) m) (hne : 0 < ms.length) (uniform : Bool) {mix : ℕ → ℝ}
    (hm : (∀ i < ms.length, 0 < mix i) ∧ ∑ i ∈ range ms.length, mix i = 1) :
    mixAll ms uniform mix = .ok (assemble ms fun i => logL (if uniform then 1 / (ms.length : ℝ) else mix i)) := by
  obtain ⟨hck, hS⟩ := cat2_ok h hne
  by_cases h1 : ms.length = 1
  · obtain ⟨m, rfl⟩ := List.length_eq_one_iff.1 h1
    rfl
  · have hsw : Mod.setWeights (.cat2 ms.length ms.get) 1 1 (mixWeights ms.length uniform mix) = .ok fun _ ci _ _ =>
        logL (if uniform then 1 / (ms.length : ℝ) else mix ci) := by
      refine setWeights_ok (w := mixWeights ms.length uniform mix) hS.F1.symm hS.CH.symm (fun _ _ ci hci _ _ _ _ => ?_) fun _ _ _ _ _ _ => ?_
      · show 0 < if uniform then 1 / (ms.length : ℝ) else mix ci
        split_ifs
        · have : (0 : ℝ) < ms.length := by exact_mod_cast hne
          positivity
        · exact hm.1 ci hci
      · show ∑ ci ∈ range ms.length, (if uniform then 1 / (ms.length : ℝ) else mix ci) = 1
        split_ifs
        · exact sum_unif hne
        · exact hm.2
    have hmk : Mod.mkCat 2 ms = .ok (.cat2 ms.length ms.get) := by
      unfold Mod.mkCat
      rw [if_neg (by decide), if_pos rfl, hck]
      rfl
    unfold assemble mixAll mixture
    rw [if_neg h1]
    match ms, h1, hne, hmk, hsw with
    | a :: b :: tl, _, _, hmk, hsw =>
      unfold Mod.mkSum
      simp only [List.isEmpty_cons, Bool.false_eq_true, if_false, hmk, bind, Except.bind, pure, Except.pure]
      rw [if_neg (by show ¬ 1 < 1; omega)]
      have e1 : (mixWeights (a :: b :: tl).length uniform mix).Co = 1 := rfl
      have e2 : (mixWeights (a :: b :: tl).length uniform mix).R = 1 := rfl
      rw [e1, e2, hsw]

end

/-! ### The learned model -/

/-- Parameters of one hidden Chow-Liu tree. -/
structure Params (n : ℕ) where
  em : Fin n → ℕ → ℝ → LogV
  θ : Fin n → ℕ → ℕ → LogV
  π : ℕ → LogV

/-- Usable parameters. -/
structure Params.Ok (μ : Var → Measure ℝ) (H Co : ℕ) (P : Params n) : Prop where
  em : EmOk μ H P.em
  θ : Usable H Co P.θ
  π : ∃ z < H, P.π z ≠ ⊥

/-- The initial parameters. -/
noncomputable def params0 (H : ℕ) (uniform : Bool) (D : Draws n) : Params n := ⟨D.em, theta0 H uniform D, pi0 H uniform D⟩

theorem params0_ok {H : ℕ} {uniform : Bool} {D : Draws n} (hH : 1 ≤ H) (hD : DrawsOk μ H D) :
    (params0 H uniform D).Ok μ H (chans H uniform) :=
  ⟨hD.em, theta0_usable hH hD, 0, hH, pi0_finite hH hD 0 hH⟩

/-- The model over the trees `ts` with parameters `P i` for the i-th tree and mixture logits `ω`. -/
def model (fuel : ℕ) (hn : 0 < n) (H Co : ℕ) (P : ℕ → Params n) (ω : ℕ → LogV) (ts : List (List (Edge n))) : Mod :=
  assemble (List.ofFn fun i : Fin ts.length => hclt fuel (ts.get i) ⟨0, hn⟩ H Co (P i).em (P i).θ (P i).π) ω

theorem components_ok {fuel : ℕ} {hn : 0 < n} {H Co : ℕ} {P : ℕ → Params n} {ts : List (List (Edge n))} (hH : 1 ≤ H)
    (hw : Width H Co) (hP : ∀ i, (P i).Ok μ H Co) (hts : ∀ t ∈ ts, TreeList t) (hf : n ≤ fuel) :
    ∀ m ∈ (List.ofFn fun i : Fin ts.length => hclt fuel (ts.get i) ⟨0, hn⟩ H Co (P i).em (P i).θ (P i).π),
      SubOk μ 1 (fun _ : Fin n => True) m := by
  intro m hm
  obtain ⟨i, rfl⟩ := List.mem_ofFn.1 hm
  have hT := hts _ (List.get_mem ts i)
  obtain ⟨par, d, h⟩ := rooted hT.2 (⟨0, hn⟩ : Fin n)
  exact hclt_ok hT h hH hw (hP i).em (hP i).θ (fun v => lt_of_lt_of_le (h.lt v) hf) (hP i).π

/-- **C70 (mixture of trees).** For all usable parameters - those the learner starts with and those any training leads
to - the model over the trees `ts` is the mixture of their latent tree models (`par i` hangs the i-th tree up at column
0), it is normalised, NaN integrates a column out, and `sample` draws exactly from it. -/
theorem C70_model {fuel : ℕ} {hn : 0 < n} {H Co : ℕ} {P : ℕ → Params n} {ts : List (List (Edge n))} (hH : 1 ≤ H)
    (hw : Width H Co) (hP : ∀ i, (P i).Ok μ H Co) (hts : ∀ t ∈ ts, TreeList t) (hne : 0 < ts.length) (hf : n ≤ fuel)
    {ω : ℕ → LogV} (hω : ∃ i < ts.length, ω i ≠ ⊥) {par : Fin ts.length → Fin n → Option (Fin n)} {d : Fin ts.length → Fin n → ℕ}
    (h : ∀ i, Rooted (ts.get i).toFinset ⟨0, hn⟩ (par i) (d i)) :
    (∀ x, Mod.likelihood (model fuel hn H Co P ω ts) x = ∑ i : Fin ts.length, softmax ts.length ω i *
      latentTree (par i) ⟨0, hn⟩ H (softmax H (P i).π) (transProb H Co (P i).θ) (emit (P i).em x)) ∧
    (∀ [∀ v, SigmaFinite (μ v)] (x : Var → ℝ),
      (∫⋯∫⁻_(columns n), (fun y => ENNReal.ofReal (Mod.likelihood (model fuel hn H Co P ω ts) fun v => some (y v))) ∂μ) x = 1 ∧
      ∀ S ⊆ columns n, (∫⋯∫⁻_S, (fun y => ENNReal.ofReal (Mod.likelihood (model fuel hn H Co P ω ts) fun v => some (y v))) ∂μ) x =
        ENNReal.ofReal (Mod.likelihood (model fuel hn H Co P ω ts) (maskRow S x))) ∧
    (∀ y, ¬ Fails (Mod.sampleData (model fuel hn H Co P ω ts) y) ∧
      ∀ z, Outcome (Mod.sampleData (model fuel hn H Co P ω ts) y) z → Fills n y z) ∧
    ∀ x, Fills n (fun _ => none) x → (Mod.sampleData (model fuel hn H Co P ω ts) fun _ => none).prob x =
      ENNReal.ofReal (Mod.likelihood (model fuel hn H Co P ω ts) x) := by
  have hc := components_ok (fuel := fuel) (hn := hn) hH hw hP hts hf
  have hlen : (List.ofFn fun i : Fin ts.length => hclt fuel (ts.get i) ⟨0, hn⟩ H Co (P i).em (P i).θ (P i).π).length = ts.length := by simp
  have hS : SubOk μ 1 (fun _ : Fin n => True) (model fuel hn H Co P ω ts) :=
    assemble_ok hc (by rw [hlen]; exact hne) (by rw [hlen]; exact hω)
  refine ⟨fun x => ?_, fun {_} x => ⟨hS.total x, fun S hs => hS.integral S hs x⟩, fun y => ?_, fun x hx => ?_⟩
  · unfold model
    rw [assemble_value hc (by rw [hlen]; exact hne) (by rw [hlen]; exact hω)]
    refine Fintype.sum_equiv (finCongr hlen) _ _ fun i => ?_
    have hT := hts _ (List.get_mem ts (finCongr hlen i))
    refine congrArg₂ (· * ·) (congrArg (fun L => softmax L ω (i : ℕ)) hlen) ?_
    rw [← C70_density hT (h (finCongr hlen i)) hH hw (hP _).em (hP _).θ
      (fun v => lt_of_lt_of_le ((h (finCongr hlen i)).lt v) hf)]
    simp
  · have := (Mod.C69_sample_fills hS.good hS.pos hS.rep y).1
    exact ⟨this.1, fun z hz => (hS.completes y z).1 (this.2 z hz)⟩
  · exact Mod.C69_sample_law hS.good hS.pos hS.rep x ((hS.completes _ x).2 hx)

theorem buildAll_ok {fuel : ℕ} (hn : 0 < n) {H : ℕ} {uniform : Bool} {D : ℕ → Draws n} (hH : 1 ≤ H)
    (hD : ∀ i, DrawsOk μ H (D i)) (hf : n ≤ fuel) : ∀ (ts : List (List (Edge n))) (j : ℕ), (∀ t ∈ ts, TreeList t) →
      buildAll fuel H uniform D j ts = .ok (List.ofFn fun i : Fin ts.length => hclt fuel (ts.get i) ⟨0, hn⟩ H (chans H uniform)
        (params0 H uniform (D (j + i))).em (params0 H uniform (D (j + i))).θ (params0 H uniform (D (j + i))).π) := by
  intro ts
  induction ts with
  | nil => intro j _; rfl
  | cons t ts ih =>
    intro j hts
    have hT := hts t (by simp)
    obtain ⟨par, d, h⟩ := rooted hT.2 (⟨0, hn⟩ : Fin n)
    have hb := C70_construction (uniform := uniform) hT hn h hH (hD j) fuel
    rw [if_pos fun v => lt_of_lt_of_le (h.lt v) hf] at hb
    rw [buildAll, hb, ih (j + 1) fun t ht => hts t (by simp [ht])]
    simp only [bind, Except.bind, pure, Except.pure]
    refine congrArg Except.ok ((List.ofFn_succ (f := fun i : Fin (ts.length + 1) => hclt fuel ((t :: ts).get i) ⟨0, hn⟩ H
      (chans H uniform) (params0 H uniform (D (j + i))).em (params0 H uniform (D (j + i))).θ
      (params0 H uniform (D (j + i))).π)).symm ▸ ?_)
    congr 2
    funext i
    have : j + 1 + (i : ℕ) = j + (i.succ : Fin (ts.length + 1)) := by rw [Fin.val_succ]; omega
    rw [this]
    rfl

/-- **C70 (learning).** For every mutual information matrix, every tie breaking of the heap, `num_trees ≥ 1`,
`num_hidden_cats ≥ 1`, and a recursion limit of at least the number of columns: the learner returns the model over at least one
and at most `num_trees` pairwise different spanning trees, in order of non-increasing total mutual information; no
spanning tree left out has a larger total than one that was used; fewer than `num_trees` are used only if there are no
others. -/
theorem C70_learn {fuel : ℕ} (hn : 0 < n) (mi : Edge n → ℝ) {k H : ℕ} (hk : 1 ≤ k) (hH : 1 ≤ H) (uniform : Bool)
    (pick : List (Mst.Entry n) → ℕ) (hp : Mst.PopsMin pick) {D : ℕ → Draws n} (hD : ∀ i, DrawsOk μ H (D i)) (hf : n ≤ fuel)
    {mix : ℕ → ℕ → ℝ} (hm : ∀ l, 1 ≤ l → (∀ i < l, 0 < mix l i) ∧ ∑ i ∈ range l, mix l i = 1) :
    ∃ ts : List (List (Edge n)), learn fuel mi k H uniform pick D (mix ts.length) =
        .ok (model fuel hn H (chans H uniform) (fun i => params0 H uniform (D i))
          (fun i => logL (if uniform then 1 / (ts.length : ℝ) else mix ts.length i)) ts) ∧
      (∀ t ∈ ts, TreeList t) ∧ (ts.map List.toFinset).Nodup ∧
      ts.Pairwise (fun a b => (b.map mi).sum ≤ (a.map mi).sum) ∧
      (∀ T, IsSpanningTree T → T ∉ ts.map List.toFinset → ∀ t ∈ ts, ∑ e ∈ T, mi e ≤ (t.map mi).sum) ∧
      1 ≤ ts.length ∧ ts.length ≤ k ∧ (ts.length < k → ∀ T, IsSpanningTree T → T ∈ ts.map List.toFinset) := by
  obtain ⟨ts, h1, h2, h3, h4, h5, h6, h7, h8⟩ := Mst.C27_topk hn (fun e => - mi e) hk pick hp
  have hneg : ∀ t : List (Edge n), (t.map fun e => - mi e).sum = - (t.map mi).sum := by
    intro t
    induction t with
    | nil => simp
    | cons a t ih => simp only [List.map_cons, List.sum_cons, ih]; ring
  refine ⟨ts, ?_, fun t ht => h2 t ht, h3, ?_, ?_, h6, h7, h8⟩
  · unfold learn
    rw [if_neg (by omega), h1]
    simp only [bind, Except.bind, pure, Except.pure]
    rw [buildAll_ok hn hH hD hf ts 0 fun t ht => h2 t ht]
    simp only [Nat.zero_add]
    have hc := components_ok (fuel := fuel) (hn := hn) hH chans_width
      (fun i => params0_ok (uniform := uniform) hH (hD i)) (fun t ht => h2 t ht) hf
    have hlen : (List.ofFn fun i : Fin ts.length => hclt fuel (ts.get i) ⟨0, hn⟩ H (chans H uniform)
      (params0 H uniform (D i)).em (params0 H uniform (D i)).θ (params0 H uniform (D i)).π).length = ts.length := by simp
    have := mixAll_ok hc (by rw [hlen]; exact h6) uniform (mix := mix ts.length) (by rw [hlen]; exact hm _ h6)
    rw [this, hlen]
    rfl
  · refine h4.imp fun {a b} hab => ?_
    rw [hneg, hneg] at hab
    linarith
  · intro T hT hTo t ht
    have := h5 T hT hTo t ht
    rw [hneg, sum_neg_distrib] at this
    linarith

end Verif.Hclt

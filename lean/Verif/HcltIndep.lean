import Verif.HcltMain

/-!
C70: normalisation, sampling and the effect of `init="random"` for hidden Chow-Liu trees.
-/

namespace Verif.Hclt

open Finset MeasureTheory Verif.Circ
open Verif.Prog (Fails Outcome)
open Verif.Span (Edge Adj IsSpanningTree)
open Verif.LP (Mod)
open Verif.LP.Mod (Good)

variable {n : ℕ} {μ : Var → Measure ℝ}

section

variable {edges : List (Edge n)} {r : Fin n} {par : Fin n → Option (Fin n)} {d : Fin n → ℕ} {H Co : ℕ}
  {em : Fin n → ℕ → ℝ → LogV} {θ : Fin n → ℕ → ℕ → LogV}

/-! ### Independence -/

/-- A latent tree whose transitions do not look at the parent is a product of independent mixtures. -/
theorem latent_indep {prior : ℕ → ℝ} {tr : Fin n → ℕ → ℕ → ℝ} {q : Fin n → ℕ → ℝ} (e : Fin n → ℕ → ℝ)
    (h : Rooted edges.toFinset r par d) (hp : ∀ z < H, prior z = q r z)
    (hq : ∀ v, v ≠ r → ∀ z < H, ∀ z' < H, tr v z z' = q v z) :
    latentTree par r H prior tr e = ∏ v, ∑ z ∈ range H, q v z * e v z := by
  classical
  unfold latentTree states
  rw [prod_univ_sum]
  refine sum_congr rfl fun ζ hζ => ?_
  have hlt : ∀ v, ζ v < H := fun v => mem_range.1 (Fintype.mem_piFinset.1 hζ v)
  rw [prod_mul_distrib]
  congr 1
  rw [← mul_prod_erase univ (fun v => q v (ζ v)) (mem_univ r), hp _ (hlt r)]
  congr 1
  refine prod_congr rfl fun v hv => hq v (ne_of_mem_erase hv) _ (hlt v) _ ?_
  obtain ⟨p, hpv⟩ := h.parent v (ne_of_mem_erase hv)
  unfold parState
  rw [hpv]
  exact hlt p

/-- **C70 (finding: `init="random"` ignores the tree).** With `init="random"` every transition Sum has a single channel.
Then, for every spanning tree, all weights and all emissions - so also after any training - the variables are independent:
the density is a product of one mixture per variable, and the tree does not occur in it. -/
theorem C70_random_independent (hT : TreeList edges) (h : Rooted edges.toFinset r par d) (hH : 1 ≤ H)
    (hem : EmOk μ H em) (hθ : Usable H 1 θ) {fuel : ℕ} (hf : ∀ v, d v < fuel) (π : ℕ → LogV) (x : Row) :
    Mod.likelihood (hclt fuel edges r H 1 em θ π) x =
      ∏ v, ∑ z ∈ range H, (if v = r then softmax H π z else softmax H (fun i => θ v i 0) z) * emit em x v z := by
  rw [C70_density hT h hH (.inr rfl) hem hθ hf π x]
  refine latent_indep _ h (fun z _ => (if_pos rfl).symm) fun v hv z _ z' _ => ?_
  unfold transProb
  rw [if_neg hv, if_pos rfl]

/-- **C70 (fresh uniform model).** With `init="uniform"` the freshly built model also makes all variables independent:
each is a mixture of its emissions with weights 1/H. -/
theorem C70_uniform_start (hT : TreeList edges) (h : Rooted edges.toFinset r par d) (hH : 1 ≤ H)
    (hem : EmOk μ H em) {fuel : ℕ} (hf : ∀ v, d v < fuel) (x : Row) :
    Mod.likelihood (hclt fuel edges r H H em (fun _ _ _ => logL (1 / (H : ℝ))) fun _ => logL (1 / (H : ℝ))) x =
      ∏ v, ∑ z ∈ range H, 1 / (H : ℝ) * emit em x v z := by
  have hpos : (0 : ℝ) < 1 / (H : ℝ) := by positivity
  have hu : ∀ z < H, softmax H (fun _ => logL (1 / (H : ℝ))) z = 1 / (H : ℝ) := by
    intro z hz
    rw [softmax_eq, expL_logL hpos.le, sum_const, card_range, nsmul_eq_mul]
    field_simp
  have hne : logL (1 / (H : ℝ)) ≠ ⊥ := by
    intro hc
    have := expL_logL hpos.le
    rw [hc, expL_bot] at this
    exact hpos.ne this
  rw [C70_density hT h hH (.inl rfl) hem (fun v co _ => ⟨0, hH, hne⟩) hf _ x]
  exact latent_indep (q := fun _ _ => 1 / (H : ℝ)) _ h hu fun v hv z hz z' _ => hu z hz

/-! ### The circuit is a valid module -/

/-- The variables 0, …, n-1. -/
noncomputable def columns (n : ℕ) : Finset Var := univ.image fun v : Fin n => ((v : ℕ) : ℤ)

theorem hclt_ok (hT : TreeList edges) (h : Rooted edges.toFinset r par d) (hH : 1 ≤ H) (hw : Width H Co)
    (hem : EmOk μ H em) (hθ : Usable H Co θ) {fuel : ℕ} (hf : ∀ v, d v < fuel) {π : ℕ → LogV} (hπ : ∃ z < H, π z ≠ ⊥) :
    SubOk μ 1 (fun _ : Fin n => True) (hclt fuel edges r H Co em θ π) := by
  have hS := net_C hT h hH hw hem hθ hf r
  rw [h.zero, Nat.sub_zero, h.root] at hS
  exact (sum_ok (t := fun ci _ => π ci) le_rfl hS fun _ _ => hπ).congr fun v => ⟨fun _ => trivial, fun _ => below_root h v⟩

theorem SubOk.fs_eq {m : Mod} (h : SubOk μ 1 (fun _ : Fin n => True) m) : Mod.fs m 0 = columns n := by
  ext x
  have h1 := (Mod.scope_facts h.good).2.2 x
  rw [h.F1] at h1
  constructor
  · intro hx
    obtain ⟨v, -, rfl⟩ := (h.sc x).1 (h1.2 ⟨0, Nat.one_pos, hx⟩)
    exact mem_image_of_mem _ (mem_univ v)
  · intro hx
    obtain ⟨v, -, rfl⟩ := mem_image.1 hx
    obtain ⟨f, hf, hm⟩ := h1.1 ((h.sc _).2 ⟨v, trivial, rfl⟩)
    rwa [Nat.lt_one_iff.1 hf] at hm

theorem SubOk.likelihood_eq {m : Mod} {S : Fin n → Prop} (h : SubOk μ 1 S m) (x : Row) :
    Mod.likelihood m x = expL (Mod.val m 0 x 0 0) := by
  unfold Mod.likelihood
  rw [h.F1, prod_range_one]

theorem SubOk.integral {m : Mod} [∀ v, SigmaFinite (μ v)] (h : SubOk μ 1 (fun _ : Fin n => True) m) (S : Finset Var)
    (hS : S ⊆ columns n) (x : Var → ℝ) :
    (∫⋯∫⁻_S, (fun y => ENNReal.ofReal (Mod.likelihood m fun v => some (y v))) ∂μ) x =
      ENNReal.ofReal (Mod.likelihood m (maskRow S x)) := by
  have := Mod.C69_nan_is_integral h.good h.T1 (f := 0) (ch := 0) (r := 0) (by rw [h.F1]; omega) (by rw [h.CH]; omega) (by omega) S
    (by rw [h.fs_eq]; exact hS) x
  simp only [h.likelihood_eq]
  exact this

theorem SubOk.total {m : Mod} [∀ v, SigmaFinite (μ v)] (h : SubOk μ 1 (fun _ : Fin n => True) m) (x : Var → ℝ) :
    (∫⋯∫⁻_(columns n), (fun y => ENNReal.ofReal (Mod.likelihood m fun v => some (y v))) ∂μ) x = 1 := by
  have := (Mod.C69_normalised h.good h.T1 le_rfl).1 0 (by rw [h.F1]; omega) 0 (by rw [h.CH]; omega) 0 (by omega) x
  rw [h.fs_eq] at this
  simp only [h.likelihood_eq]
  exact this

/-- **C70 (normalisation and missing values).** Every hidden Chow-Liu tree is a normalised density of the n columns, and a
NaN integrates the column out. -/
theorem C70_normalised [∀ v, SigmaFinite (μ v)] (hT : TreeList edges) (h : Rooted edges.toFinset r par d) (hH : 1 ≤ H)
    (hw : Width H Co) (hem : EmOk μ H em) (hθ : Usable H Co θ) {fuel : ℕ} (hf : ∀ v, d v < fuel) {π : ℕ → LogV}
    (hπ : ∃ z < H, π z ≠ ⊥) (x : Var → ℝ) :
    (∫⋯∫⁻_(columns n), (fun y => ENNReal.ofReal (Mod.likelihood (hclt fuel edges r H Co em θ π) fun v => some (y v))) ∂μ) x = 1 ∧
    ∀ S ⊆ columns n,
      (∫⋯∫⁻_S, (fun y => ENNReal.ofReal (Mod.likelihood (hclt fuel edges r H Co em θ π) fun v => some (y v))) ∂μ) x =
        ENNReal.ofReal (Mod.likelihood (hclt fuel edges r H Co em θ π) (maskRow S x)) :=
  have hS := hclt_ok hT h hH hw hem hθ hf hπ
  ⟨hS.total x, fun S hs => hS.integral S hs x⟩

/-! ### Sampling -/

/-- All logits are finite (as after construction and after gradient steps). -/
def Finite (H Co : ℕ) (θ : Fin n → ℕ → ℕ → LogV) : Prop := ∀ v, ∀ ci < H, ∀ co < Co, θ v ci co ≠ ⊥

theorem sum_alive {m : Mod} {t : ℕ → ℕ → LogV} {x : Row} {co : ℕ} (hf : ∀ ci < m.C, t ci co ≠ ⊥)
    (hv : ∃ ci < m.C, Mod.val m 0 x 0 ci ≠ ⊥) : Mod.val (.sum m Co 1 fun _ ci co _ => t ci co) 0 x 0 co ≠ ⊥ := by
  obtain ⟨c, hc, hv⟩ := hv
  rw [Ne, ← expL_eq_zero_iff, Mod.expL_val_sum]
  refine ne_of_gt ?_
  refine lt_of_lt_of_le ?_ (single_le_sum (f := fun ci => softmax m.C (fun i => t i co) ci * expL (Mod.val m 0 x 0 ci))
    (fun i _ => mul_nonneg (softmax_nonneg _ _ _) (expL_nonneg _)) (mem_range.2 hc))
  exact mul_pos (softmax_pos hc (hf c hc)) ((expL_pos_iff _).2 hv)

theorem sum_dead {m : Mod} {t : ℕ → ℕ → LogV} {x : Row} {co : ℕ}
    (hv : Mod.val (.sum m Co 1 fun _ ci co _ => t ci co) 0 x 0 co ≠ ⊥) : ∃ ci < m.C, Mod.val m 0 x 0 ci ≠ ⊥ := by
  by_contra hc
  push Not at hc
  apply hv
  rw [← expL_eq_zero_iff, Mod.expL_val_sum]
  refine sum_eq_zero fun ci hci => ?_
  rw [hc ci (mem_range.1 hci), expL_bot, mul_zero]

theorem net_live (hT : TreeList edges) (h : Rooted edges.toFinset r par d) (hH : 1 ≤ H) (hw : Width H Co)
    (hem : EmOk μ H em) (hθ : Usable H Co θ) (hfin : Finite H Co θ) (x : Row) : ∀ k v, (∀ w, Below par v w → d w < k + d v) →
      (∃ z < H, Mod.val (net (fun v => edges.flatMap (ends v)) H Co em θ k v (par v)) 0 x 0 z ≠ ⊥) →
      Mod.Live x 0 (net (fun v => edges.flatMap (ends v)) H Co em θ k v (par v)) := by
  intro k
  induction k with
  | zero => intro v hv; have := hv v .self; omega
  | succ k ih =>
    rintro v hv ⟨z, hz, hval⟩
    obtain ⟨hnd, hmem⟩ := children_spec hT h v
    rw [net_succ] at hval ⊢
    rw [Ne, ← expL_eq_zero_iff, val_joined _ _ hz] at hval
    have hprod := right_ne_zero_of_mul hval
    rw [List.map_map, Ne, List.prod_eq_zero_iff] at hprod
    have hlv : ∀ u ∈ kids edges par v, Mod.Live x 0 (msgOf edges H Co em θ k v u) := by
      intro u hu
      have hp := (hmem u).1 hu
      have hk : ∀ w, Below par u w → d w < k + d u := fun w hw => by
        have := h.depth u v hp; have := hv w (.head hp hw); omega
      have hS := sub_ok hT h hH hw hem hθ k u hk
      have hI := ih u hk
      rw [hp] at hS hI
      have hm : expL (Mod.val (msgOf edges H Co em θ k v u) 0 x 0 (if (msgOf edges H Co em θ k v u).C = 1 then 0 else z)) ≠ 0 :=
        fun hc => hprod (List.mem_map.2 ⟨u, hu, hc⟩)
      rw [Ne, expL_eq_zero_iff] at hm
      have hex := sum_dead hm
      rw [hS.CH] at hex
      refine ⟨hI hex, fun f hf co hco => ?_⟩
      rw [hS.F1] at hf
      rw [Nat.lt_one_iff.1 hf]
      exact sum_alive (t := θ u) (fun ci hci => hfin u ci (by rwa [hS.CH] at hci) co hco) (by rw [hS.CH]; exact hex)
    unfold joined
    split_ifs with hc
    · trivial
    · intro i
      have hi : (leafOf H em v :: (kids edges par v).map (msgOf edges H Co em θ k v)).get i ∈ _ := List.get_mem _ i
      rcases List.mem_cons.1 hi with h1 | h1
      · rw [h1]; trivial
      · obtain ⟨u, hu, h2⟩ := List.mem_map.1 h1
        rw [← h2]
        exact hlv u hu

theorem hclt_live (hT : TreeList edges) (h : Rooted edges.toFinset r par d) (hH : 1 ≤ H) (hw : Width H Co)
    (hem : EmOk μ H em) (hθ : Usable H Co θ) (hfin : Finite H Co θ) {fuel : ℕ} (hf : ∀ v, d v < fuel) {π : ℕ → LogV}
    (x : Row) (hx : Mod.val (hclt fuel edges r H Co em θ π) 0 x 0 0 ≠ ⊥) :
    Mod.Live x 0 (hclt fuel edges r H Co em θ π) := by
  have hS := net_C hT h hH hw hem hθ hf r
  have hd : ∀ w, Below par r w → d w < fuel + d r := fun w _ => by have := hf w; omega
  have hL := net_live hT h hH hw hem hθ hfin x fuel r hd
  rw [h.zero, Nat.sub_zero, h.root] at hS
  rw [h.root] at hL
  have hex := sum_dead (t := fun ci _ => π ci) (Co := 1) hx
  rw [hS.CH] at hex
  refine ⟨hL hex, fun f hf co hco => ?_⟩
  rw [hS.F1] at hf
  rw [Nat.lt_one_iff.1 hf, Nat.lt_one_iff.1 hco]
  exact hx

/-- `z` is `e` with the n columns filled in. -/
def Fills (n : ℕ) (e z : Row) : Prop :=
  (∀ v ∈ columns n, z v ≠ none) ∧ (∀ v t, e v = some t → z v = some t) ∧ ∀ v, v ∉ columns n → z v = e v

theorem SubOk.completes {m : Mod} (h : SubOk μ 1 (fun _ : Fin n => True) m) (e z : Row) : m.Completes e z ↔ Fills n e z := by
  have hm : ∀ v, v ∈ m.scope.query ↔ v ∈ columns n := by
    intro v
    rw [h.sc v]
    constructor
    · rintro ⟨u, -, rfl⟩; exact mem_image_of_mem _ (mem_univ u)
    · intro hv
      obtain ⟨u, -, rfl⟩ := mem_image.1 hv
      exact ⟨u, trivial, rfl⟩
  unfold Mod.Completes Fills
  simp only [hm]

/-- **C70 (sampling).** `sample` never raises, keeps observed cells and fills the n columns; for discrete emissions every
complete row has exactly the model's probability. -/
theorem C70_sampling (hT : TreeList edges) (h : Rooted edges.toFinset r par d) (hH : 1 ≤ H) (hw : Width H Co)
    (hem : EmOk μ H em) (hθ : Usable H Co θ) {fuel : ℕ} (hf : ∀ v, d v < fuel) {π : ℕ → LogV} (hπ : ∃ z < H, π z ≠ ⊥) :
    (∀ y, ¬ Fails (Mod.sampleData (hclt fuel edges r H Co em θ π) y) ∧
      ∀ z, Outcome (Mod.sampleData (hclt fuel edges r H Co em θ π) y) z → Fills n y z) ∧
    ∀ x, Fills n (fun _ => none) x → (Mod.sampleData (hclt fuel edges r H Co em θ π) fun _ => none).prob x =
      ENNReal.ofReal (latentTree par r H (softmax H π) (transProb H Co θ) (emit em x)) := by
  have hS := hclt_ok hT h hH hw hem hθ hf hπ
  refine ⟨fun y => ?_, fun x hx => ?_⟩
  · have := (Mod.C69_sample_fills hS.good hS.pos hS.rep y).1
    exact ⟨this.1, fun z hz => (hS.completes y z).1 (this.2 z hz)⟩
  · rw [Mod.C69_sample_law hS.good hS.pos hS.rep x ((hS.completes _ x).2 hx), C70_density hT h hH hw hem hθ hf π x]

/-- **C70 (conditional sampling).** With finite logits, `sample_with_evidence(e)` never raises on evidence of positive
probability and draws from the exact conditional distribution. -/
theorem C70_conditional (hT : TreeList edges) (h : Rooted edges.toFinset r par d) (hH : 1 ≤ H) (hw : Width H Co)
    (hem : EmOk μ H em) (hfin : Finite H Co θ) {fuel : ℕ} (hf : ∀ v, d v < fuel) {π : ℕ → LogV}
    (hπ : ∀ z < H, π z ≠ ⊥) (e : Row)
    (he : latentTree par r H (softmax H π) (transProb H Co θ) (emit em e) ≠ 0) :
    ¬ Fails (Mod.sampleWithEvidence (hclt fuel edges r H Co em θ π) e) ∧
    (∀ z, Outcome (Mod.sampleWithEvidence (hclt fuel edges r H Co em θ π) e) z → Fills n e z) ∧
    ∀ x, Fills n e x → (Mod.sampleWithEvidence (hclt fuel edges r H Co em θ π) e).prob x =
      ENNReal.ofReal (latentTree par r H (softmax H π) (transProb H Co θ) (emit em x) /
        latentTree par r H (softmax H π) (transProb H Co θ) (emit em e)) := by
  have hθ : Usable H Co θ := fun v co hco => ⟨0, hH, hfin v 0 hH co hco⟩
  have hS := hclt_ok hT h hH hw hem hθ hf ⟨0, hH, hπ 0 hH⟩
  have hden := C70_density hT h hH hw hem hθ hf π
  have hv : Mod.val (hclt fuel edges r H Co em θ π) 0 e 0 0 ≠ ⊥ := by
    rw [Ne, ← expL_eq_zero_iff, ← hS.likelihood_eq, hden]; exact he
  have hl := hclt_live hT h hH hw hem hθ hfin hf e hv
  have hT' : ∃ T, Mod.logLik (hclt fuel edges r H Co em θ π) e = .ok T := ⟨_, Mod.logLik_of hS.T1 e⟩
  have hfill := (Mod.C69_sample_fills hS.good hS.pos hS.rep e).2 hT' hl
  refine ⟨hfill.1, fun z hz => (hS.completes e z).1 (hfill.2 z hz), fun x hx => ?_⟩
  rw [Mod.C69_sample_conditional hS.good hS.pos hS.rep e hT' hl (by rw [hden]; exact he) x ((hS.completes e x).2 hx),
    hden, hden]

end

end Verif.Hclt

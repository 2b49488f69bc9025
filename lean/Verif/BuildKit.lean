import Verif.CircuitProps
import Verif.MarginalizeProps
import Verif.EmProps

/-!
# Building blocks for structure learners

Lemmas about the constructors (`mkLeaf`, `mkProd`, `mkCat`, `mkSum`): when they succeed and that the results are again well
formed.  Used by the learner models (LearnSpn, CNet, Prometheus learner, DSL).
-/

namespace Verif.Build

open Verif Verif.Circ MeasureTheory

variable {μ : Var → Measure ℝ}

/-- A well-formed module over exactly the variables `V`: accepted by all constructors, aligned, finite logits,
one repetition, at least one channel, leaves normalised with respect to `μ`. -/
structure Pre (μ : Var → Measure ℝ) (V : Var → Prop) (c : Circ) : Prop where
  acc : Accepted c
  al : Aligned c
  fin : FiniteLogits c
  rep : tensorR c = some 1
  ch : 1 ≤ C c
  lf : LeafOk μ c
  sc : ∀ v, v ∈ (scope c).query ↔ V v

/-- ... with a single output feature. -/
structure Ok (μ : Var → Measure ℝ) (V : Var → Prop) (c : Circ) : Prop extends Pre μ V c where
  one : F c = 1

theorem Pre.congr {V V' : Var → Prop} {c : Circ} (h : Pre μ V c) (hv : ∀ v, V v ↔ V' v) : Pre μ V' c :=
  ⟨h.acc, h.al, h.fin, h.rep, h.ch, h.lf, fun v => (h.sc v).trans (hv v)⟩

theorem Ok.congr {V V' : Var → Prop} {c : Circ} (h : Ok μ V c) (hv : ∀ v, V v ↔ V' v) : Ok μ V' c :=
  ⟨h.toPre.congr hv, h.one⟩

/-- The single feature of such a module has the whole scope. -/
theorem Ok.feat {V : Var → Prop} {c : Circ} (h : Ok μ V c) :
    ∃ u, den c = [u] ∧ ∀ v, v ∈ u.scope ↔ V v := by
  have hl : (den c).length = 1 := by rw [den_length]; exact h.one
  obtain ⟨u, hu⟩ := List.length_eq_one_iff.1 hl
  refine ⟨u, hu, fun v => ?_⟩
  rw [← h.sc v, (scope_facts h.acc).2.2.1 v, hu]
  simp

theorem Ok.scope_eq {V : Var → Prop} {c c' : Circ} (h : Ok μ V c) (h' : Ok μ V c') :
    (den c).map Feat.scope = (den c').map Feat.scope := by
  obtain ⟨u, hu, hv⟩ := h.feat
  obtain ⟨u', hu', hv'⟩ := h'.feat
  rw [hu, hu']
  simp only [List.map_cons, List.map_nil, List.cons.injEq, and_true]
  ext v
  rw [hv, hv']

/-- A normalised density for every feature and channel. -/
def DensOk (μ : Var → Measure ℝ) (q : List Var) (d : ℕ → ℕ → ℕ → ℝ → LogV) : Prop :=
  ∀ i (hi : i < q.length), ∀ ch r, Measurable (fun t => expL (d i ch r t)) ∧
    ∫⁻ t, ENNReal.ofReal (expL (d i ch r t)) ∂μ q[i] = 1

theorem leaf_pre {q : List Var} {C : ℕ} {d} (hq : ∀ v ∈ q, 0 ≤ v) (hnd : q.Nodup) (hC : 1 ≤ C) (hd : DensOk μ q d) :
    mkLeaf q C 1 d = .ok (leaf q C 1 d) ∧ Pre μ (· ∈ q) (leaf q C 1 d) := by
  have hmk : mkLeaf q C 1 d = .ok (leaf q C 1 d) := by
    have : Scope.mk? q [] = .ok ⟨q, []⟩ :=
      (Scope.mk?_ok_iff _ _ _).2 ⟨rfl, ⟨hq, by simp, hnd, by simp, by simp, by simp⟩⟩
    unfold mkLeaf
    rw [this]
    rfl
  exact ⟨hmk, ⟨hmk, trivial, trivial, rfl, hC, fun i hi ch _ r _ => hd i hi ch r, fun v => Iff.rfl⟩⟩

theorem forall_get {P : Circ → Prop} {l : List Circ} (h : ∀ m ∈ l, P m) (i : Fin l.length) : P (l.get i) :=
  h _ (List.get_mem l i)

/-- `Cat(l, dim=1)` of modules with equal channels and disjoint scopes. -/
theorem cat1_pre {l : List Circ} (hne : l ≠ []) {K : ℕ} {Vs : Circ → Var → Prop} (h : ∀ m ∈ l, Pre μ (Vs m) m)
    (hK : ∀ m ∈ l, C m = K) (hd : l.Pairwise fun a b => ∀ v, Vs a v → ¬ Vs b v) :
    check1 l = .ok () ∧ Pre μ (fun v => ∃ m ∈ l, Vs m v) (cat1 l.length l.get) ∧ C (cat1 l.length l.get) = K := by
  have hck : check1 l = .ok () := by
    refine check1_of hne hK (fun m hm => (scope_facts (h m hm).acc).1) ?_
    refine List.Pairwise.imp_of_mem (fun {a b} ha hb hab v hv hv' => ?_) hd
    exact hab v (((h a ha).sc v).1 hv) (((h b hb).sc v).1 hv')
  have hpos : 0 < l.length := List.length_pos_of_ne_nil hne
  have hC : C (cat1 l.length l.get) = K := by
    simp only [C, hpos, dif_pos]
    exact hK _ (List.get_mem _ _)
  have hacc : Accepted (cat1 l.length l.get) := by
    refine ⟨fun i => (h _ (List.get_mem l i)).acc, ?_⟩
    rw [List.ofFn_get]; exact hck
  refine ⟨hck, ⟨hacc, fun i => (h _ (List.get_mem l i)).al, fun i => (h _ (List.get_mem l i)).fin, ?_, ?_,
    fun i => (h _ (List.get_mem l i)).lf, fun v => ?_⟩, hC⟩
  · exact tensorR_cat1.2 ⟨hpos, fun i => (h _ (List.get_mem l i)).rep⟩
  · rw [hC, ← hK _ (List.get_mem l ⟨0, hpos⟩)]; exact (h _ (List.get_mem l _)).ch
  · rw [(scope_facts hacc).2.2.1 v, den_cat1_get]
    constructor
    · rintro ⟨u, hu, hv⟩
      obtain ⟨L, hL, huL⟩ := List.mem_flatten.1 hu
      obtain ⟨m, hm, rfl⟩ := List.mem_map.1 hL
      exact ⟨m, hm, ((h m hm).sc v).1 (((scope_facts (h m hm).acc).2.2.1 v).2 ⟨u, huL, hv⟩)⟩
    · rintro ⟨m, hm, hv⟩
      obtain ⟨u, hu, hv'⟩ := ((scope_facts (h m hm).acc).2.2.1 v).1 (((h m hm).sc v).2 hv)
      exact ⟨u, List.mem_flatten.2 ⟨den m, List.mem_map.2 ⟨m, hm, rfl⟩, hu⟩, hv'⟩

theorem prod_pre {V : Var → Prop} {c : Circ} (h : Pre μ V c) : Ok μ V (prod c) :=
  ⟨⟨h.acc, h.al, h.fin, h.rep, h.ch, h.lf, h.sc⟩, rfl⟩

/-- `Product(l)`. -/
theorem prod_ok {l : List Circ} (hne : l ≠ []) {K : ℕ} {Vs : Circ → Var → Prop} (h : ∀ m ∈ l, Pre μ (Vs m) m)
    (hK : ∀ m ∈ l, C m = K) (hd : l.Pairwise fun a b => ∀ v, Vs a v → ¬ Vs b v) :
    ∃ c, mkProd l = .ok c ∧ Ok μ (fun v => ∃ m ∈ l, Vs m v) c ∧ C c = K := by
  obtain ⟨hck, hp, hC⟩ := cat1_pre hne h hK hd
  rcases l with _ | ⟨a, _ | ⟨b, l⟩⟩
  · exact absurd rfl hne
  · refine ⟨prod a, rfl, (prod_pre (h a (by simp))).congr (fun v => by simp), ?_⟩
    exact hK a (by simp)
  · refine ⟨prod (cat1 _ _), ?_, prod_pre hp, hC⟩
    unfold mkProd mkCat
    simp only [if_true, bind, Except.bind, pure, Except.pure, hck]

/-- `Cat(l, dim=2)` of modules over the same variables. -/
theorem cat2_ok {l : List Circ} (hne : l ≠ []) {V : Var → Prop} (h : ∀ m ∈ l, Ok μ V m) :
    check2 l = .ok () ∧ mkCat 2 l = .ok (cat2 l.length l.get) ∧ Ok μ V (cat2 l.length l.get) ∧
      C (cat2 l.length l.get) = (l.map C).sum := by
  have hck : check2 l = .ok () := by
    refine check2_of hne (K := 1) (fun m hm => (h m hm).one) (fun m hm => (scope_facts (h m hm).acc).2.1) ?_
    intro a ha b hb v
    rw [(h a ha).sc, (h b hb).sc]
  have hpos : 0 < l.length := List.length_pos_of_ne_nil hne
  have hC : C (cat2 l.length l.get) = (l.map C).sum := by
    simp only [C]
    congr 1
    apply List.ext_getElem
    · simp
    · intro i h1 h2; simp
  refine ⟨hck, ?_, ⟨⟨⟨fun i => (h _ (List.get_mem l i)).acc, by rw [List.ofFn_get]; exact hck⟩,
    ⟨fun i => (h _ (List.get_mem l i)).al, fun i j => (h _ (List.get_mem l i)).scope_eq (h _ (List.get_mem l j))⟩,
    fun i => (h _ (List.get_mem l i)).fin, tensorR_cat2.2 ⟨hpos, fun i => (h _ (List.get_mem l i)).rep⟩, ?_,
    fun i => (h _ (List.get_mem l i)).lf, fun v => ?_⟩, ?_⟩, hC⟩
  · unfold mkCat
    simp only [show ¬ ((2 : ℤ) = 1) by norm_num, if_false, if_true, bind, Except.bind, pure, Except.pure, hck]
  · rw [hC]
    rcases l with _ | ⟨a, l⟩
    · exact absurd rfl hne
    · rw [List.map_cons, List.sum_cons]
      have := (h a (by simp)).ch
      omega
  · simp only [scope, hpos, dif_pos]
    exact (h _ (List.get_mem l _)).sc v
  · simp only [F, hpos, dif_pos]
    exact (h _ (List.get_mem l _)).one

/-- `Sum(c, out_channels=Co)` with freshly drawn finite logits. -/
theorem sum_fresh {V : Var → Prop} {c : Circ} (h : Ok μ V c) {Co : ℕ} (hCo : 1 ≤ Co) {θ : ℕ → ℕ → ℕ → ℕ → LogV}
    (hθ : ∀ f ci co r, θ f ci co r ≠ ⊥) : Ok μ V (sum c Co 1 θ) := by
  refine ⟨⟨⟨h.acc, hCo, fun f _ co _ r _ => ⟨0, h.ch, hθ f 0 co r⟩⟩, h.al, ⟨h.fin, fun f _ ci _ co _ r _ => hθ f ci co r⟩, ?_,
    hCo, h.lf, h.sc⟩, h.one⟩
  simp only [tensorR, h.rep]
  rfl

/-- The channel weights of a mixture of modules: module `k` gets `p k`, spread evenly over its channels. -/
noncomputable def spread : List (ℝ × Circ) → List ℝ
  | [] => []
  | (p, c) :: l => List.replicate (C c) (p / C c) ++ spread l

theorem spread_length (l : List (ℝ × Circ)) : (spread l).length = ((l.map Prod.snd).map C).sum := by
  induction l with
  | nil => rfl
  | cons a l ih => simp [spread, ih]

theorem spread_sum (l : List (ℝ × Circ)) (h : ∀ a ∈ l, 1 ≤ C a.2) : (spread l).sum = (l.map Prod.fst).sum := by
  induction l with
  | nil => rfl
  | cons a l ih =>
    have ha := h a (by simp)
    rw [spread, List.sum_append, List.sum_replicate, ih fun b hb => h b (by simp [hb])]
    simp only [List.map_cons, List.sum_cons, nsmul_eq_mul]
    have : (C a.2 : ℝ) ≠ 0 := by positivity
    rw [mul_div_cancel₀ _ this]

theorem spread_pos (l : List (ℝ × Circ)) (h : ∀ a ∈ l, 1 ≤ C a.2) (hp : ∀ a ∈ l, 0 < a.1) : ∀ x ∈ spread l, 0 < x := by
  induction l with
  | nil => intro x hx; simp [spread] at hx
  | cons a l ih =>
    intro x hx
    rw [spread, List.mem_append] at hx
    rcases hx with hx | hx
    · rw [List.eq_of_mem_replicate hx]
      have := h a (by simp)
      have : (0 : ℝ) < C a.2 := by positivity
      exact div_pos (hp a (by simp)) this
    · exact ih (fun b hb => h b (by simp [hb])) (fun b hb => hp b (by simp [hb])) x hx

/-- The weight tensor `(1, total channels, 1, 1)`. -/
noncomputable def spreadW (Co : ℕ) (l : List (ℝ × Circ)) : Weights where
  Fw := 1
  Ci := ((l.map Prod.snd).map C).sum
  Co := Co
  R := 1
  val := fun _ ci _ _ => (spread l).getD ci 0

theorem sum_getD (l : List ℝ) : ∑ i ∈ Finset.range l.length, l.getD i 0 = l.sum := by
  induction l with
  | nil => simp
  | cons a l ih =>
    rw [List.length_cons, Finset.sum_range_succ', List.sum_cons]
    simp only [List.getD_cons_succ, List.getD_cons_zero, ih]
    ring

/-- Sum over the channels of a concatenation, weighted by `spread`. -/
theorem spread_value (l : List (ℝ × Circ)) (g : ℕ → ℝ) (gs : List (ℕ → ℝ)) (hl : gs.length = l.length)
    (hg : ∀ i (hi : i < l.length), ∀ k < C (l[i]).2,
      g ((((l.map Prod.snd).map C).take i).sum + k) = (gs[i]'(by omega)) k) :
    ∑ ci ∈ Finset.range ((l.map Prod.snd).map C).sum, (spread l).getD ci 0 * g ci =
      ((l.zip gs).map fun a : (ℝ × Circ) × (ℕ → ℝ) => a.1.1 * ((∑ k ∈ Finset.range (C a.1.2), a.2 k) / (C a.1.2 : ℝ))).sum := by
  induction l generalizing g gs with
  | nil => simp
  | cons a l ih =>
    rcases gs with _ | ⟨b, gs⟩
    · simp at hl
    simp only [List.map_cons, List.sum_cons, List.zip_cons_cons]
    rw [Finset.sum_range_add]
    congr 1
    · rw [Finset.sum_div, Finset.mul_sum]
      refine Finset.sum_congr rfl fun k hk => ?_
      rw [Finset.mem_range] at hk
      have h1 : (spread (a :: l)).getD k 0 = a.1 / C a.2 := by
        rw [spread, List.getD_append _ _ _ _ (by simpa using hk)]
        rw [List.getD_eq_getElem _ _ (by simpa using hk)]
        simp
      rw [h1]
      have := hg 0 (by simp) k (by simpa using hk)
      simp at this
      rw [this]; ring
    · have h2 : ∀ k, (spread (a :: l)).getD (C a.2 + k) 0 = (spread l).getD k 0 := by
        intro k
        rw [spread, List.getD_append_right _ _ _ _ (by simp)]
        simp
      simp only [h2]
      refine ih (fun k => g (C a.2 + k)) gs (by simpa using hl) fun i hi k hk => ?_
      have := hg (i + 1) (by simpa using hi) k (by simpa using hk)
      simp only [List.map_cons, List.take_succ_cons, List.sum_cons, List.getElem_cons_succ] at this
      rw [← this, add_assoc]

/-- `Sum(inputs, weights)` of modules over the same variables with weights that sum to one: accepted, and its density is
the mixture in which module `k` has weight `p k`, shared equally by its channels. -/
theorem sum_okN {Co : ℕ} (hCo : 1 ≤ Co) {l : List (ℝ × Circ)} (hne : l ≠ []) {V : Var → Prop} (h : ∀ a ∈ l, Ok μ V a.2) (hp : ∀ a ∈ l, 0 < a.1)
    (hs : (l.map Prod.fst).sum = 1) :
    ∃ c, mkSum (l.map Prod.snd) (spreadW Co l) = .ok c ∧ Ok μ V c ∧ C c = Co ∧
      ∀ x, ∀ co < Co, expL (featAt (den c) 0 x 0 co) =
        (l.map fun a => a.1 * ((∑ k ∈ Finset.range (C a.2), expL (featAt (den a.2) 0 x 0 k)) / C a.2)).sum := by
  classical
  have hmods : ∀ m ∈ l.map Prod.snd, Ok μ V m := by
    intro m hm
    obtain ⟨a, ha, rfl⟩ := List.mem_map.1 hm
    exact h a ha
  have hne' : l.map Prod.snd ≠ [] := by simpa using hne
  -- the input module
  obtain ⟨c, hc, hcok, hcC, hval⟩ : ∃ c, (match l.map Prod.snd with
      | [c] => (.ok c : Except Exc Circ)
      | l => mkCat 2 l) = .ok c ∧ Ok μ V c ∧ C c = ((l.map Prod.snd).map C).sum ∧
      ∀ i (hi : i < l.length), ∀ k < C (l[i]).2, ∀ x,
        featAt (den c) 0 x 0 ((((l.map Prod.snd).map C).take i).sum + k) = featAt (den (l[i]).2) 0 x 0 k := by
    obtain ⟨_, h2, h3, h4⟩ := cat2_ok hne' hmods
    have hvals : ∀ i (hi : i < l.length), ∀ k < C (l[i]).2, ∀ x,
        featAt (den (cat2 (l.map Prod.snd).length (l.map Prod.snd).get)) 0 x 0 ((((l.map Prod.snd).map C).take i).sum + k) =
          featAt (den (l[i]).2) 0 x 0 k := by
      intro i hi k hk x
      have hi' : i < (l.map Prod.snd).length := by simpa using hi
      have := featAt_cat2 (cs := (l.map Prod.snd).get) ⟨i, hi'⟩ (f := 0) (k := k) (by rw [h3.one]; omega)
        (by simpa using hk) x 0
      have ho : offC (l.map Prod.snd).get i = (((l.map Prod.snd).map C).take i).sum := by
        unfold offC
        congr 2
        apply List.ext_getElem
        · simp
        · intro j h1 h2; simp
      rw [ho] at this
      rw [this]
      simp
    rcases hl : l with _ | ⟨a, _ | ⟨b, l'⟩⟩
    · exact absurd hl hne
    · subst hl
      refine ⟨a.2, rfl, h a (by simp), by simp, ?_⟩
      intro i hi k hk x
      have : i = 0 := by simpa using hi
      subst this
      simp
    · rw [hl] at h2 h3 h4 hvals
      exact ⟨_, h2, h3, h4, hvals⟩
  have hch : ∀ a ∈ l, 1 ≤ C a.2 := fun a ha => (h a ha).ch
  have hlen := spread_length l
  have hsum1 : ∑ ci ∈ Finset.range ((l.map Prod.snd).map C).sum, (spread l).getD ci 0 = 1 := by
    rw [← hlen, sum_getD, spread_sum l hch, hs]
  have hset : ∃ θ, setWeights c Co 1 (spreadW Co l) = .ok θ := by
    rw [C08_setter_accepts_iff]
    refine ⟨⟨hcok.one.symm, hcC.symm, rfl, rfl⟩, ?_, ?_⟩
    · intro f _ ci hci co _ r _
      have hci' : ci < (spread l).length := by rw [hlen]; exact hci
      show 0 < (spread l).getD ci 0
      rw [List.getD_eq_getElem _ _ hci']
      exact spread_pos l hch hp _ (List.getElem_mem _)
    · intro f _ co _ r _
      show |∑ ci ∈ Finset.range ((l.map Prod.snd).map C).sum, (spread l).getD ci 0 - 1| ≤ _
      rw [hsum1]
      norm_num
  obtain ⟨θ, hθ⟩ := hset
  have hmk : mkSum (l.map Prod.snd) (spreadW Co l) = .ok (sum c Co 1 θ) := by
    have hemp : (l.map Prod.snd).isEmpty = false := by simpa using hne
    unfold mkSum
    simp only [hemp, Bool.false_eq_true, if_false, bind, Except.bind, pure, Except.pure, throw, throwThe,
      MonadExceptOf.throw]
    rw [if_neg (by simp [spreadW]; omega)]
    have h1 : (spreadW Co l).Co = Co := rfl
    have h2 : (spreadW Co l).R = 1 := rfl
    rw [h1, h2]
    rcases hml : l.map Prod.snd with _ | ⟨a, _ | ⟨b, l'⟩⟩
    · exact absurd hml hne'
    · rw [hml] at hc
      simp only [Except.ok.injEq] at hc
      subst hc
      simp only [hθ]
    · rw [hml] at hc
      simp only at hc
      simp only [hc, hθ]
  have hfin : ∀ f < F c, ∀ ci < C c, ∀ co < Co, ∀ r < 1, θ f ci co r ≠ ⊥ := by
    have hw := (C08_setter_accepts_iff c Co 1 (spreadW Co l)).1 ⟨θ, hθ⟩
    intro f hf ci hci co hco r hr
    have hpos := hw.2.1 f (by rw [hw.1.1]; exact hf) ci (by rw [hw.1.2.1]; exact hci) co hco r hr
    unfold setWeights at hθ
    split at hθ
    · simp at hθ
    split at hθ
    · simp at hθ
    split at hθ
    · simp at hθ
    simp only [Except.ok.injEq] at hθ
    rw [← hθ]
    intro hb
    have := expL_logL hpos.le
    simp only at hb
    rw [hb] at this
    simp at this
    exact absurd this.symm hpos.ne'
  refine ⟨sum c Co 1 θ, hmk, ⟨⟨⟨hcok.acc, hCo, fun f hf co hco r hr => ⟨0, hcok.ch, hfin f hf 0 hcok.ch co hco r hr⟩⟩,
    hcok.al, ⟨hcok.fin, hfin⟩, ?_, hCo, hcok.lf, hcok.sc⟩, hcok.one⟩, rfl, fun x co hco => ?_⟩
  · simp only [tensorR, hcok.rep]; rfl
  · rw [expL_featAt_sum (by rw [hcok.one]; omega)]
    have e1 : ∀ ci ∈ Finset.range (C c), weight c θ 0 ci co (bc 1 0) * expL (featAt (den c) 0 x 0 ci) =
        (spread l).getD ci 0 * expL (featAt (den c) 0 x 0 ci) := by
      intro ci hci
      rw [Finset.mem_range, hcC] at hci
      have := (C08_set_get c Co 1 (spreadW Co l) θ hθ (f := 0) (ci := ci) (co := co) (r := 0) (by simp [spreadW]) hci
        hco (by simp [spreadW])).2 hsum1
      rw [show bc 1 0 = 0 from rfl, this]
      rfl
    rw [Finset.sum_congr rfl e1, hcC]
    have := spread_value l (fun ci => expL (featAt (den c) 0 x 0 ci))
      (l.map fun a => fun k => expL (featAt (den a.2) 0 x 0 k)) (by simp) (fun i hi k hk => by
        simp only [List.getElem_map]
        rw [hval i hi k hk x])
    rw [this]
    congr 1
    apply List.ext_getElem
    · simp
    · intro i h1 h2; simp

/-- The same with one output channel. -/
theorem sum_ok {l : List (ℝ × Circ)} (hne : l ≠ []) {V : Var → Prop} (h : ∀ a ∈ l, Ok μ V a.2) (hp : ∀ a ∈ l, 0 < a.1)
    (hs : (l.map Prod.fst).sum = 1) :
    ∃ c, mkSum (l.map Prod.snd) (spreadW 1 l) = .ok c ∧ Ok μ V c ∧ C c = 1 ∧
      ∀ x, expL (featAt (den c) 0 x 0 0) =
        (l.map fun a => a.1 * ((∑ k ∈ Finset.range (C a.2), expL (featAt (den a.2) 0 x 0 k)) / C a.2)).sum := by
  obtain ⟨c, h1, h2, h3, h4⟩ := sum_okN le_rfl hne h hp hs
  exact ⟨c, h1, h2, h3, fun x => h4 x 0 (by omega)⟩

/-! ### Values -/

/-- The product of all features of a module. -/
noncomputable def joint (c : Circ) (x : Row) (k : ℕ) : ℝ := ∏ f ∈ Finset.range (F c), expL (featAt (den c) f x 0 k)

theorem joint_one {c : Circ} (h : F c = 1) (x : Row) (k : ℕ) : joint c x k = expL (featAt (den c) 0 x 0 k) := by
  unfold joint; rw [h]; simp

theorem joint_eq (c : Circ) (x : Row) (k : ℕ) : joint c x k = expL (((den c).map fun u => u.val x 0 k).sum) := by
  unfold joint
  rw [← expL_featAt_prod]
  rfl

theorem expL_list_sum (l : List LogV) : expL l.sum = (l.map expL).prod := by
  induction l with
  | nil => simp
  | cons a l ih => simp [expL_add, ih]

theorem expL_flatten_sum (l : List Circ) (x : Row) (k : ℕ) :
    expL ((((l.map den).flatten).map fun u => u.val x 0 k).sum) = (l.map fun m => joint m x k).prod := by
  induction l with
  | nil => simp
  | cons a l ih =>
    simp only [List.map_cons, List.flatten_cons, List.map_append, List.sum_append, List.prod_cons]
    rw [expL_add, ih, joint_eq]

/-- `Product(l)` multiplies. -/
theorem mkProd_value {l : List Circ} {c : Circ} (h : mkProd l = .ok c) (x : Row) (k : ℕ) :
    expL (featAt (den c) 0 x 0 k) = (l.map fun m => joint m x k).prod := by
  rcases l with _ | ⟨a, _ | ⟨b, l⟩⟩
  · have h' : mkProd [] = .error .typeError := rfl
    rw [h'] at h
    cases h
  · have : c = prod a := by
      have h' : (Except.ok (prod a) : Except Exc Circ) = .ok c := h
      injection h' with h'; exact h'.symm
    rw [this, expL_featAt_prod]
    simp [joint]
  · have : c = prod (cat1 (a :: b :: l).length (a :: b :: l).get) := by
      unfold mkProd mkCat at h
      cases hck : check1 (a :: b :: l) with
      | error e => simp [hck, bind, Except.bind] at h
      | ok u =>
        simp only [hck, bind, Except.bind, pure, Except.pure, if_true] at h
        injection h with h
        exact h.symm
    rw [this]
    have e : featAt (den (prod (cat1 (a :: b :: l).length (a :: b :: l).get))) 0 x 0 k =
      ((den (cat1 (a :: b :: l).length (a :: b :: l).get)).map fun u => u.val x 0 k).sum := rfl
    rw [e, den_cat1_get, expL_flatten_sum]

theorem spread_nonpos (l : List (ℝ × Circ)) (h : ∀ a ∈ l, 1 ≤ C a.2) {a : ℝ × Circ} (ha : a ∈ l) (hp : a.1 ≤ 0) :
    ∃ y ∈ spread l, y ≤ 0 := by
  induction l with
  | nil => simp at ha
  | cons b l ih =>
    rcases List.mem_cons.1 ha with rfl | ha
    · refine ⟨a.1 / C a.2, ?_, div_nonpos_of_nonpos_of_nonneg hp (by positivity)⟩
      rw [spread, List.mem_append]
      left
      have := h a (by simp)
      exact List.mem_replicate.2 ⟨by omega, rfl⟩
    · obtain ⟨y, hy, h0⟩ := ih (fun c hc => h c (by simp [hc])) ha
      exact ⟨y, by rw [spread, List.mem_append]; exact .inr hy, h0⟩

/-- A Sum with a zero weight is rejected. -/
theorem sum_bad {Co : ℕ} (hCo : 1 ≤ Co) {l : List (ℝ × Circ)} (hlen : 2 ≤ l.length) {V : Var → Prop}
    (h : ∀ a ∈ l, Ok μ V a.2) (hp : ∃ a ∈ l, a.1 ≤ 0) :
    mkSum (l.map Prod.snd) (spreadW Co l) = .error .invalidWeights := by
  have hne : l ≠ [] := by intro h; rw [h] at hlen; simp at hlen
  have hmods : ∀ m ∈ l.map Prod.snd, Ok μ V m := by
    intro m hm
    obtain ⟨a, ha, rfl⟩ := List.mem_map.1 hm
    exact h a ha
  obtain ⟨_, h2, h3, h4⟩ := cat2_ok (by simpa using hne) hmods
  have hset : setWeights (cat2 (l.map Prod.snd).length (l.map Prod.snd).get) Co 1 (spreadW Co l) =
      .error .invalidWeights := by
    unfold setWeights
    rw [if_neg (by simp only [not_not]; exact ⟨h3.one.symm, h4.symm, rfl, rfl⟩), if_pos]
    push Not
    obtain ⟨a, ha, hle⟩ := hp
    have hex : ∃ ci < (spread l).length, (spread l).getD ci 0 ≤ 0 := by
      have : ∃ y ∈ spread l, y ≤ 0 := by
        exact spread_nonpos l (fun a ha => (h a ha).ch) ha hle
      obtain ⟨y, hy, hy0⟩ := this
      obtain ⟨i, hi, rfl⟩ := List.mem_iff_getElem.1 hy
      exact ⟨i, hi, by rw [List.getD_eq_getElem _ _ hi]; exact hy0⟩
    obtain ⟨ci, hci, hv⟩ := hex
    exact ⟨0, by simp [spreadW], ci, by rw [spread_length] at hci; exact hci, 0, hCo, 0, by simp [spreadW], hv⟩
  have hemp : (l.map Prod.snd).isEmpty = false := by simpa using hne
  unfold mkSum
  simp only [hemp, Bool.false_eq_true, if_false, bind, Except.bind, pure, Except.pure, throw, throwThe,
    MonadExceptOf.throw]
  rw [if_neg (by simp [spreadW]; omega)]
  have h1 : (spreadW Co l).Co = Co := rfl
  have h2' : (spreadW Co l).R = 1 := rfl
  rw [h1, h2']
  rcases hml : l.map Prod.snd with _ | ⟨a, _ | ⟨b, l'⟩⟩
  · simp at hml; exact absurd hml hne
  · have : l.length = 1 := by
      have := congrArg List.length hml
      simpa using this
    omega
  · rw [hml] at h2 hset
    simp only [h2, hset]

end Verif.Build

import Verif.PwlMain

/-!
# C72: the leaf module, its states and its use in a circuit
-/

namespace Verif.Pwl

open Finset MeasureTheory

theorem mapM_range {β : Type} {n : ℕ} {f : ℕ → Except Exc β} {g : ℕ → β} (h : ∀ i < n, f i = .ok (g i)) :
    (List.range n).mapM f = .ok ((List.range n).map g) := by
  have key : ∀ l : List ℕ, (∀ i ∈ l, f i = .ok (g i)) → l.mapM f = .ok (l.map g) := by
    intro l
    induction l with
    | nil => intro _; rfl
    | cons a l ih =>
      intro hl
      rw [List.mapM_cons, hl a (by simp), ih fun i hi => hl i (by simp [hi])]
      rfl
  exact key _ fun i hi => h i (List.mem_range.1 hi)

theorem mapM_range_error {β : Type} {n : ℕ} {f : ℕ → Except Exc β} {i : ℕ} (hi : i < n) {e : Exc} (he : f i = .error e) :
    ∃ e', (List.range n).mapM f = .error e' := by
  have key : ∀ l : List ℕ, i ∈ l → ∃ e', l.mapM f = .error e' := by
    intro l
    induction l with
    | nil => simp
    | cons a l ih =>
      intro hm
      rw [List.mapM_cons]
      cases hfa : f a with
      | error x => exact ⟨x, rfl⟩
      | ok b =>
        rcases List.mem_cons.1 hm with rfl | hm
        · rw [he] at hfa; cases hfa
        · obtain ⟨e', h'⟩ := ih hm
          rw [h']
          exact ⟨e', rfl⟩
  exact key _ (List.mem_range.2 hi)

/-- A domain `initialize` can handle: continuous, or discrete with at least one value. -/
def Supported : Domain → Prop
  | .discrete vs => vs ≠ []
  | .continuous _ _ => True
  | .other => False

theorem cell_ok_iff (α : ℝ) (dom : Domain) (data : List ℝ) : (∃ c, cell α dom data = .ok c) ↔ Supported dom := by
  cases dom with
  | discrete vs =>
    unfold cell Supported
    by_cases hv : vs.length = 0
    · dsimp only
      rw [if_pos hv]
      simp [List.length_eq_zero_iff.1 hv]
    · dsimp only
      rw [if_neg hv]
      simp only [Except.ok.injEq, exists_eq', true_iff]
      rintro rfl
      simp at hv
  | continuous lo hi =>
    simp only [Supported, iff_true]
    obtain ⟨e, he⟩ : ∃ e, breaksC lo hi data = .ok e := by
      unfold breaksC
      by_cases hd : data.length = 0
      · rw [if_pos hd]; exact ⟨_, rfl⟩
      · rw [if_neg hd]
        unfold binEdges outerEdges
        by_cases ha : data = [] <;> simp [ha, bind, Except.bind]
    unfold cell
    dsimp only
    rw [he]
    exact ⟨_, rfl⟩
  | other => simp [cell, Supported]

/-- The curve of a cell that can be fitted (a default otherwise). -/
noncomputable def cellD (α : ℝ) (dom : Domain) (data : List ℝ) : Curve :=
  match cell α dom data with
  | .ok c => c
  | .error _ => ⟨0, fun _ => 0, fun _ => 0, true⟩

theorem cellD_eq {α : ℝ} {dom : Domain} {data : List ℝ} (h : ∃ c, cell α dom data = .ok c) :
    cell α dom data = .ok (cellD α dom data) := by
  obtain ⟨c, hc⟩ := h
  unfold cellD
  rw [hc]

theorem fitAll_ok {cfg : Config} {rows : List (ℕ → ℝ)} {doms : List Domain} {cl : ℕ → ℕ → ℕ}
    (h : ∀ f < cfg.query.length, Supported (doms.getD f .other)) :
    fitAll cfg rows doms cl = .ok ((List.range cfg.R).map fun r => (List.range cfg.L).map fun l =>
      (List.range cfg.query.length).map fun f => cellD cfg.α (doms.getD f .other) (column cfg.L (cl r) rows l f)) := by
  unfold fitAll
  refine mapM_range fun r _ => mapM_range fun l _ => mapM_range fun f hf => ?_
  exact cellD_eq ((cell_ok_iff _ _ _).2 (h f hf))

theorem le_foldr_max_nat {l : List ℕ} {n : ℕ} (h : n ∈ l) : n ≤ l.foldr max 0 := by
  induction l with
  | nil => simp at h
  | cons a l ih =>
    rcases List.mem_cons.1 h with rfl | h
    · exact le_max_left _ _
    · exact (ih h).trans (le_max_right _ _)

theorem curveAt_len {cs : List (List (List Curve))} {r l f : ℕ} {c : Curve} (h : curveAt cs r l f = some c) :
    c.len ≤ maxPoints cs := by
  unfold curveAt at h
  rw [Option.bind_eq_some_iff] at h
  obtain ⟨a, ha, h⟩ := h
  rw [Option.bind_eq_some_iff] at h
  obtain ⟨b, hb, h⟩ := h
  apply le_foldr_max_nat
  apply List.mem_map_of_mem
  rw [List.mem_flatten]
  refine ⟨b, ?_, List.mem_of_getElem? h⟩
  rw [List.mem_flatten]
  exact ⟨a, List.mem_of_getElem? ha, List.mem_of_getElem? hb⟩

/-- **C72 (acceptance).** `initialize` succeeds exactly when the data have one column and one domain per variable of the
scope and, unless the leaf has no cell, every domain is continuous or lists a value. -/
theorem C72_accepts_iff (cfg : Config) (st : State) (D : ℕ) (rows : List (ℕ → ℝ)) (doms : List Domain) (cl : ℕ → ℕ → ℕ) :
    (fitLeaf cfg st D rows doms cl).2 = none ↔
      D = cfg.query.length ∧ doms.length = cfg.query.length ∧
        (0 < cfg.R → 0 < cfg.L → ∀ dom ∈ doms, Supported dom) := by
  unfold fitLeaf
  by_cases h1 : D = cfg.query.length
  · by_cases h2 : doms.length = cfg.query.length
    · rw [if_neg (by simpa using h1), if_neg (by simpa using h2)]
      simp only [h1, h2, true_and]
      constructor
      · intro h hR hL dom hdom
        obtain ⟨f, hf, rfl⟩ := List.getElem_of_mem hdom
        by_contra hcon
        have hbad : ∃ e, cell cfg.α (doms.getD f .other) (column cfg.L (cl 0) rows 0 f) = .error e := by
          cases hc : cell cfg.α (doms.getD f .other) (column cfg.L (cl 0) rows 0 f) with
          | error e => exact ⟨e, rfl⟩
          | ok c =>
            exact absurd ((cell_ok_iff _ _ _).1 ⟨c, hc⟩) (by rw [List.getD_eq_getElem _ _ hf]; exact hcon)
        obtain ⟨e, he⟩ := hbad
        obtain ⟨e1, h1'⟩ := mapM_range_error (n := cfg.query.length)
          (f := fun f => cell cfg.α (doms.getD f .other) (column cfg.L (cl 0) rows 0 f)) (by omega) he
        obtain ⟨e2, h2'⟩ := mapM_range_error (n := cfg.L) (f := fun l => (List.range cfg.query.length).mapM fun f =>
          cell cfg.α (doms.getD f .other) (column cfg.L (cl 0) rows l f)) hL h1'
        obtain ⟨e3, h3'⟩ := mapM_range_error (n := cfg.R) (f := fun r => (List.range cfg.L).mapM fun l =>
          (List.range cfg.query.length).mapM fun f =>
          cell cfg.α (doms.getD f .other) (column cfg.L (cl r) rows l f)) hR h2'
        rw [show fitAll cfg rows doms cl = .error e3 from h3'] at h
        simp at h
      · intro h
        have hok : ∃ cs, fitAll cfg rows doms cl = .ok cs := by
          rcases Nat.eq_zero_or_pos cfg.R with hR | hR
          · exact ⟨[], by unfold fitAll; rw [hR]; rfl⟩
          rcases Nat.eq_zero_or_pos cfg.L with hL | hL
          · refine ⟨(List.range cfg.R).map fun _ => [], ?_⟩
            unfold fitAll
            rw [hL]
            exact mapM_range fun r _ => rfl
          exact ⟨_, fitAll_ok fun f hf => h hR hL _ (by
            rw [List.getD_eq_getElem _ _ (by omega)]; exact List.getElem_mem _)⟩
        obtain ⟨cs, hcs⟩ := hok
        rw [hcs]
    · rw [if_neg (by simpa using h1), if_pos (by simpa using h2)]
      simp [h2]
  · rw [if_pos (by simpa using h1)]
    simp [h1]

/-- **C72 (fitting).** If the data of every cell (repetition, cluster, feature) fit the domain of the feature, then
`initialize` succeeds for every clustering, and every cell holds a curve whose interpolated density integrates to one. -/
theorem C72_fit {cfg : Config} (hα : 0 ≤ cfg.α) (st : State) {rows : List (ℕ → ℝ)} {doms : List Domain}
    {cl : ℕ → ℕ → ℕ} (hdom : doms.length = cfg.query.length)
    (h : ∀ r < cfg.R, ∀ l < cfg.L, ∀ f < cfg.query.length, Fits (doms.getD f .other) (column cfg.L (cl r) rows l f)) :
    ∃ cs, fitLeaf cfg st cfg.query.length rows doms cl = (⟨some cs, some doms, none⟩, none) ∧
      ∀ r < cfg.R, ∀ l < cfg.L, ∀ f < cfg.query.length, ∃ c, curveAt cs r l f = some c ∧
        cell cfg.α (doms.getD f .other) (column cfg.L (cl r) rows l f) = .ok c ∧ Good c ∧ c.nan = false ∧
        c.len ≤ maxPoints cs ∧ ∫⁻ q, ENNReal.ofReal (dens (maxPoints cs) c q) = 1 := by
  have hcell : ∀ r < cfg.R, ∀ l < cfg.L, ∀ f < cfg.query.length,
      cell cfg.α (doms.getD f .other) (column cfg.L (cl r) rows l f)
        = .ok (cellD cfg.α (doms.getD f .other) (column cfg.L (cl r) rows l f)) := by
    intro r hr l hl f hf
    obtain ⟨c, hc, -⟩ := cell_ok hα (h r hr l hl f hf)
    exact cellD_eq ⟨c, hc⟩
  have hfit : fitAll cfg rows doms cl = .ok ((List.range cfg.R).map fun r => (List.range cfg.L).map fun l =>
      (List.range cfg.query.length).map fun f => cellD cfg.α (doms.getD f .other) (column cfg.L (cl r) rows l f)) := by
    unfold fitAll
    exact mapM_range fun r hr => mapM_range fun l hl => mapM_range fun f hf => hcell r hr l hl f hf
  refine ⟨(List.range cfg.R).map fun r => (List.range cfg.L).map fun l =>
      (List.range cfg.query.length).map fun f => cellD cfg.α (doms.getD f .other) (column cfg.L (cl r) rows l f), ?_, ?_⟩
  · unfold fitLeaf
    rw [if_neg (by simp), if_neg (by simpa using hdom), hfit]
  · intro r hr l hl f hf
    have hat : curveAt ((List.range cfg.R).map fun r => (List.range cfg.L).map fun l =>
        (List.range cfg.query.length).map fun f => cellD cfg.α (doms.getD f .other) (column cfg.L (cl r) rows l f)) r l f
        = some (cellD cfg.α (doms.getD f .other) (column cfg.L (cl r) rows l f)) := by
      unfold curveAt
      simp [hr, hl, hf]
    obtain ⟨c, hc, hg, hA, hn⟩ := cell_ok hα (h r hr l hl f hf)
    have he := hcell r hr l hl f hf
    rw [hc] at he
    injection he with he
    rw [← he] at hat
    have hlen := curveAt_len hat
    exact ⟨c, hat, hc, hg, hn, hlen, by rw [hg.lintegral_dens hlen, hA, ENNReal.ofReal_one]⟩

/-- **C72 (log-likelihood of a row).** On a leaf freshly fitted to fitting data, `log_likelihood` succeeds on data that
have the columns of the scope; a missing value contributes 0, an observed one the logarithm of the interpolated density
plus `1e-10`; entry `[n, 0, f, l, r]` belongs to feature `f`, channel `l`, repetition `r`. -/
theorem C72_log_likelihood {cfg : Config} (hα : 0 ≤ cfg.α) (st : State) {rows : List (ℕ → ℝ)} {doms : List Domain}
    {cl : ℕ → ℕ → ℕ} (hdom : doms.length = cfg.query.length)
    (h : ∀ r < cfg.R, ∀ l < cfg.L, ∀ f < cfg.query.length, Fits (doms.getD f .other) (column cfg.L (cl r) rows l f)) :
    ∃ g : ℕ → ℕ → ℕ → ℝ → ℝ,
      (∀ f < cfg.query.length, ∀ l < cfg.L, ∀ r < cfg.R, (∀ q, 0 ≤ g f l r q) ∧ ∫⁻ q, ENNReal.ofReal (g f l r q) = 1) ∧
      ∀ D, (∀ v ∈ cfg.query, v < D) → ∀ x : List (ℕ → Option ℝ),
        ∃ t, logLikelihood cfg (fitLeaf cfg st cfg.query.length rows doms cl).1 D x = .ok t ∧
          t.shape = [x.length, 1, cfg.query.length, cfg.L, cfg.R] ∧
          ∀ n, (hn : n < x.length) → ∀ f, (hf : f < cfg.query.length) → ∀ l < cfg.L, ∀ r < cfg.R,
            (x[n] cfg.query[f] = none → t.val [n, 0, f, l, r] = some 0) ∧
            ∀ q, x[n] cfg.query[f] = some q → t.val [n, 0, f, l, r] = some (Real.log (g f l r q + 1 / 10 ^ 10)) := by
  obtain ⟨cs, hfit, hcs⟩ := C72_fit hα st hdom h
  have hG : ∀ f l r, ∃ g : ℝ → ℝ, f < cfg.query.length → l < cfg.L → r < cfg.R →
      ∃ c, curveAt cs r l f = some c ∧ c.nan = false ∧ g = dens (maxPoints cs) c ∧ ∫⁻ q, ENNReal.ofReal (g q) = 1 := by
    intro f l r
    by_cases hh : f < cfg.query.length ∧ l < cfg.L ∧ r < cfg.R
    · obtain ⟨c, hat, -, -, hnan, -, hone⟩ := hcs r hh.2.2 l hh.2.1 f hh.1
      exact ⟨dens (maxPoints cs) c, fun _ _ _ => ⟨c, hat, hnan, rfl, hone⟩⟩
    · exact ⟨fun _ => 0, fun a b c => absurd ⟨a, b, c⟩ hh⟩
  choose g hg using hG
  refine ⟨g, ?_, ?_⟩
  · intro f hf l hl r hr
    obtain ⟨c, -, -, e, hone⟩ := hg f l r hf hl hr
    exact ⟨fun q => by rw [e]; exact Good.dens_nonneg q, hone⟩
  intro D hD x
  rw [hfit]
  unfold logLikelihood distribution
  dsimp only
  rw [if_pos hD]
  refine ⟨_, rfl, rfl, ?_⟩
  intro n hn f hf l hl r hr
  obtain ⟨c, hat, hnan, e, -⟩ := hg f l r hf hl hr
  refine ⟨?_, ?_⟩
  · intro hx
    simp only [List.getD_cons_zero, List.getD_cons_succ]
    rw [List.getD_eq_getElem _ _ hn, List.getD_eq_getElem _ _ hf, hx]
    rfl
  · intro q hx
    simp only [List.getD_cons_zero, List.getD_cons_succ]
    rw [List.getD_eq_getElem _ _ hn, List.getD_eq_getElem _ _ hf, hx]
    show (curveAt cs r l f).bind _ = _
    rw [hat, Option.bind_some, C72_log_prob hnan, e]

/-- **C72 (life cycle).** Before `initialize` and after `reset`, `log_likelihood` and sampling raise ValueError; a negative
`alpha` is rejected by the constructor and nothing else is. -/
theorem C72_life_cycle (cfg : Config) (D : ℕ) (x : List (ℕ → Option ℝ)) (isMpe : Bool) (r l f : ℕ) :
    logLikelihood cfg State.fresh D x = .error .valueError ∧
      sampleAction State.fresh isMpe r l f = .error .valueError ∧
      (0 ≤ cfg.α → construct cfg = .ok State.fresh) ∧ (cfg.α < 0 → construct cfg = .error .valueError) := by
  refine ⟨rfl, rfl, ?_, ?_⟩
  · intro h; unfold construct; rw [if_neg (not_lt.2 h)]
  · intro h; unfold construct; rw [if_pos h]

/-- **C72 (sampling a cell).** On a freshly initialised leaf, mpe takes the mode of the cell, sampling draws from the curve
of the cell by the data type of the feature. -/
theorem C72_sample_action {cfg : Config} {st : State} {D : ℕ} {rows : List (ℕ → ℝ)} {doms : List Domain}
    {cl : ℕ → ℕ → ℕ} {st' : State} (h : fitLeaf cfg st D rows doms cl = (st', none)) {r l f : ℕ} (hr : r < cfg.R)
    (hl : l < cfg.L) (hf : f < cfg.query.length) :
    ∃ c, cell cfg.α (doms.getD f .other) (column cfg.L (cl r) rows l f) = .ok c ∧
      sampleAction st' true r l f = .ok (some (.mode c)) ∧
      ((∃ lo hi, doms.getD f .other = .continuous lo hi) → sampleAction st' false r l f = .ok (some (.cont c))) ∧
      ((∃ vs, doms.getD f .other = .discrete vs) → sampleAction st' false r l f = .ok (some (.disc c))) := by
  have hacc := (C72_accepts_iff cfg st D rows doms cl).1 (by rw [h])
  obtain ⟨rfl, hdl, hsup⟩ := hacc
  have hsup' : ∀ f < cfg.query.length, Supported (doms.getD f .other) := fun f hf =>
    hsup (by omega) (by omega) _ (by rw [List.getD_eq_getElem _ _ (by omega)]; exact List.getElem_mem _)
  have hfit := fitAll_ok (cfg := cfg) (rows := rows) (cl := cl) hsup'
  unfold fitLeaf at h
  rw [if_neg (by simp), if_neg (by simpa using hdl), hfit] at h
  have hst := (Prod.mk.inj h).1
  have hat : curveAt ((List.range cfg.R).map fun r => (List.range cfg.L).map fun l =>
      (List.range cfg.query.length).map fun f => cellD cfg.α (doms.getD f .other) (column cfg.L (cl r) rows l f)) r l f
      = some (cellD cfg.α (doms.getD f .other) (column cfg.L (cl r) rows l f)) := by
    unfold curveAt
    simp [hr, hl, hf]
  refine ⟨_, cellD_eq ((cell_ok_iff _ _ _).2 (hsup' f hf)), ?_, ?_, ?_⟩
  · rw [← hst]
    unfold sampleAction distribution
    dsimp only
    rw [if_pos rfl, hat]
    rfl
  · rintro ⟨lo, hi, hd⟩
    rw [← hst]
    unfold sampleAction distribution
    dsimp only
    have hd' : doms[f]? = some (.continuous lo hi) := by
      rw [List.getElem?_eq_getElem (by omega), ← hd, List.getD_eq_getElem _ _ (by omega)]
    rw [if_neg (by simp), Option.getD_some, hd', hat]
    rfl
  · rintro ⟨vs, hd⟩
    rw [← hst]
    unfold sampleAction distribution
    dsimp only
    have hd' : doms[f]? = some (.discrete vs) := by
      rw [List.getElem?_eq_getElem (by omega), ← hd, List.getD_eq_getElem _ _ (by omega)]
    rw [if_neg (by simp), Option.getD_some, hd', hat]
    rfl

/-- **C72 (finding: a Product over the leaf does not multiply).** The tensor of the leaf has an extra dimension of size one
before the features; `Product` sums over that one, so its value at feature `f` is the log-likelihood of feature `f` alone and
all features stay separate.  `Sum` rejects the tensor. -/
theorem C72_product_and_sum_wrong {cfg : Config} {st : State} {D : ℕ} {x : List (ℕ → Option ℝ)} {t : Tens}
    (h : logLikelihood cfg st D x = .ok t) :
    (productLL t).shape = [x.length, 1, cfg.query.length, cfg.L, cfg.R] ∧
      (∀ n f l r v, t.val [n, 0, f, l, r] = some v → (productLL t).val [n, 0, f, l, r] = some v) ∧
      sumRearrange t = .error .runtimeError := by
  unfold logLikelihood at h
  cases hd : distribution st with
  | error e => rw [hd] at h; cases h
  | ok p =>
    rw [hd] at h
    obtain ⟨s, cs, dm⟩ := p
    dsimp only at h
    by_cases hq : ∀ v ∈ cfg.query, v < D
    · rw [if_pos hq] at h
      injection h with h
      have hshape : t.shape = [x.length, 1, cfg.query.length, cfg.L, cfg.R] := by rw [← h]
      refine ⟨by unfold productLL; rw [hshape]; rfl, ?_, ?_⟩
      · intro n f l r v hv
        unfold productLL
        rw [hshape]
        show nanAdd (some 0) (t.val [n, 0, f, l, r]) = _
        rw [hv]
        simp [nanAdd]
      · unfold sumRearrange
        rw [if_neg (by rw [hshape]; simp)]
    · rw [if_neg hq] at h; cases h

end Verif.Pwl

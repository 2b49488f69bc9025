import Verif.SosBuild

/-!
# `SOSModel` and `ExpSOSModel`: when the constructors succeed, and that the models are normalised
-/

open Verif.Inner

namespace Verif
namespace Sos

open Tree

/-! ## Arguments -/

/-- The arguments that the constructors accept, as documented; `K` is the number of states found in the keyword
arguments. -/
structure Args.Valid (a : Args) (K : Option ℕ) : Prop where
  vars : 0 < a.n
  inputs : 0 < a.inputUnits
  sums : 0 < a.sumUnits
  layer : a.layer ∈ ["categorical", "embedding", "gaussian"]
  image : ∀ l, a.image = some l → ∃ c h w : ℤ, l = [c, h, w] ∧ 0 < c ∧ 0 < h ∧ 0 < w ∧ c * h * w = a.n
  categories : a.layer = "categorical" → ∃ kw k, a.kwargs = some kw ∧ kw.numCategories = some k ∧ K = some k
  states : a.layer = "embedding" → ∃ kw k, a.kwargs = some kw ∧ kw.numStates = some k ∧ K = some k
  none : a.layer = "gaussian" → K = none

theorem validate_ok (n iu su : ℤ) (layer : String) (image : Option (List ℤ)) :
    validate n iu su layer image = .ok () ↔ 0 < n ∧ 0 < iu ∧ 0 < su ∧ layer ∈ ["categorical", "embedding", "gaussian"] ∧
      ∀ l, image = some l → ∃ c h w : ℤ, l = [c, h, w] ∧ 0 < c ∧ 0 < h ∧ 0 < w ∧ c * h * w = n := by
  unfold validate
  by_cases h1 : n ≤ 0
  · rw [if_pos h1]; simp; omega
  rw [if_neg h1]
  by_cases h2 : iu ≤ 0
  · rw [if_pos h2]; simp; omega
  rw [if_neg h2]
  by_cases h3 : su ≤ 0
  · rw [if_pos h3]; simp; omega
  rw [if_neg h3]
  by_cases h4 : layer = "categorical" ∨ layer = "embedding" ∨ layer = "gaussian"
  swap
  · rw [if_pos h4]
    simp only [reduceCtorEq, List.mem_cons, List.not_mem_nil, or_false, false_iff]
    tauto
  rw [if_neg (not_not.2 h4)]
  have hb : 0 < n ∧ 0 < iu ∧ 0 < su ∧ layer ∈ ["categorical", "embedding", "gaussian"] :=
    ⟨by omega, by omega, by omega, by simpa using h4⟩
  have key : ∀ Q : Prop, (0 < n ∧ 0 < iu ∧ 0 < su ∧ layer ∈ ["categorical", "embedding", "gaussian"] ∧ Q) ↔ Q := by
    intro Q; tauto
  rw [key]
  match image with
  | none => simp
  | some [] => simp
  | some [_] => simp
  | some [_, _] => simp
  | some (_ :: _ :: _ :: _ :: _) => simp
  | some [c, h, w] =>
    dsimp only
    simp only [Option.some.injEq, forall_eq', List.cons.injEq, and_true]
    constructor
    · intro hh
      split_ifs at hh with e1 e2
      exact ⟨c, h, w, ⟨rfl, rfl, rfl⟩, by omega, by omega, by omega, not_not.1 e2⟩
    · rintro ⟨c', h', w', ⟨rfl, rfl, rfl⟩, e1, e2, e3, e4⟩
      rw [if_neg (by omega), if_neg (by rw [not_not]; exact e4)]

theorem resolve_ok (a : Args) (K : Option ℕ) (hl : a.layer ∈ ["categorical", "embedding", "gaussian"]) :
    resolveStates a.layer a.kwargs = .ok K ↔
      (a.layer = "categorical" → ∃ kw k, a.kwargs = some kw ∧ kw.numCategories = some k ∧ K = some k) ∧
      (a.layer = "embedding" → ∃ kw k, a.kwargs = some kw ∧ kw.numStates = some k ∧ K = some k) ∧
      (a.layer = "gaussian" → K = none) := by
  have opt : ∀ f : Kwargs → Option ℕ,
      required (a.kwargs.bind f) = .ok K ↔ ∃ kw k, a.kwargs = some kw ∧ f kw = some k ∧ K = some k := by
    intro f
    cases hk : a.kwargs with
    | none => simp [required]
    | some kw =>
      cases hf : f kw with
      | none => simp [hf, required]
      | some k => simp [hf, required, eq_comm]
  simp only [List.mem_cons, List.not_mem_nil, or_false] at hl
  unfold resolveStates
  rcases hl with h | h | h
  · simp only [h, if_true, opt, forall_const]
    simp
  · simp only [h, if_true, forall_const]
    rw [if_neg (by decide), opt]
    simp
  · simp only [h]
    rw [if_neg (by decide), if_neg (by decide)]
    simp [eq_comm]

theorem Args.Valid.unique {a : Args} {K K' : Option ℕ} (h : a.Valid K) (h' : a.Valid K') : K = K' := by
  have e := (resolve_ok a K h.layer).2 ⟨h.categories, h.states, h.none⟩
  have e' := (resolve_ok a K' h.layer).2 ⟨h'.categories, h'.states, h'.none⟩
  rw [e] at e'
  cases e'
  rfl

theorem Args.Valid.shape {a : Args} {K : Option ℕ} (h : a.Valid K) : ImageOk a.shape a.n.toNat := by
  intro c h' w e
  unfold Args.shape at e
  split at e
  · rename_i c0 h0 w0 hi
    obtain ⟨c1, h1, w1, el, p1, p2, p3, p4⟩ := h.image _ hi
    simp only [List.cons.injEq, and_true] at el
    obtain ⟨rfl, rfl, rfl⟩ := el
    simp only [Option.some.injEq, Prod.mk.injEq] at e
    obtain ⟨rfl, rfl, rfl⟩ := e
    refine ⟨by omega, by omega, by omega, ?_⟩
    rw [← p4, Int.toNat_mul (by positivity) (by omega), Int.toNat_mul (by omega) (by omega)]
  · cases e

/-- The region graphs that can be built for these arguments. -/
def Args.RegionOk (a : Args) : Prop :=
  a.region ∈ ["rnd-bt", "rnd-lt", "lt"] ∨ a.region ∈ ["qt", "qt-2", "qt-4"] ∧ a.image ≠ none

theorem Args.Valid.tree_iff {a : Args} {K : Option ℕ} (h : a.Valid K) (rng : ℤ → List ℕ → List ℕ) (i : ℕ) :
    (∃ t, a.tree rng i = .ok t) ↔ a.RegionOk := by
  unfold Args.tree Args.RegionOk
  rw [(C78_regions rng a.region a.n.toNat a.shape _).1]
  have : a.shape ≠ Option.none ↔ a.image ≠ Option.none := by
    unfold Args.shape
    cases hi : a.image with
    | none => simp
    | some l =>
      obtain ⟨c, h', w, rfl, -⟩ := h.image l hi
      simp
  rw [this]

theorem Args.Valid.tree_ok {a : Args} {K : Option ℕ} (h : a.Valid K) {rng : ℤ → List ℕ → List ℕ}
    (hs : ∀ s l, (rng s l).Perm l) {i : ℕ} {t : Tree} (ht : a.tree rng i = .ok t) :
    t.Ok ∧ (∀ v, v ∈ t.scope ↔ v < a.n.toNat) ∧ t.Leaves fun s => s.Pairwise (· < ·) := by
  obtain ⟨h1, h2, h3⟩ := C78_trees hs (by have := h.vars; omega) h.shape ht
  refine ⟨h1, h2, h3.mono ?_⟩
  rintro s (⟨v, rfl⟩ | ⟨c, h', w, y, x, e, hy, hx, rfl⟩)
  · simp
  · have hh := h.shape c h' w e
    unfold column
    rw [List.pairwise_map]
    refine List.pairwise_lt_range.imp ?_
    intro i j hij
    have : (i + 1) * (h' * w) ≤ j * (h' * w) := Nat.mul_le_mul_right _ hij
    rw [Nat.add_mul, Nat.one_mul] at this
    have := pixel_lt hy hx
    omega

/-- The variables `0 … n-1`. -/
def allVars (n : ℕ) : Finset Var := (Finset.range n).image fun v : ℕ => (v : ℤ)

theorem vars_all {t : Tree} {n : ℕ} (h : ∀ v, v ∈ t.scope ↔ v < n) : t.vars = allVars n := by
  ext z
  simp [mem_vars, allVars, h]

/-! ## The squares of a `SOSModel` -/

/-- The leaf constructors do not fail on these arguments: signed tables have at least one state. -/
def Args.LeafOk (a : Args) (K : Option ℕ) : Prop := a.layer = "gaussian" ∨ a.signedInputs = false ∨ K ≠ some 0

theorem Args.Valid.leafOk_iff {a : Args} {K : Option ℕ} (h : a.Valid K) : (a.cfg K).LeafOk ↔ a.LeafOk K := by
  unfold Cfg.LeafOk Args.LeafOk Args.cfg
  have hl := h.layer
  simp only [List.mem_cons, List.not_mem_nil, or_false] at hl
  have hk : a.layer ≠ "gaussian" → ∃ k, K = some k := by
    intro hg
    rcases hl with e | e | e
    · obtain ⟨_, k, _, _, rfl⟩ := h.categories e; exact ⟨k, rfl⟩
    · obtain ⟨_, k, _, _, rfl⟩ := h.states e; exact ⟨k, rfl⟩
    · exact absurd e hg
  by_cases hg : a.layer = "gaussian"
  · simp [hg]
  · obtain ⟨k, rfl⟩ := hk hg
    simp only [hg, false_or, Option.some.injEq, exists_eq_left', forall_const, ne_eq]
    cases a.signedInputs <;> simp

theorem inst_first_leaf {cfg : Cfg} {d : Draws} (hf : ∀ s, makeLeaf cfg d s = .error .valueError) :
    ∀ {t : Tree}, t.Ok → inst cfg d t = .error .valueError := by
  intro t
  induction t with
  | leaf s => intro _; exact hf s
  | node s n cs ih =>
    intro ht
    have hn : 2 ≤ n := ht.1
    simp only [inst]
    rw [if_neg (by omega), seqFin_error (e := .valueError) (fun i => Or.inl (ih i (ht.2.2.1 i))) ⟨⟨0, by omega⟩, ih _ (ht.2.2.1 _)⟩]

/-- `_build_component` for valid arguments. -/
theorem component_iff {a : Args} {K : Option ℕ} (h : a.Valid K) (d : Draws) (force : Bool) {t : Tree} (ht : t.Ok) :
    (∃ c, component (a.cfg K) d force t = .ok c) ↔ a.LeafOk K ∧ (a.inputUnits = a.sumUnits ∨ ¬ t.Mixed) := by
  by_cases hl : a.LeafOk K
  · rw [(C78_component d force (h.leafOk_iff.2 hl) ht).1]
    simp only [Args.cfg, hl, true_and]
    have : a.inputUnits.toNat = a.sumUnits.toNat ↔ a.inputUnits = a.sumUnits := by
      have := h.inputs
      have := h.sums
      omega
    rw [this]
  · simp only [hl, false_and, iff_false]
    rintro ⟨c, hc⟩
    have hl' := hl
    simp only [Args.LeafOk, not_or, Bool.not_eq_false, not_not] at hl'
    have := inst_first_leaf (d := d) (fun s => makeLeaf_fails (cfg := a.cfg K) hl'.1 hl'.2.2
      (fun hc => hl (h.leafOk_iff.1 hc)) d s) ht
    unfold component at hc
    rw [this] at hc
    cases hc

/-- How many circuits one square has. -/
def perSquare (complex : Bool) : ℕ := if complex = true then 2 else 1

theorem square_ok {cfg : Cfg} {d : ℕ → Draws} {complex : Bool} {i : ℕ} {t : Tree} {cs : List IC}
    (h : square cfg d complex i t = .ok cs) :
    cs.length = perSquare complex ∧ ∀ c ∈ cs, ∃ j, component cfg (d j) false t = .ok c := by
  unfold square at h
  unfold perSquare
  split_ifs at h ⊢ with hc
  · split at h
    · cases h
    · rename_i re hre
      split at h
      · cases h
      · rename_i im him
        cases h
        refine ⟨rfl, fun c hc => ?_⟩
        simp only [List.mem_cons, List.not_mem_nil, or_false] at hc
        rcases hc with rfl | rfl
        exacts [⟨_, hre⟩, ⟨_, him⟩]
  · split at h
    · cases h
    · rename_i c' hre
      cases h
      refine ⟨rfl, fun c hc => ?_⟩
      simp only [List.mem_cons, List.not_mem_nil, or_false] at hc
      exact ⟨_, hc ▸ hre⟩

theorem square_iff {cfg : Cfg} (d : ℕ → Draws) (complex : Bool) (i : ℕ) {t : Tree} {P : Prop}
    (h : ∀ j, (∃ c, component cfg (d j) false t = .ok c) ↔ P) : (∃ cs, square cfg d complex i t = .ok cs) ↔ P := by
  constructor
  · rintro ⟨cs, hcs⟩
    obtain ⟨e1, e2⟩ := square_ok hcs
    have : 0 < cs.length := by rw [e1]; unfold perSquare; split_ifs <;> omega
    obtain ⟨j, hj⟩ := e2 _ (List.getElem_mem this)
    exact (h j).1 ⟨_, hj⟩
  · intro hP
    have hk := fun j => (h j).2 hP
    choose k hk using hk
    unfold square
    split_ifs
    · simp only [hk]; exact ⟨_, rfl⟩
    · simp only [hk]; exact ⟨_, rfl⟩

theorem squares_ok {a : Args} {cfg : Cfg} {rng : ℤ → List ℕ → List ℕ} {d : ℕ → Draws} : ∀ {m i : ℕ} {cs : List IC},
    squares a cfg rng d m i = .ok cs → cs.length = perSquare a.complex * m ∧
      ∀ c ∈ cs, ∃ k j t, i ≤ k ∧ a.tree rng k = .ok t ∧ component cfg (d j) false t = .ok c
  | 0, i, cs, h => by cases h; simp
  | m + 1, i, cs, h => by
    unfold squares at h
    split at h
    · cases h
    rename_i t ht
    split at h
    · cases h
    rename_i c1 h1
    split at h
    · cases h
    rename_i c2 h2
    cases h
    obtain ⟨e1, e2⟩ := square_ok h1
    obtain ⟨e3, e4⟩ := squares_ok h2
    refine ⟨by rw [List.length_append, e1, e3]; ring, fun c hc => ?_⟩
    rcases List.mem_append.1 hc with hc | hc
    · obtain ⟨j, hj⟩ := e2 c hc
      exact ⟨i, j, t, le_rfl, ht, hj⟩
    · obtain ⟨k, j, t', hk, ht', hj⟩ := e4 c hc
      exact ⟨k, j, t', by omega, ht', hj⟩

theorem squares_iff {a : Args} {K : Option ℕ} (h : a.Valid K) {rng : ℤ → List ℕ → List ℕ}
    (hs : ∀ s l, (rng s l).Perm l) (d : ℕ → Draws) (hr : a.RegionOk) : ∀ (m i : ℕ),
    (∃ cs, squares a (a.cfg K) rng d (m + 1) i = .ok cs) ↔ a.LeafOk K ∧ (a.inputUnits = a.sumUnits ∨
      ∀ k, i ≤ k → k ≤ i + m → ∀ t, a.tree rng k = .ok t → ¬ t.Mixed) := by
  have step : ∀ i, ∃ t, a.tree rng i = .ok t ∧ ((∃ cs, square (a.cfg K) d a.complex i t = .ok cs) ↔
      a.LeafOk K ∧ (a.inputUnits = a.sumUnits ∨ ¬ t.Mixed)) := by
    intro i
    obtain ⟨t, ht⟩ := (h.tree_iff rng i).2 hr
    exact ⟨t, ht, square_iff d _ _ fun j => component_iff h (d j) false (h.tree_ok hs ht).1⟩
  intro m
  induction m with
  | zero =>
    intro i
    obtain ⟨t, ht, hc⟩ := step i
    have e : (∃ cs, squares a (a.cfg K) rng d (0 + 1) i = .ok cs) ↔ ∃ cs, square (a.cfg K) d a.complex i t = .ok cs := by
      simp only [squares, ht]
      cases square (a.cfg K) d a.complex i t <;> simp
    rw [e, hc]
    refine and_congr_right fun _ => or_congr_right ?_
    constructor
    · intro hm k h1 h2 t' ht'
      have : k = i := by omega
      subst this
      rw [ht] at ht'
      cases ht'
      exact hm
    · intro hm
      exact hm i le_rfl (by omega) t ht
  | succ m ih =>
    intro i
    obtain ⟨t, ht, hc⟩ := step i
    have e : (∃ cs, squares a (a.cfg K) rng d (m + 1 + 1) i = .ok cs) ↔ (∃ cs, square (a.cfg K) d a.complex i t = .ok cs) ∧
        ∃ cs, squares a (a.cfg K) rng d (m + 1) (i + 1) = .ok cs := by
      rw [squares]
      simp only [ht]
      cases square (a.cfg K) d a.complex i t with
      | error e => simp
      | ok cs =>
        cases squares a (a.cfg K) rng d (m + 1) (i + 1) <;> simp
    rw [e, hc, ih]
    constructor
    · rintro ⟨⟨h1, h2⟩, -, h3⟩
      refine ⟨h1, ?_⟩
      rcases h2 with h2 | h2
      · exact Or.inl h2
      rcases h3 with h3 | h3
      · exact Or.inl h3
      refine Or.inr fun k hk1 hk2 t' ht' => ?_
      rcases Nat.eq_or_lt_of_le hk1 with rfl | hlt
      · rw [ht] at ht'
        cases ht'
        exact h2
      · exact h3 k hlt (by omega) t' ht'
    · rintro ⟨h1, h2⟩
      refine ⟨⟨h1, h2.imp_right fun h2 => h2 i le_rfl (by omega) t ht⟩, h1, h2.imp_right fun h2 k hk1 hk2 => ?_⟩
      exact h2 k (by omega) (by omega)

theorem mkSocs_of {comps : List IC} {V : Finset Var} (hne : comps ≠ [])
    (h : ∀ c ∈ comps, c.vars = V ∧ (c.F, c.C, c.R) = (1, 1, 1)) : mkSocs comps = .ok comps := by
  match comps, hne, h with
  | c :: cs, _, h =>
    simp only [mkSocs]
    rw [if_neg, if_neg]
    · simp only [List.any_eq_true, decide_eq_true_eq, not_exists, not_and, not_not]
      intro d hd
      rw [(h d hd).2, (h c List.mem_cons_self).2]
    · simp only [List.any_eq_true, decide_eq_true_eq, not_exists, not_and, not_not]
      intro d hd
      rw [(h d hd).1, (h c List.mem_cons_self).1]

/-- What is known about a component of a model over the variables `0 … n-1`. -/
theorem component_props {a : Args} {K : Option ℕ} (h : a.Valid K) {rng : ℤ → List ℕ → List ℕ}
    (hs : ∀ s l, (rng s l).Perm l) {d : Draws} {force : Bool} {i : ℕ} {t : Tree} {c : IC} (ht : a.tree rng i = .ok t)
    (hc : component (a.cfg K) d force t = .ok c) : Wf c ∧ Sorted c ∧ c.vars = allVars a.n.toNat ∧
      (c.F, c.C, c.R) = (1, 1, 1) := by
  obtain ⟨t1, t2, t3⟩ := h.tree_ok hs ht
  have hl : (a.cfg K).LeafOk := h.leafOk_iff.2 ((component_iff h d force t1).1 ⟨c, hc⟩).1
  obtain ⟨e1, e2, e3⟩ := (C78_component d force hl t1).2.2 c hc
  obtain ⟨root, hr, rfl⟩ := component_inst hl t1 hc
  exact ⟨e1, scalar_sorted (inst_sorted hl t1 t3 hr), e2.trans (vars_all t2), e3⟩

theorem sos_inv {a : Args} {m : ℤ} {rng : ℤ → List ℕ → List ℕ} {d : ℕ → Draws} {comps : List IC}
    (h : sosModel a m rng d = .ok comps) : 0 < m ∧ ∃ K, a.Valid K ∧ ∃ l, squares a (a.cfg K) rng d m.toNat 0 = .ok l ∧
      mkSocs l = .ok comps := by
  unfold sosModel at h
  split_ifs at h with hm
  split at h
  · cases h
  rename_i hv
  split at h
  · cases h
  rename_i K hK
  split at h
  · cases h
  rename_i l hl
  obtain ⟨v1, v2, v3, v4, v5⟩ := (validate_ok ..).1 hv
  obtain ⟨w1, w2, w3⟩ := (resolve_ok a K v4).1 hK
  exact ⟨by omega, K, ⟨v1, v2, v3, v4, v5, w1, w2, w3⟩, l, hl, h⟩

/-- **C78 (constructor of `SOSModel`).** The call succeeds exactly for the documented arguments and - undocumented - only
if input and sum layers have equally many units or none of the region trees has a node with both a leaf and an inner
child. -/
theorem C78_sos_constructor (a : Args) (m : ℤ) {rng : ℤ → List ℕ → List ℕ} (hs : ∀ s l, (rng s l).Perm l)
    (d : ℕ → Draws) :
    (∃ comps, sosModel a m rng d = .ok comps) ↔ 0 < m ∧ (∃ K, a.Valid K ∧ a.LeafOk K) ∧ a.RegionOk ∧
      (a.inputUnits = a.sumUnits ∨ ∀ k < m.toNat, ∀ t, a.tree rng k = .ok t → ¬ t.Mixed) := by
  constructor
  · rintro ⟨comps, h⟩
    obtain ⟨hm, K, hv, l, hl, hmk⟩ := sos_inv h
    obtain ⟨n, hn⟩ : ∃ n, m.toNat = n + 1 := ⟨m.toNat - 1, by omega⟩
    have hr : a.RegionOk := by
      rw [hn, squares] at hl
      cases ht : a.tree rng 0 with
      | error e => rw [ht] at hl; cases hl
      | ok t => exact (hv.tree_iff rng 0).1 ⟨t, ht⟩
    have := (squares_iff hv hs d hr n 0).1 ⟨l, hn ▸ hl⟩
    refine ⟨hm, ⟨K, hv, this.1⟩, hr, this.2.imp_right fun h k hk t ht => h k (by omega) (by omega) t ht⟩
  · rintro ⟨hm, ⟨K, hv, hl⟩, hr, hf⟩
    obtain ⟨n, hn⟩ : ∃ n, m.toNat = n + 1 := ⟨m.toNat - 1, by omega⟩
    obtain ⟨cs, hcs⟩ := (squares_iff hv hs d hr n 0).2
      ⟨hl, hf.imp_right fun h k _ hk t ht => h k (by omega) t ht⟩
    have hmk : mkSocs cs = .ok cs := by
      obtain ⟨e1, e2⟩ := squares_ok hcs
      refine mkSocs_of (V := allVars a.n.toNat) ?_ fun c hc => ?_
      · rintro rfl
        simp only [List.length_nil, perSquare] at e1
        split_ifs at e1 <;> omega
      · obtain ⟨k, j, t, -, ht, hj⟩ := e2 c hc
        exact (component_props hv hs ht hj).2.2
    refine ⟨cs, ?_⟩
    unfold sosModel
    rw [if_neg (by omega), (validate_ok ..).2 ⟨hv.vars, hv.inputs, hv.sums, hv.layer, hv.image⟩]
    simp only [(resolve_ok a K hv.layer).2 ⟨hv.categories, hv.states, hv.none⟩]
    rw [hn, hcs]
    exact hmk

theorem mkSocs_eq {l l' : List IC} (h : mkSocs l = .ok l') : l' = l := by
  unfold mkSocs at h
  split at h
  · cases h
  · split_ifs at h
    cases h
    rfl

/-- **C78 (components of a `SOSModel`).** One circuit per square, two with `complex=True`; each is well-formed, over all
variables `0 … n-1`, with output shape `(1, 1, 1)`. -/
theorem C78_sos_components {a : Args} {m : ℤ} {rng : ℤ → List ℕ → List ℕ} (hs : ∀ s l, (rng s l).Perm l)
    {d : ℕ → Draws} {comps : List IC} (h : sosModel a m rng d = .ok comps) :
    comps.length = (if a.complex = true then 2 else 1) * m.toNat ∧ ∀ c ∈ comps, Wf c ∧ Sorted c ∧
      c.vars = allVars a.n.toNat ∧ (c.F, c.C, c.R) = (1, 1, 1) := by
  obtain ⟨hm, K, hv, l, hl, hmk⟩ := sos_inv h
  cases mkSocs_eq hmk
  obtain ⟨e1, e2⟩ := squares_ok hl
  refine ⟨e1, fun c hc => ?_⟩
  obtain ⟨k, j, t, -, ht, hj⟩ := e2 c hc
  exact component_props hv hs ht hj

/-! ## Normalisation of a `SOSModel` -/

/-- A circuit without channel concatenation whose leaf cells have pairwise inner products. -/
def SelfIp : IC → Prop
  | .leaf q C R par => ∀ f < q.length, ∀ i < C, ∀ j < C, ∀ r < R, ∃ z, ipPar (par f i r) (par f j r) = .ok z
  | .cat1 _ cs => ∀ i, SelfIp (cs i)
  | .cat2 _ _ => False
  | .prod c => SelfIp c
  | .sum c _ _ _ => SelfIp c

theorem SelfIp.ok : ∀ {c : IC}, SelfIp c → ∃ k, ip c c = .ok k := by
  intro c
  induction c with
  | leaf q C R par =>
    intro h
    have : ∃ k, (seqFin (n := q.length) fun f => seqFin (n := C) fun i => seqFin (n := C) fun j => seqFin (n := R) fun r =>
        ipPar (par f i r) (par f j r)) = .ok k :=
      seqFin_exists fun f => seqFin_exists fun i => seqFin_exists fun j => seqFin_exists fun r =>
        h f f.2 i i.2 j j.2 r r.2
    obtain ⟨k, hk⟩ := this
    simp only [ip, ne_eq, not_true_eq_false, if_false, hk]
    exact ⟨_, rfl⟩
  | cat1 n cs ih =>
    intro h
    have : ∃ k, (seqFin fun i : Fin n => ip (cs i) (cs (i.cast rfl))) = .ok k := seqFin_exists fun i => ih i (h i)
    obtain ⟨k, hk⟩ := this
    simp only [ip, ne_eq, not_true_eq_false, if_false, dif_pos, hk]
    exact ⟨_, rfl⟩
  | cat2 n cs ih => intro h; exact h.elim
  | prod c ih =>
    intro h
    obtain ⟨k, hk⟩ := ih h
    simp only [ip, ne_eq, not_true_eq_false, if_false, hk]
    exact ⟨_, rfl⟩
  | sum c Co R w ih =>
    intro h
    obtain ⟨k, hk⟩ := ih h
    simp only [ip, ne_eq, not_true_eq_false, if_false, hk]
    exact ⟨_, rfl⟩

theorem cell_ip (cfg : Cfg) (d : Draws) (v i j : ℕ) : ∃ z, ipPar (cell cfg d v i) (cell cfg d v j) = .ok z := by
  unfold cell
  split_ifs with h1 h2
  · exact ⟨_, rfl⟩
  · simp only [ipPar, ne_eq, not_true_eq_false, if_false]; exact ⟨_, rfl⟩
  · simp only [ipPar, ne_eq, not_true_eq_false, if_false]; exact ⟨_, rfl⟩

theorem inst_selfIp {cfg : Cfg} {d : Draws} (hl : cfg.LeafOk) : ∀ {t : Tree} {c : IC}, t.Ok → inst cfg d t = .ok c →
    SelfIp c := by
  intro t
  induction t with
  | leaf s =>
    intro c _ h
    simp only [inst, makeLeaf_ok hl] at h
    cases h
    exact fun f _ i _ j _ r _ => cell_ip cfg d _ i j
  | node s n cs ih =>
    intro c ht h
    obtain ⟨ks, hks, rfl, -, -⟩ := inst_node ht.1 h
    exact fun i => ih i (ht.2.2.1 i) (hks i)

theorem scalar_selfIp {cfg : Cfg} {d : Draws} {force : Bool} {root : IC} (h : SelfIp root) :
    SelfIp (scalar cfg d force root) := by
  obtain ⟨out, h1, h2⟩ := scalar_cases cfg d force root
  have : SelfIp out := by rcases h1 with ⟨rfl, _⟩ | rfl <;> exact h
  rcases h2 with ⟨h, -⟩ | h <;> rw [h] <;> exact this

theorem selfIps_ok : ∀ {l : List IC}, (∀ c ∈ l, SelfIp c) → ∃ ks, selfIps l = .ok ks
  | [], _ => ⟨_, rfl⟩
  | c :: l, h => by
    obtain ⟨k, hk⟩ := (h c List.mem_cons_self).ok
    obtain ⟨ks, hks⟩ := selfIps_ok fun c hc => h c (List.mem_cons_of_mem _ hc)
    refine ⟨k :: ks, ?_⟩
    simp only [selfIps, hk, hks]

/-- Which variables are discrete: all of them, unless the input layer is Gaussian. -/
def Args.disc (a : Args) : Var → Bool := fun _ => decide (a.layer ≠ "gaussian")

theorem cell_admissible {a : Args} {cfg : Cfg} (hc : cfg.layer = a.layer) {d : Draws} {S : Set ℝ} {v ch : ℕ}
    (hσ : a.layer = "gaussian" → 0 < d.scale v ch) : Admissible a.disc S (v : ℤ) (cell cfg d v ch) := by
  unfold cell
  rw [hc]
  split_ifs with h1 h2
  · exact ⟨by simp [Args.disc, h1], hσ h1⟩
  · simp [Admissible, Args.disc, h1]
  · simp [Admissible, Args.disc, h1]

theorem cell_admissible3 {a : Args} {cfg : Cfg} (hc : cfg.layer = a.layer) {d : Draws} {v ch : ℕ}
    (hσ : a.layer = "gaussian" → 10 ^ (-30 : ℤ) ≤ d.scale v ch) : Admissible3 a.disc (v : ℤ) (cell cfg d v ch) := by
  unfold cell
  rw [hc]
  split_ifs with h1 h2
  · exact ⟨by simp [Args.disc, h1], hσ h1⟩
  · simp [Admissible3, Admissible, Args.disc, h1]
  · simp [Admissible3, Admissible, Args.disc, h1]

/-- **C78 (SOSModel is a density).** Whatever the shuffles and the initial (or trained) parameters with positive standard
deviations: the partition function is computed without error, and unless it is below `1e-30` the log-likelihood of complete
rows is the logarithm of the normalised sum of squares of the component circuits, a density over the variables
`0 … n-1`. -/
theorem C78_sos_normalised {a : Args} {m : ℤ} {rng : ℤ → List ℕ → List ℕ} (hs : ∀ s l, (rng s l).Perm l)
    {d : ℕ → Draws} {comps : List IC} (h : sosModel a m rng d = .ok comps)
    (hσ : a.layer = "gaussian" → ∀ j v ch, 0 < (d j).scale v ch) :
    ∃ ks, selfIps comps = .ok ks ∧ (10 ^ (-30 : ℤ) ≤ partition ks 0 0 0 →
      (∀ x : Var → ℝ, ∃ l, socsLL comps (fun v => some (x v)) 0 0 0 = .ok l ∧
        expL l = socsDensity a.disc comps (allVars a.n.toNat) 0 0 0 x) ∧
      IntegrableOver (refMeasure a.disc) (allVars a.n.toNat) (socsDensity a.disc comps (allVars a.n.toNat) 0 0 0) ∧
      intOn (refMeasure a.disc) (allVars a.n.toNat) (socsDensity a.disc comps (allVars a.n.toNat) 0 0 0) = 1) := by
  obtain ⟨hlen, hall⟩ := C78_sos_components hs h
  obtain ⟨hm, K, hv, l, hl, hmk⟩ := sos_inv h
  cases mkSocs_eq hmk
  obtain ⟨e1, e2⟩ := squares_ok hl
  have hcl : ∀ c ∈ comps, SelfIp c ∧ Inner.Leaves (Admissible a.disc ∅) c := by
    intro c hc
    obtain ⟨k, j, t, -, ht, hj⟩ := e2 c hc
    have t1 := (hv.tree_ok hs ht).1
    have hlf : (a.cfg K).LeafOk := hv.leafOk_iff.2 ((component_iff hv (d j) false t1).1 ⟨c, hj⟩).1
    obtain ⟨root, hr, rfl⟩ := component_inst hlf t1 hj
    exact ⟨scalar_selfIp (inst_selfIp hlf t1 hr),
      scalar_leaves (inst_leaves hlf (fun v ch _ => cell_admissible rfl fun hg => hσ hg j v ch) t1 hr)⟩
  obtain ⟨ks, hks⟩ := selfIps_ok fun c hc => (hcl c hc).1
  refine ⟨ks, hks, fun hz => ?_⟩
  have hS : Separated (∅ : Set ℝ) := by
    intro x hx
    exact absurd hx (Set.notMem_empty x)
  obtain ⟨V, hV, r1, r2, r3⟩ := C35_socs_normalised a.disc hS (c := 0) (r := 0) ⟨_, hmk⟩ hks (fun c hc => by
    obtain ⟨w1, w2, -, w4⟩ := hall c hc
    simp only [Prod.mk.injEq] at w4
    exact ⟨w1, w2, (hcl c hc).2, w4.1, by omega, by omega⟩) hz
  have hVe : V = allVars a.n.toNat := by
    have : comps ≠ [] := by
      rintro rfl
      simp only [List.length_nil] at hlen
      split_ifs at hlen <;> omega
    obtain ⟨c, hc⟩ := List.exists_mem_of_ne_nil _ this
    rw [← hV c hc, (hall c hc).2.2.1]
  subst hVe
  exact ⟨r1, r2, r3⟩

/-- **C78 (fresh models are monotone).** With three or more variables all signed weights and tables are drawn from
`[0, 1)`: before training no component of an `SOSModel` takes a negative value anywhere, i.e. subtractive mixtures only
appear through training. -/
theorem C78_fresh_nonneg {a : Args} {m : ℤ} {rng : ℤ → List ℕ → List ℕ} (hs : ∀ s l, (rng s l).Perm l)
    {d : ℕ → Draws} {comps : List IC} (h : sosModel a m rng d = .ok comps) (hn : 3 ≤ a.n)
    (hσ : ∀ j v ch, 0 < (d j).scale v ch) (hp : ∀ j v ch k, 0 ≤ (d j).probs v ch k)
    (hu : ∀ j, (∀ v ch k, 0 ≤ (d j).table v ch k ∧ (d j).table v ch k < 1) ∧
      (∀ s i o, 0 ≤ (d j).signed s i o ∧ (d j).signed s i o < 1) ∧ ∀ i, 0 ≤ (d j).rootSigned i ∧ (d j).rootSigned i < 1) :
    ∀ c ∈ comps, ∀ x, 0 ≤ c.value x 0 0 0 := by
  obtain ⟨hlen, hall⟩ := C78_sos_components hs h
  obtain ⟨hm, K, hv, l, hl, hmk⟩ := sos_inv h
  cases mkSocs_eq hmk
  obtain ⟨e1, e2⟩ := squares_ok hl
  intro c hc x
  obtain ⟨w1, -, -, w4⟩ := hall c hc
  simp only [Prod.mk.injEq] at w4
  obtain ⟨k, j, t, -, ht, hj⟩ := e2 c hc
  have t1 := (hv.tree_ok hs ht).1
  have hlf : (a.cfg K).LeafOk := hv.leafOk_iff.2 ((component_iff hv (d j) false t1).1 ⟨c, hj⟩).1
  obtain ⟨root, hr, rfl⟩ := component_inst hlf t1 hj
  have hinit : ∀ u : ℝ, 0 ≤ u → 0 ≤ signedInit (a.cfg K).n u := by
    intro u hu
    have : ¬ a.n.toNat ≤ 2 := by omega
    simp only [signedInit, Args.cfg, this, if_false]
    linarith
  have hcat : ∀ (K : ℕ) (w : ℕ → ℝ), (∀ k, 0 ≤ w k) → ∀ t, 0 ≤ dens (.cat K w) t := by
    intro K w hw t
    simp only [dens]
    split_ifs
    · exact hw _
    · exact le_rfl
  have hmono : Monotone (scalar (a.cfg K) (d j) false root) := by
    refine scalar_monotone (inst_monotone hlf ?_ ?_ t1 hr) ?_
    · intro v ch _ t
      unfold cell
      split_ifs
      · have := hσ j v ch
        simp only [dens]
        positivity
      · rw [dens_scat]
        exact hcat _ _ (fun k => hinit _ ((hu j).1 v ch k).1) t
      · exact hcat _ _ (hp j v ch) t
    · intro s i o
      simp only [Args.cfg, if_true]
      exact hinit _ ((hu j).2.1 s i o).1
    · intro i
      simp only [Args.cfg, if_true]
      exact hinit _ ((hu j).2.2 i).1
  exact hmono.nonneg w1 x 0 (by omega) 0 (by omega) 0 (by omega)

/-- The family of the leaf cells of a `SOSModel` asked for by its arguments: Normal for `gaussian`; otherwise a signed
table if `non_monotonic_inputs` is set, or is not given and the layer is `embedding`; otherwise a probability table; in
both cases with the number of states asked for. -/
def LeafKind (a : Args) : LeafPar → Prop
  | .normal _ _ => a.layer = "gaussian"
  | .scat K _ => (a.layer = "embedding" ∧ a.nonMonoInputs ≠ some false ∧ (a.kwargs.bind Kwargs.numStates) = some K) ∨
      (a.layer = "categorical" ∧ a.nonMonoInputs = some true ∧ (a.kwargs.bind Kwargs.numCategories) = some K)
  | .cat K _ => (a.layer = "embedding" ∧ a.nonMonoInputs = some false ∧ (a.kwargs.bind Kwargs.numStates) = some K) ∨
      (a.layer = "categorical" ∧ a.nonMonoInputs ≠ some true ∧ (a.kwargs.bind Kwargs.numCategories) = some K)
  | _ => False

theorem cell_leafKind {a : Args} {K : Option ℕ} (hv : a.Valid K) (d : Draws) (v ch : ℕ) : LeafKind a (cell (a.cfg K) d v ch) := by
  have hl' := hv.layer
  simp only [List.mem_cons, List.not_mem_nil, or_false] at hl'
  rcases hl' with hg | hg | hg
  · obtain ⟨kw, k, h1, h2, h3⟩ := hv.categories hg
    subst h3
    cases hb : a.nonMonoInputs with
    | none => simp [cell, Args.cfg, Args.signedInputs, hg, hb, LeafKind, h1, h2]
    | some b => cases b <;> simp [cell, Args.cfg, Args.signedInputs, hg, hb, LeafKind, h1, h2]
  · obtain ⟨kw, k, h1, h2, h3⟩ := hv.states hg
    subst h3
    cases hb : a.nonMonoInputs with
    | none => simp [cell, Args.cfg, Args.signedInputs, hg, hb, LeafKind, h1, h2]
    | some b => cases b <;> simp [cell, Args.cfg, Args.signedInputs, hg, hb, LeafKind, h1, h2]
  · simp [cell, Args.cfg, hg, LeafKind]

/-- **C78 (leaf families).** The leaves of every component of an `SOSModel` are of the family asked for. -/
theorem C78_leaf_kinds {a : Args} {m : ℤ} {rng : ℤ → List ℕ → List ℕ} (hs : ∀ s l, (rng s l).Perm l)
    {d : ℕ → Draws} {comps : List IC} (h : sosModel a m rng d = .ok comps) :
    ∀ c ∈ comps, Inner.Leaves (fun _ par => LeafKind a par) c := by
  obtain ⟨hm, K, hv, l, hl, hmk⟩ := sos_inv h
  cases mkSocs_eq hmk
  obtain ⟨e1, e2⟩ := squares_ok hl
  intro c hc
  obtain ⟨k, j, t, -, ht, hj⟩ := e2 c hc
  have t1 := (hv.tree_ok hs ht).1
  have hlf : (a.cfg K).LeafOk := hv.leafOk_iff.2 ((component_iff hv (d j) false t1).1 ⟨c, hj⟩).1
  obtain ⟨root, hr, rfl⟩ := component_inst hlf t1 hj
  exact scalar_leaves (inst_leaves hlf (fun v ch _ => cell_leafKind hv _ v ch) t1 hr)

end Sos
end Verif

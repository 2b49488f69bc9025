import Verif.FnGroup
import Mathlib.Data.List.GetD

/-!
# C86: functional sharing - the functions of a group, over all histories
-/

namespace Verif.Fs

/-! ### Specification -/

/-- The function of a head: `softplus` of the head applied to the shared network at the row `z ++ y`. -/
noncomputable def value (M : Mlp) (h : Head) (z y : List ℝ) : ℝ :=
  Real.log (1 + Real.exp ((∑ m ∈ Finset.range M.hidden, h.w m * mlp M (fun j => (z ++ y).getD j 0) m) + h.b))

theorem value_pos (M : Mlp) (h : Head) (z y : List ℝ) : 0 < value M h z y :=
  Real.log_pos (by have := Real.exp_pos ((∑ m ∈ Finset.range M.hidden, h.w m * mlp M (fun j => (z ++ y).getD j 0) m) + h.b); linarith)

/-- The row of `t` (of `d` features) at place `idx`. -/
def Ten.row (t : Ten) (d : ℕ) (idx : List ℕ) : List ℝ := (List.range d).map fun j => t.rowAt idx j

/-- The group has the heads `hs`: one per unit that existed when it was finalised, or the only one of F-sharing. -/
def Live (g : Group) (hs : List Head) : Prop :=
  (g.isC = true ∧ g.heads = some hs) ∨ (g.isC = false ∧ ∃ h, g.fHead = some h ∧ hs = [h])

/-- `z` and `y` have `dz` and `dy` features and leading shapes that broadcast to `lead` (from the first axis to the last). -/
structure Shaped (M : Mlp) (z y : Ten) (dz dy : ℕ) (lead : List ℕ) : Prop where
  left : ∃ s, z.shape = s ++ [dz]
  right : ∃ s, y.shape = s ++ [dy]
  lead : bcRev z.shape.dropLast.reverse y.shape.dropLast.reverse = some lead.reverse
  dim : dz + dy = M.inDim

/-! ### Broadcasting -/

/-- **C86 (broadcasting).** Shapes (from the last axis to the first) are broadcast axis by axis, absent axes counting as one. -/
theorem C86_broadcast : ∀ (s t l : List ℕ), bcRev s t = some l ↔ l.length = max s.length t.length ∧
    ∀ i < l.length, (s.getD i 1 = t.getD i 1 ∨ s.getD i 1 = 1 ∨ t.getD i 1 = 1) ∧
      l.getD i 0 = if s.getD i 1 = 1 then t.getD i 1 else s.getD i 1
  | [], t, l => by
    simp only [bcRev, Option.some.injEq, List.length_nil, Nat.zero_max, List.getD_nil, if_true, true_or, or_true, true_and]
    constructor
    · rintro rfl
      exact ⟨rfl, fun i hi => by rw [List.getD_eq_getElem _ _ hi, List.getD_eq_getElem _ _ hi]⟩
    · rintro ⟨h1, h2⟩
      refine List.ext_getElem h1.symm fun i hi hi' => ?_
      have := h2 i hi'
      rw [List.getD_eq_getElem _ _ hi, List.getD_eq_getElem _ _ hi'] at this
      exact this.symm
  | a :: s, [], l => by
    simp only [bcRev, Option.some.injEq, List.length_nil, Nat.max_zero, List.getD_nil, or_true, true_and]
    constructor
    · rintro rfl
      refine ⟨rfl, fun i hi => ?_⟩
      rw [List.getD_eq_getElem _ _ hi, List.getD_eq_getElem _ _ hi]
      split_ifs with h
      · exact h
      · rfl
    · rintro ⟨h1, h2⟩
      refine List.ext_getElem h1.symm fun i hi hi' => ?_
      have := h2 i hi'
      rw [List.getD_eq_getElem _ _ hi, List.getD_eq_getElem _ _ hi'] at this
      rw [this]
      split_ifs with h
      · exact h
      · rfl
  | a :: s, b :: t, l => by
    have ih := C86_broadcast s t
    have split : ∀ c : ℕ, (∃ l', bcRev s t = some l' ∧ c :: l' = l) ↔ l.length = max (s.length + 1) (t.length + 1) ∧ l.getD 0 0 = c ∧
        ∀ i, i + 1 < l.length → (s.getD i 1 = t.getD i 1 ∨ s.getD i 1 = 1 ∨ t.getD i 1 = 1) ∧
          l.getD (i + 1) 0 = if s.getD i 1 = 1 then t.getD i 1 else s.getD i 1 := by
      intro c
      constructor
      · rintro ⟨l', h, rfl⟩
        obtain ⟨h1, h2⟩ := (ih l').1 h
        refine ⟨by rw [List.length_cons, h1]; omega, rfl, fun i hi => ?_⟩
        rw [List.getD_cons_succ]
        exact h2 i (by rw [List.length_cons] at hi; omega)
      · rintro ⟨h1, h2, h3⟩
        cases l with
        | nil => simp at h1
        | cons d l' =>
          refine ⟨l', (ih l').2 ⟨by rw [List.length_cons] at h1; omega, fun i hi => ?_⟩, by rw [← h2]; rfl⟩
          have := h3 i (by rw [List.length_cons]; omega)
          rwa [List.getD_cons_succ] at this
    have hall : (l.length = max (s.length + 1) (t.length + 1) ∧ ∀ i < l.length,
        ((a :: s).getD i 1 = (b :: t).getD i 1 ∨ (a :: s).getD i 1 = 1 ∨ (b :: t).getD i 1 = 1) ∧
          l.getD i 0 = if (a :: s).getD i 1 = 1 then (b :: t).getD i 1 else (a :: s).getD i 1) ↔
        (a = b ∨ a = 1 ∨ b = 1) ∧ ∃ l', bcRev s t = some l' ∧ (if a = 1 then b else a) :: l' = l := by
      rw [split]
      constructor
      · rintro ⟨h1, h2⟩
        have h0 := h2 0 (by omega)
        exact ⟨h0.1, h1, h0.2, fun i hi => h2 (i + 1) hi⟩
      · rintro ⟨h0, h1, h2, h3⟩
        refine ⟨h1, fun i hi => ?_⟩
        cases i with
        | zero => exact ⟨h0, h2⟩
        | succ i => exact h3 i hi
    rw [List.length_cons, List.length_cons, hall, bcRev]
    split_ifs with h1 h2 h3
    · subst h2
      simp only [Option.map_eq_some_iff]
      rcases h1 with h1 | h1 <;> subst h1 <;> simp
    · simp only [Option.map_eq_some_iff]
      exact ⟨fun h => ⟨by tauto, h⟩, fun h => h.2⟩
    · simp only [Option.map_eq_some_iff]
      exact ⟨fun h => ⟨by tauto, h⟩, fun h => h.2⟩
    · simp only [reduceCtorEq, false_iff, not_and]
      intro h
      tauto

/-! ### Construction and units -/

/-- **C86 (constructor).** Exactly the sharing types `c` and `f` are accepted; the new group has no units and no heads. -/
theorem C86_new (sharing : String) (M : Mlp) :
    (sharing ≠ "c" → sharing ≠ "f" → new sharing M = .error .valueError) ∧
    (sharing = "c" ∨ sharing = "f" → ∃ g, new sharing M = .ok g ∧ g.units = 0 ∧ g.heads = none ∧ g.fHead = none ∧ g.mlp = M ∧
      (g.isC = true ↔ sharing = "c")) := by
  refine ⟨fun h1 h2 => by unfold new; rw [if_pos ⟨h1, h2⟩], fun h => ?_⟩
  have : ¬ (sharing ≠ "c" ∧ sharing ≠ "f") := by tauto
  refine ⟨_, by unfold new; rw [if_neg this], rfl, rfl, rfl, rfl, by simp⟩

section
variable {draws : ℕ → Head} {g : Group}

theorem finalize_fields (g : Group) : (finalize draws g).isC = g.isC ∧ (finalize draws g).mlp = g.mlp ∧ (finalize draws g).units = g.units := by
  unfold finalize
  split_ifs <;> exact ⟨rfl, rfl, rfl⟩

theorem prepared_fields (g : Group) : (prepared draws g).isC = g.isC ∧ (prepared draws g).mlp = g.mlp ∧ (prepared draws g).units = g.units := by
  unfold prepared
  split_ifs
  · exact finalize_fields g
  · exact ⟨rfl, rfl, rfl⟩

theorem run_fields (g : Group) (o : Op) : (o.run draws g).isC = g.isC ∧ (o.run draws g).mlp = g.mlp ∧
    (o.run draws g).units = g.units + match o with | .add => 1 | _ => 0 := by
  cases o with
  | add => exact ⟨rfl, rfl, rfl⟩
  | finalize => exact finalize_fields g
  | evaluate z y => exact prepared_fields g
  | call i z y => exact prepared_fields g

theorem runs_cons (o : Op) (ops : List Op) : runs draws g (o :: ops) = runs draws (o.run draws g) ops := rfl

theorem runs_fields : ∀ (ops : List Op) (g : Group), (runs draws g ops).isC = g.isC ∧ (runs draws g ops).mlp = g.mlp
  | [], _ => ⟨rfl, rfl⟩
  | o :: ops, g => by
    obtain ⟨h1, h2⟩ := runs_fields ops (o.run draws g)
    obtain ⟨k1, k2, -⟩ := run_fields (draws := draws) g o
    rw [runs_cons]
    exact ⟨h1.trans k1, h2.trans k2⟩

/-- Is the operation `add_unit`? -/
def Op.isAdd : Op → Bool
  | .add => true
  | _ => false

/-- Is the operation an explicit `finalize`? -/
def Op.isFinalize : Op → Bool
  | .finalize => true
  | _ => false

/-- **C86 (indices).** In any history, `add_unit` returns the number of units added before: the indices are 0, 1, 2, ... -/
theorem C86_indices (sharing : String) (M : Mlp) {g : Group} (h : new sharing M = .ok g) (ops : List Op) :
    (add (runs draws g ops)).1 = (ops.filter Op.isAdd).length := by
  have key : ∀ (ops : List Op) (g : Group), (runs draws g ops).units = g.units + (ops.filter Op.isAdd).length := by
    intro ops
    induction ops with
    | nil => intro g; rfl
    | cons o ops ih =>
      intro g
      rw [runs_cons, ih, (run_fields g o).2.2]
      cases o <;> simp [Op.isAdd, List.filter_cons] <;> omega
  have h0 : g.units = 0 := by
    unfold new at h
    split_ifs at h
    cases h
    rfl
  show (runs draws g ops).units = _
  rw [key, h0, Nat.zero_add]

/-! ### Evaluation -/

theorem live_prepared {hs : List Head} (h : Live g hs) : prepared draws g = g := by
  unfold prepared
  rw [if_neg]
  rintro (⟨h1, h2⟩ | ⟨h1, h2⟩)
  · rcases h with ⟨-, h⟩ | ⟨h, -⟩
    · rw [h] at h2; cases h2
    · rw [h] at h1; cases h1
  · rcases h with ⟨h, -⟩ | ⟨-, k, h, -⟩
    · rw [h] at h1; cases h1
    · rw [h] at h2; cases h2

theorem xy_row {z y : Ten} {dz dy : ℕ} {lead : List ℕ} {M : Mlp} (hs : Shaped M z y dz dy lead) (idx : List ℕ) :
    ∀ j < M.inDim, xy z y idx j = (z.row dz idx ++ y.row dy idx).getD j 0 := by
  intro j hj
  obtain ⟨s, hz⟩ := hs.left
  have hd : z.shape.getLastD 0 = dz := by rw [hz]; simp
  have hl : (z.row dz idx).length = dz := by unfold Ten.row; rw [List.length_map, List.length_range]
  have hm := hs.dim
  unfold xy
  dsimp only
  rw [hd]
  split_ifs with h
  · rw [List.getD_append _ _ _ _ (by rw [hl]; exact h)]
    unfold Ten.row
    rw [List.getD_eq_getElem _ _ (by simpa using h)]
    simp
  · rw [List.getD_append_right _ _ _ _ (by rw [hl]; omega), hl]
    unfold Ten.row
    rw [List.getD_eq_getElem _ _ (by simp; omega)]
    simp

theorem fourier_congr {M : Mlp} {x x' : ℕ → ℝ} (h : ∀ j < M.inDim, x j = x' j) : fourier M x = fourier M x' := by
  have e : ∀ k, ∑ i ∈ Finset.range M.inDim, x i * M.B i k = ∑ i ∈ Finset.range M.inDim, x' i * M.B i k := fun k =>
    Finset.sum_congr rfl fun i hi => by rw [h i (Finset.mem_range.1 hi)]
  funext j
  unfold fourier
  rw [e, e]

theorem mlp_congr {M : Mlp} {x x' : ℕ → ℝ} (h : ∀ j < M.inDim, x j = x' j) : mlp M x = mlp M x' := by
  unfold mlp
  rw [fourier_congr h]

theorem value_eq {z y : Ten} {dz dy : ℕ} {lead : List ℕ} {M : Mlp} (hs : Shaped M z y dz dy lead) (h : Head) (idx : List ℕ) :
    softplus (h.app M.hidden (mlp M (xy z y idx))) = value M h (z.row dz idx) (y.row dy idx) := by
  unfold value softplus Head.app
  rw [mlp_congr (xy_row hs idx)]

/-- **C86 (evaluation).** `evaluate_batched` of a group with heads `hs` leaves the group alone and returns a tensor of shape
`(number of heads, *broadcast leading shape)`; at every place, entry `i` is the function of head `i` of the two rows at that
place, and it is positive. -/
theorem C86_evaluate {hs : List Head} (hl : Live g hs) {z y : Ten} {dz dy : ℕ} {lead : List ℕ} (h : Shaped g.mlp z y dz dy lead) :
    ∃ t, evaluate draws g z y = (g, .ok t) ∧ t.shape = hs.length :: lead ∧
      ∀ i (hi : i < hs.length) idx, t.cell (i :: idx) = value g.mlp hs[i] (z.row dz idx) (y.row dy idx) ∧ 0 < t.cell (i :: idx) := by
  obtain ⟨sz, hz⟩ := h.left
  obtain ⟨sy, hy⟩ := h.right
  have d1 : z.shape.getLastD 0 = dz := by rw [hz]; simp
  have d2 : y.shape.getLastD 0 = dy := by rw [hy]; simp
  have n1 : ¬ (z.shape = [] ∨ y.shape = []) := by rw [hz, hy]; simp
  have n2 : ¬ (z.shape.getLastD 0 + y.shape.getLastD 0 ≠ g.mlp.inDim) := by rw [d1, d2, h.dim]; simp
  have hv : ∀ i (hi : i < hs.length) idx, softplus (((hs[i]?).getD ⟨0, 0⟩).app g.mlp.hidden (mlp g.mlp (xy z y idx))) =
      value g.mlp hs[i] (z.row dz idx) (y.row dy idx) := fun i hi idx => by
    rw [List.getElem?_eq_getElem hi]
    exact value_eq h _ _
  refine ⟨⟨hs.length :: lead, fun i => softplus (((hs[i.headD 0]?).getD ⟨0, 0⟩).app g.mlp.hidden (mlp g.mlp (xy z y i.tail)))⟩, ?_, rfl,
    fun i hi idx => ?_⟩
  · unfold evaluate
    simp only [live_prepared hl, h.lead, if_neg n1, if_neg n2]
    rcases hl with ⟨h1, h2⟩ | ⟨h1, k, h2, rfl⟩
    · rw [h1, h2]; simp
    · rw [h1, h2]; simp
  · have := hv i hi idx
    refine ⟨this, ?_⟩
    show 0 < softplus _
    exact (show softplus _ = _ from this).symm ▸ value_pos _ _ _ _

/-- **C86 (functions).** `get_function(i)` is the function of head `i` of a `c` group - Python indices, IndexError outside - and of the
only head of an `f` group, whatever `i` is. -/
theorem C86_function {hs : List Head} (hl : Live g hs) {z y : Ten} {dz dy : ℕ} {lead : List ℕ} (h : Shaped g.mlp z y dz dy lead) (i : ℤ) :
    (g.isC = true → 0 ≤ i → ∀ hi : i.toNat < hs.length, ∃ t, call draws g i z y = (g, .ok t) ∧ t.shape = lead ∧
      ∀ idx, t.cell idx = value g.mlp hs[i.toNat] (z.row dz idx) (y.row dy idx)) ∧
    (g.isC = true → (i < -(hs.length : ℤ) ∨ (hs.length : ℤ) ≤ i) → (call draws g i z y).2 = .error (.exc .indexError)) ∧
    (g.isC = false → ∃ t, call draws g i z y = (g, .ok t) ∧ t.shape = lead ∧
      ∀ idx, ∀ k ∈ hs, t.cell idx = value g.mlp k (z.row dz idx) (y.row dy idx)) := by
  obtain ⟨t, e, sh, hv⟩ := C86_evaluate (draws := draws) hl h
  obtain ⟨s, c⟩ := t
  dsimp only at sh hv
  subst sh
  refine ⟨fun hc h0 hi => ⟨⟨lead, fun idx => c (i.toNat :: idx)⟩, ?_, rfl, fun idx => (hv _ hi idx).1⟩, fun hc ho => ?_, fun hc => ?_⟩
  · unfold call pick
    rw [e]
    dsimp only
    rw [hc, if_pos rfl, if_pos ⟨by omega, by omega⟩, if_neg (by omega)]
  · unfold call pick
    rw [e]
    dsimp only
    rw [hc, if_pos rfl, if_neg (by omega)]
  · rcases hl with ⟨h1, -⟩ | ⟨-, k, hk, rfl⟩
    · rw [hc] at h1; cases h1
    · refine ⟨⟨lead, fun idx => c (0 :: idx)⟩, ?_, rfl, fun idx k' hk' => ?_⟩
      · unfold call pick
        rw [e]
        dsimp only
        rw [hc]
        simp
      · rw [List.mem_singleton] at hk'
        subst hk'
        exact (hv 0 (by simp) idx).1

/-- **C86 (first evaluation).** A group with at least one unit and without heads gets one head per unit (`c`) or one head (`f`). -/
theorem C86_first (hc : g.isC = true → g.heads = none) (hf : g.isC = false → g.fHead = none) (hu : 1 ≤ g.units) (z y : Ten) :
    Live (evaluate draws g z y).1 (if g.isC then (List.range g.units).map fun i => draws (g.drawn + i) else [draws g.drawn]) ∧
      evaluate draws g z y = evaluate draws (finalize draws g) z y := by
  have e : prepared draws g = finalize draws g := by
    unfold prepared
    rw [if_pos]
    cases hb : g.isC with
    | true => exact .inl ⟨rfl, by rw [hc hb]; rfl⟩
    | false => exact .inr ⟨rfl, by rw [hf hb]; rfl⟩
  have hl : Live (finalize draws g) (if g.isC then (List.range g.units).map fun i => draws (g.drawn + i) else [draws g.drawn]) := by
    unfold finalize
    rw [if_neg (by omega)]
    cases hb : g.isC with
    | true => exact .inl ⟨rfl, rfl⟩
    | false => exact .inr ⟨rfl, _, rfl, rfl⟩
  refine ⟨by show Live (prepared draws g) _; rw [e]; exact hl, ?_⟩
  unfold evaluate
  rw [e, live_prepared hl]

/-- **C86 (stability).** Once a group has heads, no history without an explicit `finalize` changes them: every later evaluation
returns the same tensors, also after more units have been added. -/
theorem C86_stable {hs : List Head} (hl : Live g hs) (ops : List Op) (hn : ∀ o ∈ ops, o.isFinalize = false) (z y : Ten) :
    Live (runs draws g ops) hs ∧ (evaluate draws (runs draws g ops) z y).2 = (evaluate draws g z y).2 ∧
      ∀ i, (call draws (runs draws g ops) i z y).2 = (call draws g i z y).2 := by
  have key : ∀ (ops : List Op) (g : Group), Live g hs → (∀ o ∈ ops, o.isFinalize = false) →
      Live (runs draws g ops) hs ∧ (runs draws g ops).heads = g.heads ∧ (runs draws g ops).fHead = g.fHead := by
    intro ops
    induction ops with
    | nil => intro g hl _; exact ⟨hl, rfl, rfl⟩
    | cons o ops ih =>
      intro g hl hn
      have ho := hn o List.mem_cons_self
      have step : Live (o.run draws g) hs ∧ (o.run draws g).heads = g.heads ∧ (o.run draws g).fHead = g.fHead := by
        cases o with
        | add => exact ⟨hl, rfl, rfl⟩
        | finalize => cases ho
        | evaluate z y =>
          show Live (prepared draws g) hs ∧ _ ∧ _
          rw [show Op.run draws g (.evaluate z y) = prepared draws g from rfl, live_prepared hl]
          exact ⟨hl, rfl, rfl⟩
        | call i z y =>
          show Live (prepared draws g) hs ∧ _ ∧ _
          rw [show Op.run draws g (.call i z y) = prepared draws g from rfl, live_prepared hl]
          exact ⟨hl, rfl, rfl⟩
      obtain ⟨h1, h2, h3⟩ := ih _ step.1 fun o h => hn o (List.mem_cons_of_mem _ h)
      rw [runs_cons]
      exact ⟨h1, h2.trans step.2.1, h3.trans step.2.2⟩
  obtain ⟨h1, h2, h3⟩ := key ops g hl hn
  obtain ⟨f1, f2⟩ := runs_fields (draws := draws) ops g
  have hev : (evaluate draws (runs draws g ops) z y).2 = (evaluate draws g z y).2 := by
    unfold evaluate
    rw [live_prepared h1, live_prepared hl]
    dsimp only
    rw [h2, h3, f1, f2]
  refine ⟨h1, hev, fun i => ?_⟩
  unfold call
  dsimp only
  rw [hev, f1]

/-- **C86 (point by point).** Evaluating on tensors is evaluating every pair of rows by itself. -/
theorem C86_pointwise {hs : List Head} (hl : Live g hs) {z y : Ten} {dz dy : ℕ} {lead : List ℕ} (h : Shaped g.mlp z y dz dy lead)
    (idx : List ℕ) : ∃ t u, (evaluate draws g z y).2 = .ok t ∧
      (evaluate draws g ⟨[dz], fun i => (z.row dz idx).getD (i.headD 0) 0⟩ ⟨[dy], fun i => (y.row dy idx).getD (i.headD 0) 0⟩).2 = .ok u ∧
      u.shape = [hs.length] ∧ ∀ i < hs.length, t.cell (i :: idx) = u.cell [i] := by
  obtain ⟨t, e, -, hv⟩ := C86_evaluate (draws := draws) hl h
  have h' : Shaped g.mlp ⟨[dz], fun i => (z.row dz idx).getD (i.headD 0) 0⟩ ⟨[dy], fun i => (y.row dy idx).getD (i.headD 0) 0⟩ dz dy [] :=
    ⟨⟨[], rfl⟩, ⟨[], rfl⟩, rfl, h.dim⟩
  obtain ⟨u, e', sh, hu⟩ := C86_evaluate (draws := draws) hl h'
  refine ⟨t, u, by rw [e], by rw [e'], sh, fun i hi => ?_⟩
  rw [(hv i hi idx).1, (hu i hi []).1]
  have hrow : ∀ (w : Ten) (d : ℕ), Ten.row ⟨[d], fun i => (w.row d idx).getD (i.headD 0) 0⟩ d [] = w.row d idx := by
    intro w d
    refine List.ext_getElem (by simp [Ten.row]) fun j hj _ => ?_
    have hj' : j < (w.row d idx).length := by simpa [Ten.row] using hj
    show _ = (w.row d idx)[j]
    rw [← List.getD_eq_getElem _ 0 hj']
    simp only [Ten.row, List.getElem_map, List.getElem_range]
    rfl
  rw [hrow, hrow]

/-! ### Misuse -/

/-- **C86 (no units).** A group without units has no function: evaluation raises an AssertionError, and nothing is created. -/
theorem C86_empty (hu : g.units = 0) (hc : g.heads = none) (hf : g.fHead = none) {z y : Ten} {dz dy : ℕ} {lead : List ℕ}
    (h : Shaped g.mlp z y dz dy lead) : evaluate draws g z y = (g, .error .assertion) := by
  have e : prepared draws g = g := by
    unfold prepared finalize
    rw [if_pos hu]
    split_ifs <;> rfl
  obtain ⟨sz, hz⟩ := h.left
  obtain ⟨sy, hy⟩ := h.right
  have d1 : z.shape.getLastD 0 = dz := by rw [hz]; simp
  have d2 : y.shape.getLastD 0 = dy := by rw [hy]; simp
  have n1 : ¬ (z.shape = [] ∨ y.shape = []) := by rw [hz, hy]; simp
  have n2 : ¬ (z.shape.getLastD 0 + y.shape.getLastD 0 ≠ g.mlp.inDim) := by rw [d1, d2, h.dim]; simp
  unfold evaluate
  simp only [e, h.lead, if_neg n1, if_neg n2, hc, hf]
  split_ifs <;> rfl

/-- **C86 (rejected inputs).** Leading shapes that do not broadcast, and widths that do not add up to the input dimension, are
rejected with a RuntimeError, tensors without axes with an IndexError. -/
theorem C86_rejects (z y : Ten) :
    (bcRev z.shape.dropLast.reverse y.shape.dropLast.reverse = none → (evaluate draws g z y).2 = .error (.exc .runtimeError)) ∧
    (z.shape = [] ∨ y.shape = [] → (evaluate draws g z y).2 = .error (.exc .runtimeError) ∨
      (evaluate draws g z y).2 = .error (.exc .indexError)) ∧
    (z.shape ≠ [] → y.shape ≠ [] → z.shape.getLastD 0 + y.shape.getLastD 0 ≠ g.mlp.inDim →
      (evaluate draws g z y).2 = .error (.exc .runtimeError)) := by
  have hm := (prepared_fields (draws := draws) g).2.1
  refine ⟨fun h => ?_, fun h => ?_, fun h1 h2 h3 => ?_⟩
  · unfold evaluate
    simp only [h]
  · unfold evaluate
    dsimp only
    cases bcRev z.shape.dropLast.reverse y.shape.dropLast.reverse with
    | none => exact .inl rfl
    | some l => exact .inr (by dsimp only; rw [if_pos h])
  · unfold evaluate
    dsimp only
    cases bcRev z.shape.dropLast.reverse y.shape.dropLast.reverse with
    | none => rfl
    | some l =>
      dsimp only
      rw [if_neg (by tauto), hm, if_pos h3]

/-- **C86 (late units).** A unit added to a `c` group that already has its heads has no function: its index is rejected, whatever
else is done with the group, until `finalize` is called. -/
theorem C86_late_unit {hs : List Head} (hl : Live g hs) (hc : g.isC = true) (hu : hs.length ≤ g.units) (ops : List Op)
    (hn : ∀ o ∈ ops, o.isFinalize = false) {z y : Ten} {dz dy : ℕ} {lead : List ℕ} (h : Shaped g.mlp z y dz dy lead) :
    (call draws (runs draws (add g).2 ops) (add g).1 z y).2 = .error (.exc .indexError) := by
  have hl' : Live (add g).2 hs := hl
  rw [(C86_stable hl' ops hn z y).2.2 (add g).1]
  exact (C86_function hl' h _).2.1 hc (.inr (by show (hs.length : ℤ) ≤ (g.units : ℕ); exact_mod_cast hu))

/-- **C86 (finalising again).** An explicit `finalize` of a group with units replaces every function by a newly drawn one. -/
theorem C86_refinalize (hu : 1 ≤ g.units) :
    Live (finalize draws g) (if g.isC then (List.range g.units).map fun i => draws (g.drawn + i) else [draws g.drawn]) ∧
      (finalize draws g).drawn = g.drawn + if g.isC then g.units else 1 := by
  unfold finalize
  rw [if_neg (by omega)]
  cases hb : g.isC with
  | true => exact ⟨.inl ⟨rfl, rfl⟩, rfl⟩
  | false => exact ⟨.inr ⟨rfl, _, rfl, rfl⟩, rfl⟩

end

/-! ### MultiHeadedMLP -/

/-- **C86 (MultiHeadedMLP).** Called directly, it returns the functions of its heads: all of them in order, or the one with the given
Python index; other indices raise an IndexError. -/
theorem C86_multi (M : Mlp) (hs : List Head) (z y : List ℝ) :
    (hs ≠ [] → multi M hs (fun j => (z ++ y).getD j 0) none = .ok (hs.map fun h => value M h z y)) ∧
    (∀ i (hi : i < hs.length), multi M hs (fun j => (z ++ y).getD j 0) (some i) = .ok [value M hs[i] z y]) ∧
    (∀ i (_ : 1 ≤ i) (hi : i ≤ hs.length), multi M hs (fun j => (z ++ y).getD j 0) (some (-(i : ℤ))) = .ok [value M hs[hs.length - i] z y]) ∧
    ∀ i : ℤ, (i < -(hs.length : ℤ) ∨ (hs.length : ℤ) ≤ i) → multi M hs (fun j => (z ++ y).getD j 0) (some i) = .error .indexError := by
  refine ⟨fun h => ?_, fun i hi => ?_, fun i h1 hi => ?_, fun i h => ?_⟩
  · unfold multi
    dsimp only
    rw [if_neg (by simpa using h)]
    rfl
  · unfold multi
    dsimp only
    rw [if_pos ⟨by omega, by omega⟩, if_neg (by omega), Int.toNat_natCast, List.getElem?_eq_getElem hi]
    rfl
  · unfold multi
    dsimp only
    have e : (-(i : ℤ) + hs.length).toNat = hs.length - i := by omega
    rw [if_pos ⟨by omega, by omega⟩, if_pos (by omega), e, List.getElem?_eq_getElem (by omega)]
    rfl
  · unfold multi
    dsimp only
    rw [if_neg (by omega)]

end Verif.Fs

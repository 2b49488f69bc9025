import Verif.FnGroupProps

/-!
# C86: functional sharing - materialisation of a group, and examples
-/

namespace Verif.Fs

open PicQ

theorem grids_shaped {M : Mlp} (ρ : Rule) {zd yd : ℕ} (h : zd + yd = M.inDim) :
    Shaped M (grids ρ zd yd).1 (grids ρ zd yd).2 zd yd [(gridPts ρ zd).length, (gridPts ρ yd).length] :=
  ⟨⟨[_, _], rfl⟩, ⟨[_, _], rfl⟩, by simp [grids, bcRev], h⟩

theorem gridPts_len (ρ : Rule) : ∀ (d : ℕ), (∀ p ∈ gridPts ρ d, p.length = d) ∧ (gridPts ρ d).length = ρ.K ^ d
  | 0 => ⟨by simp [gridPts], rfl⟩
  | d + 1 => by
    obtain ⟨h1, h2⟩ := gridPts_len ρ d
    refine ⟨fun p hp => ?_, ?_⟩
    · simp only [gridPts, List.mem_flatMap, List.mem_map] at hp
      obtain ⟨i, -, q, hq, rfl⟩ := hp
      rw [List.length_cons, h1 q hq]
    · simp only [gridPts, List.length_flatMap, List.length_map, h2, List.map_const', List.length_range, List.sum_replicate, smul_eq_mul]
      ring

theorem ext_row {l : List ℝ} {d : ℕ} (hl : l.length = d) {f : ℕ → ℝ} (h : ∀ j < d, f j = l.getD j 0) : (List.range d).map f = l := by
  refine List.ext_getElem (by simp [hl]) fun j hj hj' => ?_
  rw [List.getElem_map, List.getElem_range, h j (by omega), List.getD_eq_getElem _ _ hj']

/-- **C86 (materialisation).** In a `c` group, the weights that `materialize_integral_group` gives to the unit with index `i` are
the quadrature weights of its own function - the same as those of `pic2qpc` for an ungrouped integral with that function - and a unit
without a head is rejected with an IndexError. -/
theorem C86_materialize {draws : ℕ → Head} {g : Group} {hs : List Head} (hl : Live g hs) (ρ : Rule) {zd yd : ℕ} (hd : zd + yd = g.mlp.inDim) :
    (∀ i (hi : i < hs.length), ∃ w, groupWeights draws ρ g zd yd i = (g, .ok w) ∧ ∀ co < ρ.K ^ zd, ∀ ci < ρ.K ^ yd,
      w ci co = value g.mlp hs[i] ((gridPts ρ zd).getD co []) ((gridPts ρ yd).getD ci []) * (kron ρ yd).getD ci 0) ∧
    ∀ i, hs.length ≤ i → (groupWeights draws ρ g zd yd i).2 = .error (.exc .indexError) := by
  obtain ⟨t, e, sh, hv⟩ := C86_evaluate (draws := draws) hl (grids_shaped ρ hd)
  obtain ⟨s, c⟩ := t
  dsimp only at sh hv
  subst sh
  refine ⟨fun i hi => ⟨fun ci co => c (i :: [co, ci]) * (kron ρ yd).getD ci 0, ?_, fun co hco ci hci => ?_⟩, fun i hi => ?_⟩
  · unfold groupWeights pick
    rw [e]
    dsimp only
    rw [if_pos ⟨by omega, by omega⟩]
    dsimp only
    rw [if_neg (by omega), Int.toNat_natCast]
  · obtain ⟨z1, z2⟩ := gridPts_len ρ zd
    obtain ⟨y1, y2⟩ := gridPts_len ρ yd
    have hco' : co < (gridPts ρ zd).length := by rw [z2]; exact hco
    have hci' : ci < (gridPts ρ yd).length := by rw [y2]; exact hci
    have lz : ((gridPts ρ zd).getD co []).length = zd := by
      rw [List.getD_eq_getElem _ _ hco']; exact z1 _ (List.getElem_mem _)
    have ly : ((gridPts ρ yd).getD ci []).length = yd := by
      rw [List.getD_eq_getElem _ _ hci']; exact y1 _ (List.getElem_mem _)
    have one : ∀ {n i : ℕ}, i < n → (if n = 1 then 0 else i) = i := fun {n i} h => by split_ifs <;> omega
    have r1 : (grids ρ zd yd).1.row zd [co, ci] = (gridPts ρ zd).getD co [] := ext_row lz fun j _ => by
      simp only [Ten.rowAt, grids, List.dropLast_cons₂, List.dropLast_singleton, List.reverse_cons, List.reverse_nil, List.nil_append,
        List.cons_append, rdRev, one hco', one hci']
      rfl
    have r2 : (grids ρ zd yd).2.row yd [co, ci] = (gridPts ρ yd).getD ci [] := ext_row ly fun j _ => by
      simp only [Ten.rowAt, grids, List.dropLast_cons₂, List.dropLast_singleton, List.reverse_cons, List.reverse_nil, List.nil_append,
        List.cons_append, rdRev, one hco', one hci']
      rfl
    show c (i :: [co, ci]) * _ = _
    rw [(hv i hi [co, ci]).1, r1, r2]
  · unfold groupWeights pick
    rw [e]
    dsimp only
    rw [if_neg (by omega)]

/-- **C86 (the result of `pic2qpc`).** `pic2qpc` of an integral whose function is the function of head `i` uses exactly the weights of
the group, and accepts them if the quadrature weights are not negative. -/
theorem C86_same_as_ungrouped {draws : ℕ → Head} {g : Group} {hs : List Head} (hl : Live g hs) (ρ : Rule) {u : Pic} {z y : List ℕ} {q : Q}
    (hd : z.length + y.length = g.mlp.inDim) (hq : visit ρ u = .ok q) (hc : q.ch = ρ.K ^ y.length)
    (hw : ∀ w ∈ kron ρ y.length, 0 ≤ w) (i : ℕ) (hi : i < hs.length) :
    ∃ w w', (groupWeights draws ρ g z.length y.length i).2 = .ok w ∧
      visit ρ (.integral u z y (some fun a b => value g.mlp hs[i] a b)) = .ok (.wsum q (ρ.K ^ z.length) w') ∧
      ∀ ci < q.ch, ∀ co < ρ.K ^ z.length, w ci co = w' ci co := by
  obtain ⟨w, e, hv⟩ := (C86_materialize (draws := draws) hl ρ hd).1 i hi
  refine ⟨w, _, by rw [e], ?_, fun ci hci co hco => hv co hco ci (hc ▸ hci)⟩
  simp only [visit, hq, bind, Except.bind, hc, ne_eq, not_true_eq_false, if_false, mkWSum]
  rw [if_neg]
  · rw [not_not]
    intro ci _ o _
    refine mul_nonneg (value_pos _ _ _ _).le ?_
    by_cases h : ci < (kron ρ y.length).length
    · rw [List.getD_eq_getElem _ _ h]
      exact hw _ (List.getElem_mem _)
    · rw [List.getD_eq_default _ _ (by omega)]

/-- **FALSE for F-sharing.** A group with F-sharing has one function for all its units, but `materialize_integral_group` indexes it
by the number of the unit: with two units the second one raises an IndexError. -/
theorem C86_f_materialize {draws : ℕ → Head} {g : Group} {h : Head} (hc : g.isC = false) (hf : g.fHead = some h) (ρ : Rule) {zd yd : ℕ}
    (hd : zd + yd = g.mlp.inDim) {i : ℕ} (hi : 1 ≤ i) :
    (groupWeights draws ρ g zd yd i).2 = .error (.exc .indexError) :=
  (C86_materialize (hs := [h]) (.inr ⟨hc, h, hf, rfl⟩) ρ hd).2 i hi

/-! ### Examples -/

namespace Wit

/-- A network with one hidden unit. -/
def M : Mlp := ⟨2, 1, 2, fun _ _ => 1, fun _ _ _ => 1, fun _ _ => 0⟩

/-- Heads that differ: the bias counts the draws. -/
def draws (i : ℕ) : Head := ⟨fun _ => 0, i⟩

/-- A `c` group with two units. -/
def g : Group := ⟨true, M, 2, none, none, 0⟩

/-- An `f` group with two units. -/
def gf : Group := ⟨false, M, 2, none, none, 0⟩

/-- A point. -/
def pt : Ten := ⟨[1], fun _ => 0⟩

theorem shaped : Shaped M pt pt 1 1 [] := ⟨⟨[], rfl⟩, ⟨[], rfl⟩, rfl, rfl⟩

example : new "c" M = .ok ⟨true, M, 0, none, none, 0⟩ := rfl

example : runs draws ⟨true, M, 0, none, none, 0⟩ [.add, .add] = g := rfl

theorem live : Live (evaluate draws g pt pt).1 [draws 0, draws 1] :=
  (C86_first (g := g) (fun _ => rfl) (fun _ => rfl) (by decide) pt pt).1

theorem livef : Live (evaluate draws gf pt pt).1 [draws 0] :=
  (C86_first (g := gf) (fun _ => rfl) (fun _ => rfl) (by decide) pt pt).1

theorem value_draws (i : ℕ) (z y : List ℝ) : value M (draws i) z y = Real.log (1 + Real.exp i) := by
  unfold value draws
  simp

theorem value_lt {i j : ℕ} (h : i < j) (z y : List ℝ) : value M (draws i) z y < value M (draws j) z y := by
  rw [value_draws, value_draws]
  refine Real.log_lt_log (by positivity) ?_
  have : Real.exp (i : ℝ) < Real.exp (j : ℝ) := Real.exp_lt_exp.2 (by exact_mod_cast h)
  linarith

/-- Different units of a `c` group have different functions; an explicit `finalize` changes the function of a unit. -/
theorem C86_example : ∃ t u v, (call draws (evaluate draws g pt pt).1 0 pt pt).2 = .ok t ∧
    (call draws (evaluate draws g pt pt).1 1 pt pt).2 = .ok u ∧
    (call draws (runs draws (evaluate draws g pt pt).1 [.finalize]) 0 pt pt).2 = .ok v ∧ t.cell [] < u.cell [] ∧ t.cell [] ≠ v.cell [] := by
  obtain ⟨t, e, -, ht⟩ := (C86_function (draws := draws) live (z := pt) (y := pt) (dz := 1) (dy := 1) (lead := []) shaped 0).1 rfl (by decide)
    (by decide)
  obtain ⟨u, e', -, hu⟩ := (C86_function (draws := draws) live (z := pt) (y := pt) (dz := 1) (dy := 1) (lead := []) shaped 1).1 rfl (by decide)
    (by decide)
  have hl := (C86_refinalize (draws := draws) (g := (evaluate draws g pt pt).1) (by decide)).1
  rw [if_pos (show (evaluate draws g pt pt).1.isC = true from rfl)] at hl
  obtain ⟨v, e'', -, hv⟩ := (C86_function (draws := draws) hl (z := pt) (y := pt) (dz := 1) (dy := 1) (lead := []) shaped 0).1 rfl (by decide)
    (by decide)
  refine ⟨t, u, v, by rw [e], by rw [e'], ?_, ?_, ?_⟩
  · show (call draws (finalize draws (evaluate draws g pt pt).1) 0 pt pt).2 = _
    rw [e'']
  · rw [ht, hu]
    exact value_lt (i := 0) (j := 1) (by decide) _ _
  · rw [ht, hv]
    exact (value_lt (i := 0) (j := 2) (by decide) _ _).ne

/-- A unit added after the first evaluation has no function. -/
example : (call draws (add (evaluate draws g pt pt).1).2 2 pt pt).2 = .error (.exc .indexError) :=
  C86_late_unit live rfl (by decide) [] (by simp) shaped

/-- An `f` group with two units cannot be materialised. -/
example : (groupWeights draws ⟨1, fun _ => 0, fun _ => 1⟩ (evaluate draws gf pt pt).1 1 1 1).2 = .error (.exc .indexError) :=
  C86_f_materialize (h := draws 0) rfl rfl _ rfl (le_refl 1)

end Wit

end Verif.Fs

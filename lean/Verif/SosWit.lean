import Verif.SosExp

/-!
# Examples for C78
-/

open Verif.Inner

namespace Verif
namespace Sos
namespace Wit

/-- A generator that leaves every list as it is. -/
def keep : ℤ → List ℕ → List ℕ := fun _ l => l

theorem keep_perm : ∀ s l, (keep s l).Perm l := fun _ _ => List.Perm.refl _

/-- `SOSModel(num_variables=n, num_input_units=i, num_sum_units=s, input_layer="embedding",
input_layer_kwargs={"num_states": 2})` with the default region graph. -/
def args (n i s : ℤ) : Args :=
  { n := n, image := none, inputUnits := i, sumUnits := s, layer := "embedding", kwargs := some ⟨none, some 2⟩,
    region := "rnd-bt", structured := false, complex := false, nonMonoInputs := none, seed := 42 }

theorem args_valid {n i s : ℤ} (hn : 0 < n) (hi : 0 < i) (hs : 0 < s) : (args n i s).Valid (some 2) where
  vars := hn
  inputs := hi
  sums := hs
  layer := by simp [args]
  image := by intro l h; cases h
  categories := by intro h; exact absurd h (show ¬ "embedding" = "categorical" by decide)
  states := by intro _; exact ⟨_, 2, rfl, rfl, rfl⟩
  none := by intro h; exact absurd h (show ¬ "embedding" = "gaussian" by decide)

theorem args_leafOk (n i s : ℤ) : (args n i s).LeafOk (some 2) := Or.inr (Or.inr (by simp))

theorem args_region (n i s : ℤ) : (args n i s).RegionOk := Or.inl (by simp [args])

/-- **C78 (the documented signature is not enough).** With the default region graph, `SOSModel(num_variables=n, …)` raises
for every number of variables that is not a power of two unless `num_input_units = num_sum_units`; with a power of two it
succeeds for all positive numbers of units. -/
theorem C78_default_region {n i s m : ℤ} (hn : 0 < n) (hi : 0 < i) (hs : 0 < s) (hm : 0 < m)
    {rng : ℤ → List ℕ → List ℕ} (hr : ∀ s l, (rng s l).Perm l) (d : ℕ → Draws) :
    (∃ comps, sosModel (args n i s) m rng d = .ok comps) ↔ i = s ∨ ∃ k, n.toNat = 2 ^ k := by
  rw [C78_sos_constructor _ _ hr]
  have h1 : ∃ K, (args n i s).Valid K ∧ (args n i s).LeafOk K := ⟨_, args_valid hn hi hs, args_leafOk n i s⟩
  simp only [hm, h1, args_region, true_and]
  refine or_congr_right ?_
  have hb : ∀ k t, (args n i s).tree rng k = .ok t → (t.Mixed ↔ ¬ ∃ e, n.toNat = 2 ^ e) := fun k t ht =>
    C78_binary_mixed hr (show 0 < n.toNat by omega) ht
  constructor
  · intro h
    obtain ⟨t, ht⟩ := ((args_valid hn hi hs).tree_iff rng 0).2 (args_region n i s)
    by_contra hne
    exact h 0 (by omega) t ht ((hb 0 t ht).2 hne)
  · intro h k _ t ht hmx
    exact (hb k t ht).1 hmx h

/-- Three variables, two input units, three sum units: no model. -/
theorem C78_three_variables (d : ℕ → Draws) : ¬ ∃ comps, sosModel (args 3 2 3) 1 keep d = .ok comps := by
  rw [C78_default_region (by omega) (by omega) (by omega) (by omega) keep_perm]
  rintro (h | ⟨k, hk⟩)
  · omega
  · have h3 : (3 : ℤ).toNat = 3 := rfl
    rw [h3] at hk
    rcases k with _ | _ | k
    · simp at hk
    · simp at hk
    · rw [pow_succ] at hk; omega

/-- Four variables: a model with three squares. -/
theorem four_variables (d : ℕ → Draws) : ∃ comps, sosModel (args 4 2 3) 3 keep d = .ok comps := by
  rw [C78_default_region (by omega) (by omega) (by omega) (by omega) keep_perm]
  exact Or.inr ⟨2, rfl⟩

/-- The quadtree over a `3 × 3` image mixes leaves and inner nodes: its upper left child is a pixel, its lower right child
a `2 × 2` patch. -/
theorem C78_quad_mixed : (quad 1 3 3 4 6 ⟨0, 3, 0, 3⟩).Mixed := by
  have e : quad 1 3 3 4 6 ⟨0, 3, 0, 3⟩ = .node (pixels 1 3 3 ⟨0, 3, 0, 3⟩) 4 fun i =>
      quad 1 3 3 4 5 ((kept 4 ⟨0, 3, 0, 3⟩).get i) := rfl
  rw [e]
  refine Or.inl ⟨⟨0, by decide⟩, ⟨3, by decide⟩, ?_, ?_⟩
  · exact (quad_isLeaf (p := ⟨0, 1, 0, 1⟩) (by decide) ⟨by decide, by decide⟩).2 ⟨rfl, rfl⟩
  · intro h
    have := (quad_isLeaf (p := ⟨1, 3, 1, 3⟩) (by decide) ⟨by decide, by decide⟩).1 h
    exact absurd this.1 (by decide)

/-- Draws: all tables are drawn as `1`, i.e. initialised with `2` for up to two variables. -/
noncomputable def one : ℕ → Draws := fun _ => ⟨fun _ _ => 0, fun _ _ => 1, fun _ _ _ => 1 / 2, fun _ _ _ => 1, fun _ _ _ => 1,
  fun _ _ _ => 1, fun _ => 1, fun _ => 1⟩

theorem one_model : sosModel (args 1 1 1) 1 keep one = .ok [leafOf ((args 1 1 1).cfg (some 2)) (one 0) [0]] := by
  have hl : ((args 1 1 1).cfg (some 2)).LeafOk := (args_valid (by omega) (by omega) (by omega)).leafOk_iff.2 (args_leafOk 1 1 1)
  have ht : (args 1 1 1).tree keep 0 = .ok (.leaf [0]) := rfl
  have hc : component ((args 1 1 1).cfg (some 2)) (one 0) false (.leaf [0]) =
      .ok (leafOf ((args 1 1 1).cfg (some 2)) (one 0) [0]) := by
    rw [component_eq hl (show (Tree.leaf [0]).Ok from ⟨by simp, by simp⟩)]
    simp only [inst, makeLeaf_ok hl, Except.map]
    rfl
  have hq : squares (args 1 1 1) ((args 1 1 1).cfg (some 2)) keep one 1 0 =
      .ok [leafOf ((args 1 1 1).cfg (some 2)) (one 0) [0]] := by
    rw [squares]
    simp only [ht, square, show (args 1 1 1).complex = false from rfl, Bool.false_eq_true, if_false, hc, squares,
      List.append_nil]
  unfold sosModel
  rw [if_neg (by omega), (validate_ok ..).2 ⟨by decide, by decide, by decide, by simp [args], fun l h => by cases h⟩]
  have hr : resolveStates (args 1 1 1).layer (args 1 1 1).kwargs = .ok (some 2) := by
    unfold resolveStates
    rw [if_neg (show ¬ (args 1 1 1).layer = "categorical" by decide), if_pos (show (args 1 1 1).layer = "embedding" from rfl)]
    rfl
  simp only [hr, show (1 : ℤ).toNat = 1 from rfl, hq]
  exact mkSocs_of (V := {0}) (by simp) fun c hc => by
    simp only [List.mem_cons, List.not_mem_nil, or_false] at hc
    subst hc
    exact ⟨by simp [leafOf, IC.vars], rfl⟩

/-- The hypotheses of `C78_sos_normalised` hold for this model: its partition function is `2² + 2² = 8`. -/
theorem one_partition : ∃ ks, selfIps [leafOf ((args 1 1 1).cfg (some 2)) (one 0) [0]] = .ok ks ∧ partition ks 0 0 0 = 8 := by
  have hcell : cell ((args 1 1 1).cfg (some 2)) (one 0) 0 0 = .scat 2 fun _ => 2 := by
    unfold cell
    rw [if_neg (by decide), if_pos ⟨rfl, by decide⟩]
    have h2 : ∀ t : ℝ, signedInit ((args 1 1 1).cfg (some 2)).n t = 4 * t - 2 := by
      intro t
      unfold signedInit
      rw [if_pos (show ((args 1 1 1).cfg (some 2)).n ≤ 2 by decide)]
      norm_num
      ring
    simp only [h2, one]
    norm_num [Args.cfg]
  have hsq : (leafOf ((args 1 1 1).cfg (some 2)) (one 0) [0]) =
      .leaf [0] 1 1 fun f ch _ => cell ((args 1 1 1).cfg (some 2)) (one 0) ([0].getD f 0) ch := rfl
  have hip : ip (leafOf ((args 1 1 1).cfg (some 2)) (one 0) [0]) (leafOf ((args 1 1 1).cfg (some 2)) (one 0) [0]) =
      .ok fun f i j r => if f < 1 ∧ i < 1 ∧ j < 1 ∧ r < 1 then 8 else 0 := by
    rw [hsq]
    have hs : (seqFin (n := [(0 : Var)].length) fun f => seqFin (n := 1) fun i => seqFin (n := 1) fun j => seqFin (n := 1)
        fun r : Fin 1 => ipPar (cell ((args 1 1 1).cfg (some 2)) (one 0) ([0].getD f 0) i)
          (cell ((args 1 1 1).cfg (some 2)) (one 0) ([0].getD f 0) j)) = .ok fun _ _ _ _ => 8 := by
      refine seqFin_of fun f => seqFin_of fun i => seqFin_of fun j => seqFin_of fun r => ?_
      have hf : (f : ℕ) = 0 := Nat.lt_one_iff.1 f.2
      have hi : (i : ℕ) = 0 := by omega
      have hj : (j : ℕ) = 0 := by omega
      rw [hf, hi, hj]
      simp only [List.getD_cons_zero, hcell, ipPar, ne_eq, not_true_eq_false, if_false]
      norm_num [Finset.sum_range_succ]
    simp only [ip, ne_eq, not_true_eq_false, if_false, hs]
    rfl
  refine ⟨_, by simp only [selfIps, hip]; rfl, ?_⟩
  simp [partition]

/-- `ExpSOSModel` with the default numbers of monotone units exists for four variables. -/
theorem four_variables_exp (d : ℕ → Draws) : ∃ e, expSosModel (args 4 3 2) 2 2 keep d = .ok e := by
  rw [C78_exp_constructor _ _ _ keep_perm]
  refine ⟨by omega, by omega, ⟨_, args_valid (by omega) (by omega) (by omega), args_leafOk 4 3 2⟩, args_region 4 3 2, Or.inr ?_⟩
  intro t ht
  have := C78_binary_mixed keep_perm (show 0 < 4 by omega) (show buildTree keep "rnd-bt" 4 none _ = .ok t from ht)
  rw [this]
  exact fun h => h ⟨2, rfl⟩

end Wit
end Sos
end Verif

import Verif.PicEnd

/-!
# C63: normalisation, witnesses and the ordering counterexample
-/

namespace Verif.PicQ
open Verif Finset

/-- Inputs have mass one for every latent value, sum weights add up to one, and every integral's function is normalised
under the quadrature rule for every value of the conditioning latents. -/
def Normal (ρ : Rule) : Pic → Prop
  | .input _ _ g _ => ∀ zs, expL (g (fun _ => none) zs) = 1
  | .sum _ us w _ => (∀ i, Normal ρ (us i)) ∧ ∑ i, w i = 1
  | .prod l r => Normal ρ l ∧ Normal ρ r
  | .integral u _ y f => Normal ρ u ∧ ∃ g, f = some g ∧ ∀ zs η, quad ρ y (fun η' => g zs (y.map η')) η = 1

theorem value_normal {ρ : Rule} : ∀ u, Normal ρ u → ∀ η, value ρ u (fun _ => none) η = 1
  | .input _ _ _ _, h, η => h _
  | .sum n us w z, h, η => by
    simp only [value]
    rw [← h.2]
    exact sum_congr rfl fun i _ => by rw [value_normal (us i) (h.1 i), mul_one]
  | .prod l r, h, η => by
    simp only [value]
    rw [value_normal l h.1, value_normal r h.2, mul_one]
  | .integral u z y f, h, η => by
    obtain ⟨hu, g, rfl, hg⟩ := h
    simp only [value, Option.map_some, Option.getD_some]
    rw [← hg (z.map η) η]
    congr 1
    funext η'
    rw [value_normal u hu, mul_one]

/-- **C63, normalisation.** A QPC of a coherently built, quadrature-normalised PIC has log-likelihood 0 on the row in
which everything is missing, in every channel (with `C63_missing_is_integral`: total mass one). -/
theorem C63_normalised {ρ : Rule} {u : Pic} {q : Q} (hc : Coherent ρ u) (hn : Normal ρ u)
    (h : pic2qpc ρ u = .ok q) {c : ℕ} (hcl : c < q.ch) : q.ll (fun _ => none) c = 0 := by
  have hch : q.ch = ρ.K ^ u.latent.length := by
    unfold pic2qpc at h
    split at h
    · cases h
    · exact (visit_correct ρ u hc q h).1
  have h1 := (C63_quadrature hc h (fun _ => none) (fun _ => 0) (c := c) (by rw [← hch]; exact hcl)).2
  rw [value_normal u hn] at h1
  exact expL_injective (by rw [h1, expL_zero])

/-! ## A region graph that is accepted -/

/-- Two points, unit weights. -/
noncomputable def exRule : Rule := ⟨2, fun k => k, fun _ => 1 / 2⟩

/-- Input functions that put the latent value into the density; materialised at the grid points. -/
noncomputable def exLeaf (d : ℕ) : (Row → List ℝ → LogV) × (Rule → ℕ × (Row → ℕ → LogV)) :=
  (fun _ zs => logL (1 + zs.sum), fun ρ => (ρ.K ^ d, fun _ c => logL (1 + ((gridPts ρ d).getD c []).sum)))

noncomputable def exArgs : Args := ⟨.auto, fun _ d => exLeaf d, some fun _ _ _ _ ys => 1 + ys.headD 0, none⟩

def exRg : List Region := [⟨{0}, []⟩, ⟨{1}, []⟩, ⟨{0, 1}, [[0, 1]]⟩]

theorem exLeaves : FaithfulLeaves exRule exArgs := fun _ _ _ => ⟨rfl, fun _ _ _ => rfl⟩

theorem exBinary : BinaryAscending exRg := by
  intro X hX p hp
  simp only [exRg, List.mem_cons, List.not_mem_nil, or_false] at hX
  rcases hX with rfl | rfl | rfl
  · cases hp
  · cases hp
  · simp only [List.mem_singleton] at hp
    exact ⟨0, 1, hp, by omega⟩

theorem exWell : WellFormed exRg := by
  intro i X hX p hp
  match i, hX with
  | 0, hX => cases hX; cases hp
  | 1, hX => cases hX; cases hp
  | 2, hX =>
    cases hX
    simp only [List.mem_singleton] at hp
    subst hp
    simp

/-- The unit built from `exRg`. -/
noncomputable def exPic : Pic :=
  .integral (.prod (.input {0} [2] (exLeaf 1).1 (exLeaf 1).2) (.input {1} [3] (exLeaf 1).1 (exLeaf 1).2)) []
    (joinLat [2] [3]) (some fun _ ys => 1 + ys.headD 0)

theorem exRg_ok : rg2pic exArgs 2 exRg = .ok exPic := by
  have hp : Pic.mkProd (.input {0} [2] (exLeaf 1).1 (exLeaf 1).2) (.input {1} [3] (exLeaf 1).1 (exLeaf 1).2) =
      .ok (.prod (.input {0} [2] (exLeaf 1).1 (exLeaf 1).2) (.input {1} [3] (exLeaf 1).1 (exLeaf 1).2)) := by
    unfold Pic.mkProd
    rw [if_neg (by rw [not_not]; simp [Pic.scope])]
    rfl
  have hm : merge exArgs true (.input {0} [2] (exLeaf 1).1 (exLeaf 1).2) (.input {1} [3] (exLeaf 1).1 (exLeaf 1).2)
      ⟨4, 0⟩ = .ok (exPic, ⟨4, 1⟩) := by
    unfold merge
    rw [if_pos (by decide), hp]
    rfl
  have hreg : region exArgs true 2 ⟨{0, 1}, [[0, 1]]⟩
      [.input {0} [2] (exLeaf 1).1 (exLeaf 1).2, .input {1} [3] (exLeaf 1).1 (exLeaf 1).2] ⟨4, 0⟩ =
      .ok (exPic, ⟨4, 1⟩) := by
    unfold region parts
    rw [if_neg (by decide)]
    have hL : [0, 1].mapM (lookup [Pic.input {0} [2] (exLeaf 1).1 (exLeaf 1).2, .input {1} [3] (exLeaf 1).1 (exLeaf 1).2])
        = .ok [Pic.input {0} [2] (exLeaf 1).1 (exLeaf 1).2, .input {1} [3] (exLeaf 1).1 (exLeaf 1).2] := rfl
    rw [hL]
    simp only [bind, Except.bind, foldPart, hm, parts, pure, Except.pure]
    rw [if_neg (by simp)]
  show (do
    let U ← (do
      let (u, s) ← region exArgs true 2 ⟨{0, 1}, [[0, 1]]⟩
        [.input {0} [2] (exLeaf 1).1 (exLeaf 1).2, .input {1} [3] (exLeaf 1).1 (exLeaf 1).2] ⟨4, 0⟩
      loop exArgs [] ([.input {0} [2] (exLeaf 1).1 (exLeaf 1).2, .input {1} [3] (exLeaf 1).1 (exLeaf 1).2] ++ [u]) s)
    match List.getLast? U with
    | some u => pure u
    | none => throw Exc.keyError : Except Exc Pic) = _
  rw [hreg]
  rfl

theorem exPic_coherent : Coherent exRule exPic := by
  refine merge_coherent ⟨by simp, rfl, fun _ _ _ => rfl⟩ ⟨by simp, rfl, fun _ _ _ => rfl⟩ rfl rfl (by omega) (by simp)

theorem grid_nonneg {ρ : Rule} (h : ∀ k, 0 ≤ ρ.pt k) : ∀ d, ∀ l ∈ gridPts ρ d, ∀ t ∈ l, 0 ≤ t
  | 0, l, hl, t, ht => by simp [gridPts] at hl; subst hl; cases ht
  | d + 1, l, hl, t, ht => by
    rw [gridPts, List.mem_flatMap] at hl
    obtain ⟨i, -, hl⟩ := hl
    obtain ⟨m, hm, rfl⟩ := List.mem_map.1 hl
    rcases List.mem_cons.1 ht with rfl | ht
    · exact h i
    · exact grid_nonneg h d m hm t ht

theorem exPic_sound : Sound exRule exPic := by
  refine ⟨⟨trivial, trivial, by simp [Pic.scope]⟩, _, rfl, ?_⟩
  intro p _ t ht
  have h := grid_nonneg (ρ := exRule) (fun k => Nat.cast_nonneg k) _ t ht
  cases t with
  | nil => norm_num
  | cons a t =>
    show (0 : ℝ) ≤ 1 + a
    have := h a (by simp)
    linarith

/-- The hypotheses of `C63_end_to_end` and `C63_accepts` are met by a two-variable region graph. -/
example : ∃ u q, rg2pic exArgs 2 exRg = .ok u ∧ pic2qpc exRule u = .ok q ∧
    ∀ x η, expL (q.ll x 0) = value exRule u x η := by
  obtain ⟨q, hq⟩ := C63_accepts (ρ := exRule) (fun k _ => by show (0 : ℝ) ≤ 1 / 2; norm_num) exPic_coherent exPic_sound
  exact ⟨exPic, q, exRg_ok, hq, fun x η => (C63_end_to_end (by decide) exLeaves exBinary exRg_ok hq x η).2⟩

/-- The same graph under CP is rejected. -/
example : rg2pic { exArgs with strategy := .cp } 2 exRg = .error .structureError :=
  C63_cp_rejected rfl exWell ⟨⟨{0, 1}, [[0, 1]]⟩, by simp [exRg], by simp⟩

/-! ## The order of the factors matters -/

/-- Left factor with latent `1`, right factor with latent `0`, as in every partition with three or more children (the
unit merged first has the newest latent id). -/
noncomputable def swapped : Pic :=
  .integral (.prod (.input {0} [1] (fun _ _ => 0) fun ρ => (ρ.K, fun _ _ => 0))
    (.input {1} [0] (fun _ zs => logL (1 + zs.headD 0)) fun ρ => (ρ.K, fun _ c => logL (1 + ρ.pt c))))
    [] [0, 1] (some fun _ ys => ys.headD 0)

noncomputable def exRule1 : Rule := ⟨2, fun k => k, fun _ => 1⟩

/-- **C63, counterexample.** When the ids on the left are larger than those on the right the function of an integral is
evaluated with its arguments exchanged: `pic2qpc` accepts `swapped` and returns a circuit of value 3, while the
quadrature of the unit is 4. -/
theorem C63_swapped_arguments : ∃ q, pic2qpc exRule1 swapped = .ok q ∧ ∀ x η,
    expL (q.ll x 0) = 3 ∧ value exRule1 swapped x η = 4 := by
  have hv : visit exRule1 swapped = .ok (.wsum (.outer (.leaf {0} 2 fun _ _ => 0)
      (.leaf {1} 2 fun _ c => logL (1 + (c : ℝ)))) 1 fun ci co =>
        (((gridPts exRule1 2).getD ci []).headD 0) * (kron exRule1 2).getD ci 0) := by
    unfold swapped
    simp only [visit, bind, Except.bind, pure, Except.pure, throw, throwThe, MonadExceptOf.throw]
    rw [if_neg (by rw [not_not]; simp [Q.scope])]
    have h1 : latEq (Pic.input {0} [1] (fun _ _ => 0) fun ρ => (ρ.K, fun _ _ => 0)).latent
        (Pic.input {1} [0] (fun _ zs => logL (1 + zs.headD 0)) fun ρ => (ρ.K, fun _ c => logL (1 + ρ.pt c))).latent
        = false := rfl
    rw [h1]
    simp only [Bool.false_eq_true, if_false]
    rw [if_neg (by rw [not_not]; rfl)]
    unfold mkWSum
    rw [if_neg]
    · rfl
    · rw [not_not]
      intro ci hci o _
      have hci' : ci < exRule1.K ^ 2 := hci
      show 0 ≤ ((gridPts exRule1 2).getD ci []).headD 0 * (kron exRule1 2).getD ci 0
      rw [kron_get _ _ _ hci']
      refine mul_nonneg ?_ (wprod_nonneg (fun _ _ => zero_le_one) _ _ hci')
      have hm : (gridPts exRule1 2).getD ci [] ∈ gridPts exRule1 2 := by
        rw [List.getD_eq_getElem _ _ (by rw [grid_length]; exact hci')]; exact List.getElem_mem _
      have hg := grid_nonneg (ρ := exRule1) (fun k => Nat.cast_nonneg k) 2 _ hm
      cases hl : (gridPts exRule1 2).getD ci [] with
      | nil => exact le_rfl
      | cons a t => rw [hl] at hg; exact hg a (by simp)
  have hw : ∀ ci < 4, (kron exRule1 2).getD ci 0 = 1 := by
    intro ci hci
    rw [kron_get _ _ _ (by exact hci)]
    simp [wprod, exRule1]
  have hq : pic2qpc exRule1 swapped = visit exRule1 swapped := by
    unfold pic2qpc
    rw [if_neg (by rw [not_not]; exact fun _ _ => zero_le_one)]
  refine ⟨_, hq.trans hv, ?_⟩
  · intro x η
    constructor
    · rw [Q.ll, expL_lse]
      show ∑ ci ∈ range 4, _ = (3 : ℝ)
      have hg : ∀ i < 2, ∀ j < 2, ((gridPts exRule1 2).getD (i * 2 + j) []).headD 0 = (i : ℝ) := by
        intro i hi j hj
        have := grid_get exRule1 1 i j hi (by exact hj)
        rw [show exRule1.K ^ 1 = 2 from rfl] at this
        rw [this]; rfl
      have hl : ∀ c : ℕ, expL (logL (1 + (c : ℝ))) = 1 + c := fun c => expL_logL (by positivity)
      rw [show (4 : ℕ) = 2 * 2 from rfl, sum_range_mul']
      have hterm : ∀ i ∈ range 2, ∀ j ∈ range 2,
          expL ((Q.outer (Q.leaf {0} 2 fun _ _ => 0) (Q.leaf {1} 2 fun _ c => logL (1 + (c : ℝ)))).ll x (i * 2 + j) +
            logL (((gridPts exRule1 2).getD (i * 2 + j) []).headD 0 * (kron exRule1 2).getD (i * 2 + j) 0)) =
          (1 + j) * i := by
        intro i hi j hj
        have hi' := mem_range.1 hi
        have hj' := mem_range.1 hj
        rw [hg i hi' j hj', hw _ (by omega), expL_add, mul_one, expL_logL (Nat.cast_nonneg i)]
        congr 1
        show expL (0 + logL (1 + (((i * 2 + j) % 2 : ℕ) : ℝ))) = _
        rw [zero_add, show (i * 2 + j) % 2 = j by omega, hl]
      rw [sum_congr rfl fun i hi => sum_congr rfl fun j hj => hterm i hi j hj]
      simp [sum_range_succ]
      norm_num
    · have hl : ∀ c : ℕ, expL (logL (1 + (c : ℝ))) = 1 + c := fun c => expL_logL (by positivity)
      have h0 : expL (logL 1) = 1 := expL_logL (by norm_num)
      have h1 : expL (logL (1 + 1)) = 2 := by rw [expL_logL (by norm_num)]; norm_num
      simp [swapped, value, quad, exRule1, sum_range_succ, Function.update, h1]
      norm_num

/-- C63, the two symbolic constructors: a PICProduct exists exactly for operands with disjoint scopes, a PICSum exactly for a
nonempty list of units of one scope with positive weights summing to one (up to `torch.allclose`); nothing else is ever
stored. -/
theorem C63_constructors :
    (∀ l r p, Pic.mkProd l r = .ok p ↔ Disjoint l.scope r.scope ∧ p = .prod l r) ∧
    (∀ l r, ¬ Disjoint l.scope r.scope → Pic.mkProd l r = .error .structureError) ∧
    ∀ us w z p, Pic.mkSum us w z = .ok p ↔ us ≠ [] ∧ (∀ i < us.length, 0 < w i) ∧
      |(∑ i ∈ Finset.range us.length, w i) - 1| ≤ 1 / 10 ^ 8 + 1 / 10 ^ 5 ∧ (∀ u ∈ us, ∀ v ∈ us, u.scope = v.scope) ∧
      p = .sum us.length us.get (fun i => w i) z := by
  refine ⟨fun l r p => ?_, fun l r h => ?_, fun us w z p => ?_⟩
  · simp only [Pic.mkProd, bind, Except.bind, pure, Except.pure, throw, throwThe, MonadExceptOf.throw]
    by_cases h : Disjoint l.scope r.scope
    · simp [h, eq_comm]
    · simp [h]
  · simp only [Pic.mkProd, bind, Except.bind, pure, Except.pure, throw, throwThe, MonadExceptOf.throw]
    simp [h]
  · have hcl : Circ.CloseToOne (∑ i ∈ Finset.range us.length, w i) ↔
        |(∑ i ∈ Finset.range us.length, w i) - 1| ≤ 1 / 10 ^ 8 + 1 / 10 ^ 5 := by
      unfold Circ.CloseToOne; norm_num
    rw [← hcl]
    simp only [Pic.mkSum, bind, Except.bind, pure, Except.pure, throw, throwThe, MonadExceptOf.throw]
    by_cases h0 : us.length = 0
    · have : us = [] := List.length_eq_zero_iff.1 h0
      simp [this]
    have h0' : us ≠ [] := fun h => h0 (by rw [h]; rfl)
    by_cases h1 : ∀ i < us.length, 0 < w i
    · by_cases h2 : Circ.CloseToOne (∑ i ∈ Finset.range us.length, w i)
      · by_cases h3 : ∀ u ∈ us, ∀ v ∈ us, u.scope = v.scope
        · rw [if_neg h0, if_neg (not_not.2 h1)]
          simp only [h2, not_true, if_false, h0', ne_eq, not_false_eq_true, true_and]
          rw [if_neg (not_not.2 h3), Except.ok.injEq]
          exact ⟨fun h => ⟨h1, h3, h.symm⟩, fun h => h.2.2.symm⟩
        · rw [if_neg h0, if_neg (not_not.2 h1)]
          simp only [h2, h3, not_false_eq_true, not_true, if_true, if_false, false_and, and_false]
          simp
      · rw [if_neg h0, if_neg (not_not.2 h1)]
        simp [h2]
    · rw [if_neg h0, if_pos h1]
      simp only [h1, false_and, and_false]
      simp

end Verif.PicQ

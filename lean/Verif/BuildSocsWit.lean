import Verif.BuildSocsBuild

/-!
# C79: examples, and the limits of the compatibility check
-/

open MeasureTheory

namespace Verif
namespace BuildSocs

open Inner

/-- A mixture of two Bernoulli variables. -/
noncomputable def mix : Tpl :=
  .sum false (.leaf [0] 2 1 fun _ c _ => .bern (if c = 0 then 1 / 4 else 3 / 4)) 1 1 fun _ _ _ _ => 1 / 2

/-- Two signed components, no noise: with the draws below the weight of the second channel changes sign in both. -/
noncomputable def opts : Opts := ⟨2, true, 0, 1 / 2⟩

noncomputable def draws : ℕ → List ℕ → Draw := fun _ _ => ⟨fun _ i _ _ => if i = 0 then 3 / 4 else 1 / 4, fun _ _ _ _ => 0⟩

theorem opts_valid : opts.Valid := ⟨by norm_num [opts], le_refl _, by norm_num [opts], by norm_num [opts]⟩

theorem draws_ok : ∀ i p, (draws i p).Ok := by
  intro i p f j o r
  simp only [draws]
  split_ifs <;> norm_num

/-- The parameter of the channel. -/
noncomputable def pr (c : ℕ) : ℝ := if c = 0 then 1 / 4 else 3 / 4

theorem leaf_ip : ip (.leaf [0] 2 1 fun _ c _ => .bern (if c = 0 then 1 / 4 else 3 / 4))
    (.leaf [0] 2 1 fun _ c _ => .bern (if c = 0 then 1 / 4 else 3 / 4)) = .ok fun f i j r =>
      if f < 1 ∧ i < 2 ∧ j < 2 ∧ r < 1 then pr i * pr j + (1 - pr i) * (1 - pr j) else 0 := by
  unfold ip
  rw [if_neg (by simp), if_neg (by simp), if_neg (by simp)]
  have hz : ∀ i j : ℕ, ipPar (.bern (if i = 0 then 1 / 4 else 3 / 4)) (.bern (if j = 0 then 1 / 4 else 3 / 4)) =
      .ok (pr i * pr j + (1 - pr i) * (1 - pr j)) := fun _ _ => rfl
  simp only [hz]
  rw [seqFin_of (k := fun (_ : Fin [(0 : Var)].length) (i j : Fin 2) (_ : Fin 1) => pr i * pr j + (1 - pr i) * (1 - pr j))
    (fun f => seqFin_of fun i => seqFin_of fun j => seqFin_of fun r => rfl)]
  rfl

theorem sum_ip (w w' : ℕ → ℕ → ℕ → ℕ → ℝ) :
    ip (.sum (.leaf [0] 2 1 fun _ c _ => .bern (if c = 0 then 1 / 4 else 3 / 4)) 1 1 w)
      (.sum (.leaf [0] 2 1 fun _ c _ => .bern (if c = 0 then 1 / 4 else 3 / 4)) 1 1 w') = .ok fun f a b r =>
      ∑ i ∈ Finset.range 2, ∑ j ∈ Finset.range 2, w f i a r *
        (if f < 1 ∧ i < 2 ∧ j < 2 ∧ r < 1 then pr i * pr j + (1 - pr i) * (1 - pr j) else 0) * w' f j b r := by
  conv_lhs => unfold ip
  rw [if_neg (by simp), if_neg (by simp), if_neg (by simp), leaf_ip]
  rfl

/-- Weights 1/2 and -1/2. -/
noncomputable def signedW (i : ℕ) : ℝ := if i = 0 then 1 / 2 else -(1 / 2)

theorem convert_mix (n : ℕ) : (mix.convert (1 / 2) 0 (draws n)).ic =
    .sum (.leaf [0] 2 1 fun _ c _ => .bern (if c = 0 then 1 / 4 else 3 / 4)) 1 1 fun _ i _ _ => signedW i := by
  simp only [mix, Tpl.convert, Tpl.ic]
  congr 1
  funext f i o r
  simp only [perturb, draws, signedW]
  by_cases hi : i = 0
  · simp only [hi, if_true]
    norm_num
  · simp only [hi, if_false]
    norm_num

/-- The hypotheses of `C79_density` are met by this template: two components, each half the difference of the two Bernoulli masses,
whose squares are the same at 0 and 1: the density is uniform on `{0, 1}`. -/
theorem C79_example : ∃ comps ks, buildSocs opts draws mix = .ok comps ∧ comps.length = 2 ∧
    selfIps (comps.map Tpl.ic) = .ok ks ∧ partition ks 0 0 0 = 1 / 4 ∧
    (∀ x : Var → ℝ, x 0 = 0 ∨ x 0 = 1 → ∃ l, socsLL (comps.map Tpl.ic) (fun v => some (x v)) 0 0 0 = .ok l ∧ expL l = 1 / 2) := by
  have hlist : (copies opts draws mix).map Tpl.ic = List.replicate 2
      (.sum (.leaf [0] 2 1 fun _ c _ => .bern (if c = 0 then 1 / 4 else 3 / 4)) 1 1 fun _ i _ _ => signedW i) := by
    show [_, _] = [_, _]
    rw [← convert_mix 0]
    refine congrArg₂ List.cons rfl (congrArg₂ List.cons ?_ rfl)
    exact (convert_mix 1).trans (convert_mix 0).symm
  have hs : selfIps (List.replicate 2 (IC.sum (.leaf [0] 2 1 fun _ c _ => .bern (if c = 0 then 1 / 4 else 3 / 4)) 1 1
      fun _ i _ _ => signedW i)) = .ok (List.replicate 2 fun f a b r => ∑ i ∈ Finset.range 2, ∑ j ∈ Finset.range 2, signedW i *
        (if f < 1 ∧ i < 2 ∧ j < 2 ∧ r < 1 then pr i * pr j + (1 - pr i) * (1 - pr j) else 0) * signedW j) := by
    simp only [List.replicate, selfIps, sum_ip]
  have hp : partition (List.replicate 2 fun f a b r => ∑ i ∈ Finset.range 2, ∑ j ∈ Finset.range 2, signedW i *
        (if f < 1 ∧ i < 2 ∧ j < 2 ∧ r < 1 then pr i * pr j + (1 - pr i) * (1 - pr j) else 0) * signedW j) 0 0 0 = 1 / 4 := by
    simp only [partition, List.map_replicate, List.sum_replicate, Finset.sum_range_succ, Finset.sum_range_zero, signedW, pr]
    norm_num
  refine ⟨_, _, ((buildSocs_eq opts draws mix).1 opts_valid).1, rfl, by rw [hlist]; exact hs, hp, fun x hx => ?_⟩
  obtain ⟨l, h1, h2⟩ := expL_socsLL hs (fun v => some (x v)) 0 0 0 (by rw [hp]; norm_num)
  refine ⟨l, by rw [hlist]; exact h1, ?_⟩
  rw [h2, hp]
  simp only [List.map_replicate, List.sum_replicate, IC.valueN, IC.C, Finset.sum_range_succ, Finset.sum_range_zero, signedW, leafN, dens]
  rcases hx with hx | hx <;> simp [hx] <;> norm_num

/-- **C79 (limit of the check).** Two `Gamma` leaves with concentrations 2 and 1/4 are compatible, the self inner product of
the first is defined and that of the second is not: evaluating the SOCS of the two raises `UnsupportedOperationError`. -/
theorem C79_gamma : ∃ a b : Tpl, checkAll [a, b] = .ok () ∧ (∃ k, ip a.ic a.ic = .ok k) ∧ selfIps [a.ic, b.ic] = .error .unsupported := by
  have h2 : clampMin 2 = 2 := by unfold clampMin; norm_num
  have h1 : clampMin (1 / 4) = 1 / 4 := by unfold clampMin; norm_num
  have ha : ∃ k, ip (Tpl.leaf [0] 1 1 fun _ _ _ => .gamma 2 1).ic (Tpl.leaf [0] 1 1 fun _ _ _ => .gamma 2 1).ic = .ok k := by
    obtain ⟨z, hz⟩ : ∃ z, ipPar (.gamma 2 1) (.gamma 2 1) = .ok z := by
      simp only [ipPar, h2]
      rw [if_neg (by norm_num)]
      exact ⟨_, rfl⟩
    refine ⟨fun f i j r => if f < 1 ∧ i < 1 ∧ j < 1 ∧ r < 1 then z else 0, ?_⟩
    simp only [Tpl.ic]
    unfold ip
    rw [if_neg (by simp), if_neg (by simp), if_neg (by simp)]
    rw [seqFin_of (k := fun (_ : Fin [(0 : Var)].length) (_ _ : Fin 1) (_ : Fin 1) => z)
      (fun f => seqFin_of fun i => seqFin_of fun j => seqFin_of fun r => hz)]
    rfl
  have hb : ip (Tpl.leaf [0] 1 1 fun _ _ _ => .gamma (1 / 4) 1).ic (Tpl.leaf [0] 1 1 fun _ _ _ => .gamma (1 / 4) 1).ic =
      .error .unsupported := by
    have hz : ipPar (.gamma (1 / 4) 1) (.gamma (1 / 4) 1) = .error .unsupported := by
      simp only [ipPar, h1]
      rw [if_pos (by norm_num)]
    simp only [Tpl.ic]
    unfold ip
    rw [if_neg (by simp), if_neg (by simp), if_neg (by simp)]
    simp only [List.length_cons, List.length_nil, seqFin, hz]
  refine ⟨.leaf [0] 1 1 fun _ _ _ => .gamma 2 1, .leaf [0] 1 1 fun _ _ _ => .gamma (1 / 4) 1, (C79_check _).1.2 ?_, ha, ?_⟩
  · intro a ha b hb
    simp only [List.mem_cons, List.not_mem_nil, or_false] at ha hb
    rcases ha with rfl | rfl <;> rcases hb with rfl | rfl <;> rfl
  · obtain ⟨k, hk⟩ := ha
    simp only [selfIps, hk, hb]

end BuildSocs
end Verif

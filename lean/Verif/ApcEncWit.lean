import Verif.ApcEncLaw
import Verif.EinetWit

/-!
# C75: a concrete encoder meets the hypotheses
-/

namespace Verif.Apc.EncWit

open Finset Verif.Rat Verif.Circ
open Verif.Rat.Wit (pr wmix q0 q0_ok logL_pr_ne μ)

/-- A Bernoulli leaf with two channels over one column. -/
noncomputable def bleaf (v : Var) (R : ℕ) : Circ := .leaf [v] 2 R fun _ ch _ => Leaves.bernoulliLL (q0 ch)

/-- A factory: a Bernoulli leaf over the first of the requested columns. -/
noncomputable def factory : List Var → ℕ → ℕ → Option Circ := fun cols _ R => some (bleaf (cols.headD 0) R)

/-- One observed and one latent column, two repetitions, LinsumLayers. -/
def args (depth : ℤ) : EncArgs := ⟨1, 1, 2, 2, depth, 2, .linsum⟩

/-- What is drawn. -/
noncomputable def draws (depth : ℤ) : Draws := { EWit.draws with sizes := if depth = 0 then [2] else [1, 1] }

theorem factories (depth : ℤ) : Factories (args depth) factory factory (bleaf 0 2) (bleaf 1 2) :=
  ⟨rfl, rfl, ⟨fun v => Iff.rfl, rfl⟩, ⟨fun v => Iff.rfl, rfl⟩⟩

theorem leaves_ok : Leaves μ [bleaf 0 2, bleaf 1 2] 2 2 := by
  have hm0 : mkLeaf [0] 2 2 (fun _ ch _ => Leaves.bernoulliLL (q0 ch)) = .ok (bleaf 0 2) := rfl
  have hm1 : mkLeaf [1] 2 2 (fun _ ch _ => Leaves.bernoulliLL (q0 ch)) = .ok (bleaf 1 2) := rfl
  refine ⟨by simp, fun m hm => ?_, fun m hm => ?_, fun m hm => ?_, ?_⟩
  · rcases List.mem_cons.1 hm with rfl | hm
    · exact ⟨_, _, rfl⟩
    · rw [List.mem_singleton.1 hm]; exact ⟨_, _, rfl⟩
  · rcases List.mem_cons.1 hm with rfl | hm
    · exact hm0
    · rw [List.mem_singleton.1 hm]; exact hm1
  · rcases List.mem_cons.1 hm with rfl | hm
    · exact fun i _ ch _ r _ => ⟨Leaves.bernoulli_measurable _, Leaves.bernoulli_normalised (q0_ok ch).1 (q0_ok ch).2⟩
    · rw [List.mem_singleton.1 hm]
      exact fun i _ ch _ r _ => ⟨Leaves.bernoulli_measurable _, Leaves.bernoulli_normalised (q0_ok ch).1 (q0_ok ch).2⟩
  · simp [bleaf, scope]

theorem setup {depth : ℤ} (hd : depth = 0 ∨ depth = 1) : ESetup μ [bleaf 0 2, bleaf 1 2] (args depth).einet 2 2 (draws depth) := by
  refine ⟨leaves_ok, by decide, .inl rfl, ?_, fun _ _ => List.Perm.refl _, fun _ _ _ _ _ _ => logL_pr_ne _,
    fun _ _ _ _ _ => logL_pr_ne _, fun _ _ _ _ => logL_pr_ne _, fun _ _ _ _ => logL_pr_ne _, fun _ _ => logL_pr_ne _,
    fun _ => by simp [draws, EWit.draws]⟩
  have hw : width [bleaf 0 2, bleaf 1 2] = 2 := rfl
  unfold factDepth
  rw [hw, if_pos (show (args depth).einet.struct = .topDown from rfl)]
  rcases hd with rfl | rfl
  · show [2].Perm (Fact.groupSizes 2 (2 ^ 0)); decide
  · show [1, 1].Perm (Fact.groupSizes 2 (2 ^ 1)); decide

theorem valid {depth : ℤ} (hd : depth = 0 ∨ depth = 1) : EValid (args depth).einet :=
  ⟨le_refl 1, show 1 ≤ 2 by omega, show 1 ≤ 2 by omega, show (0 : ℤ) ≤ depth by omega, show 1 ≤ 2 by omega,
    show Layer.linsum ≠ .other by decide, show Struct.topDown ≠ .other by decide⟩

/-- The encoders are built, for depth 0 and 1. -/
theorem encoder {depth : ℤ} (hd : depth = 0 ∨ depth = 1) : ∃ E, buildEncoder (args depth) factory factory (draws depth) = .ok E :=
  (C75_constructor (factories depth) (setup hd) (valid hd)).1
    ⟨le_refl 1, le_refl 1, by rcases hd with rfl | rfl <;> decide⟩

/-- Rows of zeros, ones and NaNs are possible: the laws of `encode` and `decode` apply to them. -/
theorem possible {x : Row} (hx : ∀ v, x v = none ∨ x v = some 0 ∨ x v = some 1) : Possible [bleaf 0 2, bleaf 1 2] x := by
  have key : ∀ v : Var, ∀ i < (bleaf v 2).F, ∀ ch < (bleaf v 2).C, ∀ r < (bleaf v 2).R, featAt (den (bleaf v 2)) i x r ch ≠ ⊥ := by
    intro v i hi ch _ r _
    have hi0 : i = 0 := by
      have : i < 1 := hi
      omega
    subst hi0
    unfold bleaf
    rw [featAt_leaf (q := [v]) (f := 0) (v := v) rfl]
    have h1 : 0 < q0 ch := Wit.pr_pos _
    have h2 : q0 ch < 1 := by
      unfold q0 pr
      split_ifs <;> norm_num
    rcases hx v with h | h | h <;> rw [h]
    · simp
    · rw [Ne, ← expL_eq_zero_iff]
      simp only
      rw [Leaves.bernoulliLL]
      norm_num
      rw [expL_logL (by linarith)]
      linarith
    · rw [Ne, ← expL_eq_zero_iff]
      simp only
      rw [Leaves.bernoulliLL]
      norm_num
      rw [expL_logL (by linarith)]
      linarith
  intro m hm
  rcases List.mem_cons.1 hm with rfl | hm
  · exact key 0
  · rw [List.mem_singleton.1 hm]; exact key 1

/-- Tensors of the right shape: three rows, the observed column in a 1 x 1 image. -/
example : Shaped 1 3 ⟨[3, 1, 1], fun _ _ => some 1⟩ := ⟨1, [1], rfl, rfl⟩

end Verif.Apc.EncWit

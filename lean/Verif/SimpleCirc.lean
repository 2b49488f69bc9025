import Verif.SimpleProps

/-!
# C73: differentiable sampling of accepted circuits

`Sampling.lean` models sum.py:282-385 with categorical choices; with `is_differentiable` the same code takes every choice by
`SIMPLE` (sampling_context.py:1147-1183). The theorems of C14 about the law of the ordinary sampler hold for that sampler too.
-/

namespace Verif.Simple

open Verif.Circ Verif.Prog

/-- The probability that the differentiable sampler at temperature `tau` returns `a`. -/
noncomputable def gumbelProb {α : Type} (tau : ℝ) (p : Prog α) (a : α) : ENNReal :=
  open Classical in gumbelE tau p fun b => if b = a then 1 else 0

/-- The differentiable sampler of an aligned circuit draws every complete row with its likelihood, at every temperature. -/
theorem C73_circuit_partial {c : Circ} (h : Accepted c) (hal : Aligned c) (hp : PosCh c) (hr : RepS 0 c) {tau : ℝ} (ht : 0 < tau)
    (x : Row) (hx : Completes c (fun _ => none) x) :
    gumbelProb tau (sampleData c fun _ => none) x = ENNReal.ofReal (likelihood c x) := by
  rw [← C14_unconditional_partial h hal hp hr x hx]
  exact C73_program ht _ (C13_fills_partial h hal hp hr _).1 _

/-- With evidence: the differentiable sampler draws every completion with its conditional probability. -/
theorem C73_circuit_evidence_partial {c : Circ} (h : Accepted c) (hal : Aligned c) (hp : PosCh c) (hr : RepS 0 c) {tau : ℝ}
    (ht : 0 < tau) (e : Row) (hlive : Live e 0 c) (hpos : likelihood c e ≠ 0) (x : Row) (hx : Completes c e x) :
    gumbelProb tau (sampleWithEvidence c e) x = ENNReal.ofReal (likelihood c x / likelihood c e) := by
  rw [← C14_conditional_partial h hal hp hr e hlive hpos x hx]
  exact C73_program ht _ (C13_evidence_fills_partial h hal hp hr e hlive).1 _

/-- For every accepted circuit, also a misaligned one, and every row: whenever ordinary sampling cannot raise, the two
samplers return every row with the same probability. -/
theorem C73_circuit_agrees (c : Circ) (y : Row) {tau : ℝ} (ht : 0 < tau) (x : Row) :
    (¬ Fails (sampleData c y) → gumbelProb tau (sampleData c y) x = (sampleData c y).prob x) ∧
    (¬ Fails (sampleWithEvidence c y) → gumbelProb tau (sampleWithEvidence c y) x = (sampleWithEvidence c y).prob x) :=
  ⟨fun h => C73_program ht _ h _, fun h => C73_program ht _ h _⟩

/-- A mixture of two products over two variables: the differentiable sampler returns (1, 1) with probability 21/160. -/
theorem C73_circuit_example {tau : ℝ} (ht : 0 < tau) :
    gumbelProb tau (sampleData exDisc fun _ => none) (fun v => if v = 0 then some 1 else if v = 1 then some 1 else none) =
      ENNReal.ofReal (21 / 160) := by
  obtain ⟨h1, h2, h3, h4⟩ := exDisc_ok
  have hx : likelihood exDisc (fun v => if v = 0 then some 1 else if v = 1 then some 1 else none) = 21/160 := by
    rw [exDisc_value]
    simp [cellVal, Leaves.bernoulliLL, expL_logL (show (0:ℝ) ≤ 4⁻¹ by norm_num),
      expL_logL (show (0:ℝ) ≤ 2/3 by norm_num), expL_logL (show (0:ℝ) ≤ 2⁻¹ by norm_num),
      expL_logL (show (0:ℝ) ≤ 5⁻¹ by norm_num)]
    norm_num
  rw [C73_circuit_partial h1 h2 h3 h4 ht _ ?_, hx]
  have hs : (scope exDisc).query = [0, 1] := by decide
  refine ⟨?_, (fun v t hv => by cases hv), ?_⟩
  · intro v hv
    rw [hs] at hv
    rcases (by simpa using hv : v = 0 ∨ v = 1) with rfl | rfl <;> simp
  · intro v hv
    rw [hs] at hv
    have : v ≠ 0 ∧ v ≠ 1 := by simpa using hv
    simp [this.1, this.2]

end Verif.Simple

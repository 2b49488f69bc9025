import Verif.LogSpace
import Mathlib.Data.Finset.Max
import Mathlib.Data.Finset.Lattice.Fold

/-!
# Model of the Histogram leaf (spflow/modules/leaves/histogram.py)

One channel and repetition: `B` bins, edges `e 0 .. e B`, logits `θ 0 .. θ (B-1)`, floor `minProb`.
-/

namespace Verif
namespace Hist

/-- The constructor's checks, histogram.py:32-39 and 205-212: at least two edges, strictly increasing.  (Finite edges
are real numbers here.) -/
def EdgesOk (B : ℕ) (e : ℕ → ℝ) : Prop := 1 ≤ B ∧ ∀ b < B, e b < e (b + 1)

/-- `torch.bucketize(x, edges, right=True)`: the number of edges `≤ x` (edges are sorted). -/
noncomputable def bucketize (B : ℕ) (e : ℕ → ℝ) (x : ℝ) : ℕ := ((Finset.range (B + 1)).filter fun i => e i ≤ x).card

/-- `bin_idx_safe`, histogram.py:108-111: `(bucketize - 1).clamp(0, nbins - 1)`. -/
noncomputable def binIdx (B : ℕ) (e : ℕ → ℝ) (x : ℝ) : ℕ := min (bucketize B e x - 1) (B - 1)

/-- `_bin_widths`, histogram.py:60-62. -/
def width (e : ℕ → ℝ) (b : ℕ) : ℝ := e (b + 1) - e b

/-- `self._bin_widths.max()`, histogram.py:125. -/
noncomputable def maxWidth (B : ℕ) (e : ℕ → ℝ) : ℝ := shiftOf ((Finset.range B).sup fun b => ((width e b : ℝ) : LogV))

/-- `log_densities`, histogram.py:116. -/
noncomputable def logDensity (B : ℕ) (e : ℕ → ℝ) (θ : ℕ → LogV) (b : ℕ) : LogV :=
  logSoftmax B θ b + ((-Real.log (width e b) : ℝ) : LogV)

/-- `min_log_density`, histogram.py:126. -/
noncomputable def floor (B : ℕ) (e : ℕ → ℝ) (minProb : ℝ) : LogV :=
  logL minProb + ((-Real.log (maxWidth B e) : ℝ) : LogV)

/-- `log_prob`, histogram.py:91-128. -/
noncomputable def logProb (B : ℕ) (e : ℕ → ℝ) (θ : ℕ → LogV) (minProb : ℝ) (x : ℝ) : LogV :=
  open Classical in
  if e 0 ≤ x ∧ x < e B then max (logDensity B e θ (binIdx B e x)) (floor B e minProb) else ⊥

/-- `probs`, histogram.py:56-58. -/
noncomputable def probs (B : ℕ) (θ : ℕ → LogV) (b : ℕ) : ℝ := softmax B θ b

/-- `_bin_midpoints`, histogram.py:64-66. -/
noncomputable def midpoint (e : ℕ → ℝ) (b : ℕ) : ℝ := (e b + e (b + 1)) / 2

/-- `m` is a possible value of `mode`, histogram.py:75-80: the midpoint of a bin `torch.argmax` may return, i.e. a bin
of maximal *probability*. -/
def IsMode (B : ℕ) (e : ℕ → ℝ) (θ : ℕ → LogV) (m : ℝ) : Prop :=
  ∃ b < B, (∀ j < B, probs B θ j ≤ probs B θ b) ∧ m = midpoint e b

/-- The value drawn from bin `b` with the uniform number `u`, histogram.py:143-148. -/
def sampleIn (e : ℕ → ℝ) (b : ℕ) (u : ℝ) : ℝ := e b + u * (e (b + 1) - e b)

/-- The `probs` setter, histogram.py:267-276: normalise, floor at `min_prob`, store logarithms. -/
noncomputable def setProbs (B : ℕ) (minProb : ℝ) (v : ℕ → ℝ) : Option (ℕ → LogV) :=
  open Classical in
  if ∀ b < B, 0 ≤ v b then
    some fun b => logL (max (v b / max (∑ j ∈ Finset.range B, v j) minProb) minProb)
  else none

end Hist
end Verif

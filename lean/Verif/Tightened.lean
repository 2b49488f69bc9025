import Verif.TLayerInt
import Verif.ImageProps
import Verif.SklearnMain

/-!
# Statements added after mutation tests (C81, C83, C84)
-/

namespace Verif

namespace TL

/-- **C84.** `num_params` counts the weights: one per fold, pair of inputs and output (Tucker); per fold, child, input and
output (collapsed); per fold, child, input and rank, and per fold, rank and output (uncollapsed); per child, input and output
(shared, for all folds together); per fold, child and unit (mixing).  Weights of masked children are counted. -/
theorem C84_num_params (F H I O R : ℕ) :
    (∀ W, numParams (.tucker F I O W) = Fintype.card (Fin F × Fin I × Fin I × Fin O)) ∧
    (∀ mask W, numParams (.collapsed F H I O mask W) = Fintype.card (Fin F × Fin H × Fin I × Fin O)) ∧
    (∀ mask W W', numParams (.uncollapsed F H I R O mask W W') =
      Fintype.card ((Fin F × Fin H × Fin I × Fin R) ⊕ (Fin F × Fin R × Fin O))) ∧
    (∀ W, numParams (.shared F H I O W) = Fintype.card (Fin H × Fin I × Fin O)) ∧
    (∀ mask W, numParams (.mixing F H O mask W) = Fintype.card (Fin F × Fin H × Fin O)) := by
  refine ⟨fun W => ?_, fun m W => ?_, fun m W W' => ?_, fun W => ?_, fun m W => ?_⟩ <;>
    simp [numParams, mul_assoc]

end TL

namespace Image

open Verif.Circ

/-- **C83.** A number of samples that differs from the number of given images raises; the right number changes nothing. -/
theorem C83_sample_count (ev : Bool) (W : Wrap) (n : ℕ) (t : Tensor) :
    (t.shape.getD 0 0 ≠ n → sample ev W (some n) (some t) = .error .valueError) ∧
    (t.shape.getD 0 0 = n → sample ev W (some n) (some t) = sample ev W none (some t)) := by
  refine ⟨fun h => ?_, fun h => ?_⟩
  · unfold sample prepare
    simp only [if_pos h]
  · unfold sample prepare
    simp only [ne_eq, h, not_true_eq_false, if_false]

/-- **C83.** Without data, `sample` draws the requested number of images (one by default), each of them an unconditional
sample of the module. -/
theorem C83_sample_unconditional {W : Wrap} {C H D : ℕ} (s : Sized W C H D) (hp : Pixels W.module (C * H * D))
    (num : Option ℕ) : ∃ P, sample false W num none = .ok (num.getD 1, P) ∧ ∀ i,
      P i = (sampleData W.module fun _ => none).bind fun y => .ret (rowPic C H D y) := by
  obtain ⟨P, hP, h⟩ := sample_eq s hp false (t := ⟨[num.getD 1, C, H, D], fun _ => none⟩) rfl
  refine ⟨P, ?_, fun i => ?_⟩
  · rw [← hP]
    unfold sample prepare
    simp only [s.c, s.h, s.w, Int.toNat_natCast]
  · obtain ⟨row, r1, r2, r3⟩ := h i
    have : row = fun _ => none := by
      funext v
      by_cases hv : (0 : ℤ) ≤ v ∧ v < (C * H * D : ℕ)
      · exact (r2 (fun _ => none) (fun _ _ _ _ _ _ => rfl) v hv.1 hv.2)
      · exact r1 v hv
    rw [r3, this]
    simp

end Image

namespace Sk

open Verif.Circ

/-- C81: a one-dimensional array of length `n` is `n` rows of the variable 0; a two-dimensional one is rows by columns. -/
theorem C81_vector {p : Params} {e : Est} {c : Circ} (he : e.model = some c) {R : ℕ} (hR : tensorR c = some R) (hR1 : 1 ≤ R)
    (hC : 1 ≤ C c) (hc : Known p.chAgg (C c)) (hr : Known p.repAgg R) (X : Arr) :
    (∀ n, X.shape = [n] → (∀ v ∈ (scope c).query, v < 1) → ∃ l, score p e X = .ok l ∧ l.length = n ∧
      ∀ i (h : i < l.length), expL l[i] = density p c R fun v => if v = 0 then X.cell [i] else none) ∧
    (∀ n m : ℕ, X.shape = [n, m] → (∀ v ∈ (scope c).query, v < (m : ℤ)) → ∃ l, score p e X = .ok l ∧ l.length = n ∧
      ∀ i (h : i < l.length), expL l[i] = density p c R fun v => if 0 ≤ v then X.cell [i, v.toNat] else none) := by
  refine ⟨fun n hX hv => ?_, fun n m hX hv => ?_⟩
  · obtain ⟨l, h1, h2, h3⟩ := C81_score (p := p) he hR hR1 hC hc hr X (n := n) (m := 1) (by rw [hX]; rfl) (by simpa using hv)
    refine ⟨l, h1, h2, fun i h => (h3 i h).trans ?_⟩
    congr 1
    funext v
    unfold Arr.row
    rw [hX]
  · obtain ⟨l, h1, h2, h3⟩ := C81_score (p := p) he hR hR1 hC hc hr X (n := n) (m := m) (by rw [hX]; rfl) hv
    refine ⟨l, h1, h2, fun i h => (h3 i h).trans ?_⟩
    congr 1
    funext v
    unfold Arr.row
    rw [hX]

/-- C81: the third axis of a tensor of log-likelihoods is the channel, the fourth the repetition. -/
theorem C81_axes {chAgg repAgg : String} (t : Tens) :
    (∀ b f c, t.shape = [b, f, c] → 1 ≤ c → Known chAgg c → ∃ l, reduceLL chAgg repAgg t = .ok l ∧ l.length = b ∧
      ∀ i (h : i < l.length), expL l[i] = agg chAgg c fun k => ∏ j ∈ Finset.range f, expL (t.val [i, j, k])) ∧
    (∀ b f c r, t.shape = [b, f, c, r] → 1 ≤ c → 1 ≤ r → Known chAgg c → Known repAgg r →
      ∃ l, reduceLL chAgg repAgg t = .ok l ∧ l.length = b ∧ ∀ i (h : i < l.length), expL l[i] =
        agg chAgg c fun k => agg repAgg r fun q => ∏ j ∈ Finset.range f, expL (t.val [i, j, k, q])) := by
  refine ⟨fun b f c hs hc hk => ?_, fun b f c r hs hc hr hk hq => ?_⟩
  · obtain ⟨l, h1, h2, h3⟩ := reduceLL_ok (chAgg := chAgg) (repAgg := repAgg) (t := t) (B := b) (F := f) (C := c) (R := 1)
      (by rw [hs]; rfl) hc le_rfl hk (.inl rfl)
    refine ⟨l, h1, h2, fun i hi => ?_⟩
    rw [h3 i hi]
    congr 1
    funext k
    simp [agg, Tens.at4, hs]
  · obtain ⟨l, h1, h2, h3⟩ := reduceLL_ok (chAgg := chAgg) (repAgg := repAgg) (t := t) (B := b) (F := f) (C := c) (R := r)
      (by rw [hs]; rfl) hc hr hk hq
    refine ⟨l, h1, h2, fun i hi => ?_⟩
    rw [h3 i hi]
    simp [Tens.at4, hs]

end Sk

end Verif

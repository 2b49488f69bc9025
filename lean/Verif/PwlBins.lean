import Verif.PwlLeaf
import Mathlib.Tactic.NormNum
import Mathlib.Data.List.Perm.Basic

/-!
# Bins, domains and clusters of `PiecewiseLinear`: exact statements
-/

open Finset

namespace Verif
namespace Pwl

/-- **C72 (discrete range).** `Domain.discrete_range(lo, hi)` contains exactly the integers from `lo` to `hi`, both
included, each once and in increasing order. -/
theorem C72_discrete_range (lo hi : ℤ) : ∃ vs : List ℝ, Domain.discreteRange lo hi = .discrete vs ∧ vs.Pairwise (· < ·) ∧
    ∀ t : ℝ, t ∈ vs ↔ ∃ z : ℤ, lo ≤ z ∧ z ≤ hi ∧ t = z := by
  refine ⟨_, rfl, ?_, fun t => ?_⟩
  · rw [List.pairwise_map]
    refine List.pairwise_lt_range.imp ?_
    intro i j hij
    have : lo + (i : ℤ) < lo + j := by omega
    exact_mod_cast this
  · simp only [List.mem_map, List.mem_range]
    constructor
    · rintro ⟨i, hi', rfl⟩
      exact ⟨lo + i, by omega, by omega, rfl⟩
    · rintro ⟨z, h1, h2, rfl⟩
      refine ⟨(z - lo).toNat, by omega, ?_⟩
      have : lo + ((z - lo).toNat : ℤ) = z := by omega
      rw [this]

/-- **C72 (clusters).** Every row is used for exactly one channel: the columns of the channels together are a
rearrangement of the column of the data (for cluster numbers below the number of channels). -/
theorem C72_clusters {L : ℕ} (hL : 0 < L) {cl : ℕ → ℕ} {rows : List (ℕ → ℝ)} (hcl : ∀ i < rows.length, cl i < L) (f : ℕ) :
    ((List.range L).flatMap fun l => column L cl rows l f).Perm (rows.map fun x => x f) := by
  have key : ∀ (ps : List ((ℕ → ℝ) × ℕ)) (c : ((ℕ → ℝ) × ℕ) → ℕ), (∀ p ∈ ps, c p < L) →
      ((List.range L).flatMap fun l => (ps.filter fun p => decide (c p = l)).map fun p => p.1 f).Perm (ps.map fun p => p.1 f) := by
    intro ps c hc
    have hm : ((List.range L).flatMap fun l => (ps.filter fun p => decide (c p = l)).map fun p => p.1 f) =
        ((List.range L).flatMap fun l => ps.filter fun p => decide (c p = l)).map fun p => p.1 f := by
      rw [List.map_flatMap]
    rw [hm]
    clear hm
    refine List.Perm.map _ ?_
    induction ps with
    | nil => simp
    | cons p ps ih =>
      have hp := hc p List.mem_cons_self
      have ih' := ih fun q hq => hc q (List.mem_cons_of_mem _ hq)
      refine List.Perm.trans ?_ (List.Perm.cons p ih')
      have split : ∀ (m : List ℕ), m.Nodup → c p ∈ m →
          (m.flatMap fun l => (p :: ps).filter fun q => decide (c q = l)).Perm
            (p :: m.flatMap fun l => ps.filter fun q => decide (c q = l)) := by
        intro m
        induction m with
        | nil => intro _ h; simp at h
        | cons a m ihm =>
          intro hnd hmem
          obtain ⟨ha, hm⟩ := List.nodup_cons.1 hnd
          by_cases he : c p = a
          · have hnone : ∀ l ∈ m, (p :: ps).filter (fun q => decide (c q = l)) = ps.filter fun q => decide (c q = l) := by
              intro l hl
              rw [List.filter_cons_of_neg]
              simp only [decide_eq_true_eq]
              rintro rfl
              exact ha (he ▸ hl)
            rw [List.flatMap_cons, List.flatMap_cons, List.filter_cons_of_pos (by simpa using he), List.cons_append]
            refine List.Perm.cons p (List.Perm.append_left _ ?_)
            exact List.Perm.of_eq (by
              rw [List.flatMap_congr]
              exact hnone)
          · have hmem' : c p ∈ m := (List.mem_cons.1 hmem).resolve_left he
            rw [List.flatMap_cons, List.flatMap_cons, List.filter_cons_of_neg (by simpa using he)]
            exact (List.Perm.append_left _ (ihm hm hmem')).trans List.perm_middle
      exact split _ List.nodup_range (by simpa using hp)
  have hz : ∀ p ∈ rows.zipIdx, (if 1 < L then cl p.2 else 0) < L := by
    intro p hp
    have h2 := List.snd_lt_of_mem_zipIdx hp
    split_ifs
    · exact hcl _ (by simpa using h2)
    · exact hL
  have := key rows.zipIdx (fun p => if 1 < L then cl p.2 else 0) hz
  unfold column
  refine this.trans (List.Perm.of_eq ?_)
  show List.map ((fun x : ℕ → ℝ => x f) ∘ Prod.fst) rows.zipIdx = _
  rw [← List.map_map, List.zipIdx_map_fst]

/-! ## The number of bins, on two data sets where each of the two rules decides -/

theorem eight_rpow : ((8 : ℕ) : ℝ) ^ (-1 / 3 : ℝ) = 1 / 2 := by
  have : ((8 : ℕ) : ℝ) = (2 : ℝ) ^ (3 : ℝ) := by norm_num
  rw [this, ← Real.rpow_mul (by norm_num)]
  norm_num

theorem logb_eight : Real.logb 2 ((8 : ℕ) : ℝ) = 3 := by
  have : ((8 : ℕ) : ℝ) = (2 : ℝ) ^ (3 : ℝ) := by norm_num
  rw [this, Real.logb_rpow (by norm_num) (by norm_num)]

/-- **C72 (automatic bins, Freedman-Diaconis).** For `0,4,4,4,5,5,5,9` the width is twice the interquartile range times
`n^(-1/3)`, i.e. `2 · 1 · 1/2 = 1`, below Sturges' `9/4`: nine bins on `[0, 9]`. -/
theorem C72_auto_fd : binEdges [0, 4, 4, 4, 5, 5, 5, 9] none = .ok ((0, 9), 9) := by
  have hs : ([0, 4, 4, 4, 5, 5, 5, 9] : List ℝ).insertionSort (· ≤ ·) = [0, 4, 4, 4, 5, 5, 5, 9] := by
    simp only [List.insertionSort, List.foldr, List.orderedInsert]
    norm_num
  have hf1 : ⌊(3 / 4 * (8 - 1) : ℝ)⌋₊ = 5 := by rw [Nat.floor_eq_iff (by norm_num)]; norm_num
  have hf2 : ⌈(3 / 4 * (8 - 1) : ℝ)⌉₊ = 6 := by rw [Nat.ceil_eq_iff (by norm_num)]; norm_num
  have hf3 : ⌊(1 / 4 * (8 - 1) : ℝ)⌋₊ = 1 := by rw [Nat.floor_eq_iff (by norm_num)]; norm_num
  have hf4 : ⌈(1 / 4 * (8 - 1) : ℝ)⌉₊ = 2 := by rw [Nat.ceil_eq_iff (by norm_num)]; norm_num
  have hlen : ([0, 4, 4, 4, 5, 5, 5, 9] : List ℝ).length = 8 := rfl
  have q3 : quantile [0, 4, 4, 4, 5, 5, 5, 9] (3 / 4) = 5 := by
    unfold quantile
    simp only [hs, hlen]
    push_cast
    rw [hf1, hf2]
    simp
  have q1 : quantile [0, 4, 4, 4, 5, 5, 5, 9] (1 / 4) = 4 := by
    unfold quantile
    simp only [hs, hlen]
    push_cast
    rw [hf3, hf4]
    simp
  have hfd : fdWidth [0, 4, 4, 4, 5, 5, 5, 9] = 1 := by
    unfold fdWidth
    rw [q3, q1, hlen, eight_rpow]
    norm_num
  have hmin : minL [0, 4, 4, 4, 5, 5, 5, 9] = 0 := by simp only [minL, List.foldr]; norm_num
  have hmax : maxL [0, 4, 4, 4, 5, 5, 5, 9] = 9 := by simp only [maxL, List.foldr]; norm_num
  have hst : sturgesWidth [0, 4, 4, 4, 5, 5, 5, 9] = 9 / 4 := by
    unfold sturgesWidth
    rw [hmin, hmax, hlen, logb_eight]
    norm_num
  have hau : autoWidth [0, 4, 4, 4, 5, 5, 5, 9] = 1 := by
    unfold autoWidth
    rw [hfd, hst, if_pos (by norm_num)]
    norm_num
  have ho : outerEdges [0, 4, 4, 4, 5, 5, 5, 9] none = .ok (0, 9) := by
    simp only [outerEdges, hmin, hmax]
    rw [if_neg (by simp), if_neg (by norm_num)]
  have hc : clip [0, 4, 4, 4, 5, 5, 5, 9] none (0, 9) = [0, 4, 4, 4, 5, 5, 5, 9] := by simp [clip]
  simp only [binEdges, ho, bind, Except.bind, hc]
  congr 2
  simp only [numBins]
  rw [if_neg (by simp), hau, if_pos (by norm_num)]
  norm_num

/-- **C72 (automatic bins, Sturges; range bounds included).** Within the range `[0, 1]` the points `0` and `1` on its
bounds count and the point `5` outside does not: the width is Sturges' `1 / (log2 2 + 1) = 1/2`, so there are two
bins. -/
theorem C72_auto_range : binEdges [0, 1, 5] (some (0, 1)) = .ok ((0, 1), 2) := by
  have hs : ([0, 1] : List ℝ).insertionSort (· ≤ ·) = [0, 1] := by
    simp only [List.insertionSort, List.foldr, List.orderedInsert]
    norm_num
  have hf1 : ⌊(3 / 4 * (2 - 1) : ℝ)⌋₊ = 0 := by rw [Nat.floor_eq_iff (by norm_num)]; norm_num
  have hf2 : ⌈(3 / 4 * (2 - 1) : ℝ)⌉₊ = 1 := by rw [Nat.ceil_eq_iff (by norm_num)]; norm_num
  have hf3 : ⌊(1 / 4 * (2 - 1) : ℝ)⌋₊ = 0 := by rw [Nat.floor_eq_iff (by norm_num)]; norm_num
  have hf4 : ⌈(1 / 4 * (2 - 1) : ℝ)⌉₊ = 1 := by rw [Nat.ceil_eq_iff (by norm_num)]; norm_num
  have hlen : ([0, 1] : List ℝ).length = 2 := rfl
  have q3 : quantile [0, 1] (3 / 4) = 3 / 4 := by
    unfold quantile
    simp only [hs, hlen]
    push_cast
    rw [hf1, hf2]
    norm_num
  have q1 : quantile [0, 1] (1 / 4) = 1 / 4 := by
    unfold quantile
    simp only [hs, hlen]
    push_cast
    rw [hf3, hf4]
    norm_num
  have hfd : fdWidth [0, 1] = ((2 : ℕ) : ℝ) ^ (-1 / 3 : ℝ) := by
    unfold fdWidth
    rw [q3, q1, hlen]
    norm_num
  have hge : (1 / 2 : ℝ) ≤ ((2 : ℕ) : ℝ) ^ (-1 / 3 : ℝ) := by
    calc (1 / 2 : ℝ) = (2 : ℝ) ^ (-1 : ℝ) := by rw [Real.rpow_neg_one]; norm_num
      _ ≤ (2 : ℝ) ^ (-1 / 3 : ℝ) := Real.rpow_le_rpow_of_exponent_le (by norm_num) (by norm_num)
      _ = _ := by norm_num
  have hst : sturgesWidth [0, 1] = 1 / 2 := by
    unfold sturgesWidth
    have hmin : minL [0, 1] = 0 := by simp only [minL, List.foldr]; norm_num
    have hmax : maxL [0, 1] = 1 := by simp only [maxL, List.foldr]; norm_num
    have h2 : Real.logb 2 ((2 : ℕ) : ℝ) = 1 := by
      push_cast
      exact Real.logb_self_eq_one (by norm_num)
    rw [hmin, hmax, hlen, h2]
    norm_num
  have hau : autoWidth [0, 1] = 1 / 2 := by
    unfold autoWidth
    rw [hfd, hst, if_pos (by linarith)]
    exact min_eq_right hge
  have hc : clip [0, 1, 5] (some (0, 1)) (0, 1) = [0, 1] := by
    unfold clip
    simp only [Option.isSome_some, if_true]
    rw [List.filter_cons_of_pos (by norm_num), List.filter_cons_of_pos (by norm_num), List.filter_cons_of_neg (by norm_num),
      List.filter_nil]
  have ho : outerEdges [0, 1, 5] (some (0, 1)) = .ok (0, 1) := by
    simp only [outerEdges]
    rw [if_neg (by norm_num), if_neg (by norm_num)]
  simp only [binEdges, ho, bind, Except.bind, hc]
  congr 2
  simp only [numBins]
  rw [if_neg (by simp), hau, if_pos (by norm_num)]
  norm_num

end Pwl
end Verif

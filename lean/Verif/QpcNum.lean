import Verif.Qpc
/-
C82, the numerical part: the log-space reductions compute the logarithm of the linear expressions, and the weights
made by the inner networks and the mixing layers are positive and normalised.
-/
namespace Verif.Qpc
open Finset

theorem exp_evalTucker {K : ℕ} (hK : 0 < K) (l r : ℕ → ℝ) (W : ℕ → ℕ → ℕ → ℝ) (o : ℕ)
    (hW : ∀ i < K, ∀ j < K, 0 < W i j o) :
    Real.exp (evalTucker K l r W o) =
      ∑ i ∈ range K, ∑ j ∈ range K, W i j o * Real.exp (l i) * Real.exp (r j) := by
  unfold evalTucker
  have hne : (range K).Nonempty := ⟨0, mem_range.2 hK⟩
  have hpos : 0 < ∑ i ∈ range K, ∑ j ∈ range K,
      Real.exp (l i - maxOf K l) * Real.exp (r j - maxOf K r) * W i j o := by
    refine sum_pos (fun i hi => sum_pos (fun j hj => ?_) hne) hne
    have := hW i (mem_range.1 hi) j (mem_range.1 hj)
    positivity
  rw [Real.exp_add, Real.exp_log hpos, sum_mul]
  refine sum_congr rfl fun i _ => ?_
  rw [sum_mul]
  refine sum_congr rfl fun j _ => ?_
  have h1 : Real.exp (l i) = Real.exp (l i - maxOf K l) * Real.exp (maxOf K l) := by rw [← Real.exp_add]; ring_nf
  have h2 : Real.exp (r j) = Real.exp (r j - maxOf K r) * Real.exp (maxOf K r) := by rw [← Real.exp_add]; ring_nf
  rw [h1, h2, Real.exp_add]
  ring

theorem exp_cpRow {K : ℕ} (hK : 0 < K) (x : ℕ → ℝ) (W : ℕ → ℕ → ℝ) (o : ℕ) (hW : ∀ k < K, 0 < W k o) :
    Real.exp (cpRow K x W o) = ∑ k ∈ range K, W k o * Real.exp (x k) := by
  unfold cpRow
  have hne : (range K).Nonempty := ⟨0, mem_range.2 hK⟩
  have hpos : 0 < ∑ k ∈ range K, W k o * Real.exp (x k - maxOf K x) := by
    refine sum_pos (fun k hk => ?_) hne
    have := hW k (mem_range.1 hk)
    positivity
  rw [Real.exp_add, Real.exp_log hpos, sum_mul]
  refine sum_congr rfl fun k _ => ?_
  rw [mul_assoc, ← Real.exp_add]
  ring_nf

theorem sum_map_range (n : ℕ) (f : ℕ → ℝ) : ((List.range n).map f).sum = ∑ i ∈ range n, f i := by
  induction n with
  | zero => simp
  | succ n ih => rw [List.range_succ, List.map_append, List.sum_append, ih, sum_range_succ]; simp

theorem exp_evalCp {K : ℕ} (hK : 0 < K) (xs : List (ℕ → ℝ)) (W : ℕ → ℕ → ℕ → ℝ) (mask : Option (List Bool)) (o : ℕ)
    (hW : ∀ h < xs.length, ∀ k < K, 0 < W h k o) :
    Real.exp (evalCp K xs W mask o) =
      ∏ h ∈ range xs.length,
        if keep mask h then ∑ k ∈ range K, W h k o * Real.exp (xs.getD h 0 k) else 1 := by
  unfold evalCp
  rw [sum_map_range, Real.exp_sum]
  refine prod_congr rfl fun h hh => ?_
  split
  · exact exp_cpRow hK _ _ _ (hW h (mem_range.1 hh))
  · simp

theorem exp_evalMix {n : ℕ} (x w : ℕ → ℝ) (mask : Option (List Bool)) (hw : ∀ h < n, 0 ≤ w h)
    (hp : ∃ h < n, keep mask h = true ∧ 0 < w h) :
    Real.exp (evalMix n x w mask) = ∑ h ∈ range n, if keep mask h then w h * Real.exp (x h) else 0 := by
  unfold evalMix
  have hpos : 0 < ∑ h ∈ range n, w h * (Real.exp (x h - maxOf n x) * if keep mask h then 1 else 0) := by
    obtain ⟨h, hh, hk, hwh⟩ := hp
    refine sum_pos' (fun i hi => ?_) ⟨h, mem_range.2 hh, ?_⟩
    · have := hw i (mem_range.1 hi)
      split <;> positivity
    · rw [hk]
      simp only [if_true]
      positivity
  rw [Real.exp_add, Real.exp_log hpos, sum_mul]
  refine sum_congr rfl fun h _ => ?_
  split
  · rw [mul_one, mul_assoc, ← Real.exp_add]
    ring_nf
  · simp

theorem maskedSoftmax_nonneg (n : ℕ) (l : ℕ → ℝ) (mask : Option (List Bool)) (h : ℕ) :
    0 ≤ maskedSoftmax n l mask h := by
  unfold maskedSoftmax
  split
  · refine div_nonneg (Real.exp_pos _).le (sum_nonneg fun i _ => ?_)
    split <;> positivity
  · exact le_rfl

theorem maskedSoftmax_pos {n : ℕ} (l : ℕ → ℝ) (mask : Option (List Bool)) {h : ℕ} (hh : h < n)
    (hk : keep mask h = true) : 0 < maskedSoftmax n l mask h := by
  unfold maskedSoftmax
  rw [if_pos hk]
  refine div_pos (Real.exp_pos _) (sum_pos' (fun i _ => by split <;> positivity) ⟨h, mem_range.2 hh, ?_⟩)
  rw [if_pos hk]
  exact Real.exp_pos _

theorem maskedSoftmax_sum {n : ℕ} (l : ℕ → ℝ) (mask : Option (List Bool)) {h : ℕ} (hh : h < n)
    (hk : keep mask h = true) :
    (∑ h ∈ range n, if keep mask h then maskedSoftmax n l mask h else 0) = 1 := by
  have hD : 0 < ∑ h' ∈ range n, if keep mask h' then Real.exp (l h') else 0 := by
    refine sum_pos' (fun i _ => by split <;> positivity) ⟨h, mem_range.2 hh, ?_⟩
    rw [if_pos hk]
    exact Real.exp_pos _
  have : ∀ h, (if keep mask h then maskedSoftmax n l mask h else 0) =
      (if keep mask h then Real.exp (l h) else 0) / ∑ h' ∈ range n, if keep mask h' then Real.exp (l h') else 0 := by
    intro h
    unfold maskedSoftmax
    split <;> simp
  simp only [this]
  rw [← sum_div, div_self hD.ne']

/-! ### Inner networks -/

theorem eps_pos : 0 < eps := Real.sqrt_pos.2 (by positivity)

theorem softplus_nonneg (t : ℝ) : 0 ≤ softplus t :=
  Real.log_nonneg (by have := Real.exp_pos t; linarith)

theorem logits_pos (ρ : Rule) (net : ℕ → List ℝ → ℝ) (g : Group) (f : ℕ) (idx : List ℕ) :
    0 < logits ρ net g f idx := add_pos_of_nonneg_of_pos (softplus_nonneg _) eps_pos

/-- The weights of a rule are positive: then every parameter below is positive. -/
def Rule.Pos (ρ : Rule) : Prop := ∀ k < ρ.K, 0 < ρ.wt k

theorem tuckerW_ok {ρ : Rule} (hρ : ρ.Pos) (hK : 0 < ρ.K) (θ : Params) (p : ℕ) (l : PLayer) (ht : l.tucker = true)
    (f o : ℕ) :
    (∀ i < ρ.K, ∀ j < ρ.K, 0 < tuckerW ρ θ p l f i j o) ∧
      ∑ i ∈ range ρ.K, ∑ j ∈ range ρ.K, tuckerW ρ θ p l f i j o = 1 := by
  obtain ⟨a, ha⟩ : ∃ a : ℕ → ℕ → ℝ, a = fun i j =>
      logits ρ (θ.net p) (groupArgs l.tucker l.folds l.arity l.out) f (if l.out = 1 then [i, j] else [i, j, o]) :=
    ⟨_, rfl⟩
  have hap : ∀ i j, 0 < a i j := fun i j => by rw [ha]; exact logits_pos _ _ _ _ _
  have key : ∀ i j, tuckerW ρ θ p l f i j o =
      a i j / (∑ i ∈ range ρ.K, ∑ j ∈ range ρ.K, a i j * (ρ.wt i * ρ.wt j)) * (ρ.wt i * ρ.wt j) := by
    intro i j
    rw [ha]
    unfold tuckerW innerNet
    by_cases h1 : l.out = 1 <;> simp [groupArgs, ht, h1, sumDims, wmesh]
  have hne : (range ρ.K).Nonempty := ⟨0, mem_range.2 hK⟩
  have hD : 0 < ∑ i ∈ range ρ.K, ∑ j ∈ range ρ.K, a i j * (ρ.wt i * ρ.wt j) := by
    refine sum_pos (fun i hi => sum_pos (fun j hj => ?_) hne) hne
    have := hρ i (mem_range.1 hi)
    have := hρ j (mem_range.1 hj)
    have := hap i j
    positivity
  constructor
  · intro i hi j hj
    rw [key]
    have := hρ i hi
    have := hρ j hj
    have := hap i j
    positivity
  · simp only [key, div_mul_eq_mul_div, ← sum_div]
    exact div_self hD.ne'

theorem cpW_ok {ρ : Rule} (hρ : ρ.Pos) (hK : 0 < ρ.K) (θ : Params) (p : ℕ) (l : PLayer) (ht : l.tucker = false)
    (f h o : ℕ) :
    (∀ k < ρ.K, 0 < cpW ρ θ p l f h k o) ∧ ∑ k ∈ range ρ.K, cpW ρ θ p l f h k o = 1 := by
  obtain ⟨a, ha⟩ : ∃ a : ℕ → ℝ, a = fun k =>
      logits ρ (θ.net p) (groupArgs l.tucker l.folds l.arity l.out) (f * l.arity + h)
        (if l.out = 1 then [k] else [k, o]) := ⟨_, rfl⟩
  have hap : ∀ i, 0 < a i := fun i => by rw [ha]; exact logits_pos _ _ _ _ _
  have key : ∀ k, cpW ρ θ p l f h k o = a k / (∑ k ∈ range ρ.K, a k * ρ.wt k) * ρ.wt k := by
    intro k
    rw [ha]
    unfold cpW innerNet
    by_cases h1 : l.out = 1 <;> simp [groupArgs, ht, h1, sumDims, wmesh]
  have hne : (range ρ.K).Nonempty := ⟨0, mem_range.2 hK⟩
  have hD : 0 < ∑ k ∈ range ρ.K, a k * ρ.wt k := by
    refine sum_pos (fun k hk => ?_) hne
    have := hρ k (mem_range.1 hk)
    have := hap k
    positivity
  constructor
  · intro k hk
    rw [key]
    have := hρ k hk
    have := hap k
    positivity
  · simp only [key, div_mul_eq_mul_div, ← sum_div]
    exact div_self hD.ne'

end Verif.Qpc

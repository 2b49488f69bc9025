import Verif.IpMemo3

/-!
# C87: an instance, and where a cache does change the result
-/

namespace Verif
namespace IpMemo
namespace Wit

open Inner

/-- A one-cell Bernoulli module. -/
def coin (id : ℕ) (p : ℝ) : T := .leaf id [0] 1 1 fun _ _ _ => .bern p

/-- A two-channel leaf and two sums over it. -/
noncomputable def two : T := .leaf 0 [0] 2 1 fun _ c _ => .bern (if c = 0 then 1 / 4 else 3 / 4)
noncomputable def s1 : T := .sum 1 two 1 1 fun _ i _ _ => if i = 0 then 1 else -2
noncomputable def s2 : T := .sum 2 two 1 1 fun _ _ _ _ => 1 / 2

noncomputable def obj : ℕ → T
  | 0 => two
  | 1 => s1
  | _ => s2

/-- The hypotheses of C87 are met by three calls on two sums that share their input; the second is answered from the
reversed pair. -/
theorem C87_example : (∀ c ∈ [Call.pair s1 s2, .pair s2 s1, .self s1], c.Fine (fun _ => true) ∅ obj) ∧
    List.Forall₂ Call.Right [Call.pair s1 s2, .pair s2 s1, .self s1]
      (runAll [Call.pair s1 s2, .pair s2 s1, .self s1] Memo.empty).1 := by
  have o1 : On obj s1 := ⟨rfl, rfl⟩
  have o2 : On obj s2 := ⟨rfl, rfl⟩
  have g1 : Good (fun _ => true) ∅ s1.ic := ⟨by simp [s1, two, T.ic, Wf, IC.R], by simp [s1, two, T.ic, Sorted],
    fun f _ c _ r _ => by simp [Admissible]⟩
  have g2 : Good (fun _ => true) ∅ s2.ic := ⟨by simp [s2, two, T.ic, Wf, IC.R], by simp [s2, two, T.ic, Sorted],
    fun f _ c _ r _ => by simp [Admissible]⟩
  have h : ∀ c ∈ [Call.pair s1 s2, .pair s2 s1, .self s1], c.Fine (fun _ => true) ∅ obj := by
    intro c hc
    simp only [List.mem_cons, List.not_mem_nil, or_false] at hc
    rcases hc with rfl | rfl | rfl
    · exact ⟨o1, o2, g1, g2⟩
    · exact ⟨o2, o1, g2, g1⟩
    · exact ⟨o1, g1⟩
  exact ⟨h, C87_memo _ (S := ∅) (by simp [Separated]) h⟩

/-- The hypotheses of C87 for triple products are met: the second call finds the reversed triple of the first, the
third needs the same triple twice. -/
theorem C87_triple_example :
    (∀ c ∈ [Call3.tensor s1 s2 s1, .scalar s2 s1 s1, .logZ s2 [s1, s1]], c.Fine (fun _ => true) obj) ∧
    List.Forall₂ Call3.Right [Call3.tensor s1 s2 s1, .scalar s2 s1 s1, .logZ s2 [s1, s1]]
      (runAll3 [Call3.tensor s1 s2 s1, .scalar s2 s1 s1, .logZ s2 [s1, s1]] Memo3.empty).1 := by
  have f1 : Fine3 (fun _ => true) obj s1 := ⟨⟨rfl, rfl⟩, by simp [s1, two, T.ic, Wf, IC.R], by simp [s1, two, T.ic, Sorted],
    fun f _ c _ r _ => by simp [Admissible3, Admissible]⟩
  have f2 : Fine3 (fun _ => true) obj s2 := ⟨⟨rfl, rfl⟩, by simp [s2, two, T.ic, Wf, IC.R], by simp [s2, two, T.ic, Sorted],
    fun f _ c _ r _ => by simp [Admissible3, Admissible]⟩
  have h : ∀ c ∈ [Call3.tensor s1 s2 s1, .scalar s2 s1 s1, .logZ s2 [s1, s1]], c.Fine (fun _ => true) obj := by
    intro c hc
    simp only [List.mem_cons, List.not_mem_nil, or_false] at hc
    rcases hc with rfl | rfl | rfl
    · exact ⟨f1, f2, f1⟩
    · exact ⟨f2, f1, f1⟩
    · exact ⟨f2, by simpa using f1⟩
  exact ⟨h, C87_triple_memo _ h⟩

/-- `ip` of two one-cell leaves. -/
theorem leaf_ip {x y : LeafPar} {z : ℝ} (h : ipPar x y = .ok z) :
    ∃ k, ip (.leaf [0] 1 1 fun _ _ _ => x) (.leaf [0] 1 1 fun _ _ _ => y) = .ok k ∧ k 0 0 0 0 = z := by
  simp only [ip]
  rw [if_neg (by decide), if_neg (by decide), if_neg (by decide)]
  rw [seqFin_of (k := fun _ _ _ _ => z)]
  · exact ⟨_, rfl, by simp⟩
  · intro f
    apply seqFin_of; intro i
    apply seqFin_of; intro j
    apply seqFin_of; intro r
    exact h

/-- **C87 fails when a parameter changes, or when an identity is reused.** The cache knows modules only by their
`id()`: after a call on a module with Bernoulli parameter 1, a call on the same module with its parameter changed to
1/2, or on another module that Python placed at the identity of a deleted one, returns 1; without the cache it returns
1/2. -/
theorem C87_stale_is_wrong : ∃ (k k' : Mat),
    (runAll [.pair (coin 0 1) (coin 0 1), .pair (coin 0 (1 / 2)) (coin 0 (1 / 2))] Memo.empty).1 =
      [.mat (.ok k), .mat (.ok k)] ∧
    ip (coin 0 (1 / 2)).ic (coin 0 (1 / 2)).ic = .ok k' ∧ k 0 0 0 0 = 1 ∧ k' 0 0 0 0 = 1 / 2 := by
  obtain ⟨k, hk, v⟩ := leaf_ip (x := .bern 1) (y := .bern 1) rfl
  obtain ⟨k', hk', v'⟩ := leaf_ip (x := .bern (1 / 2)) (y := .bern (1 / 2)) rfl
  refine ⟨k, k', ?_, hk', by rw [v]; norm_num, by rw [v']; norm_num⟩
  simp only [runAll, Call.run, coin, ipM, cached, Memo.empty, hk, Memo.set, and_self, if_true]

/-- The cache even answers calls that raise without it: the second module has another scope. -/
theorem C87_stale_no_error : ∃ k : Mat,
    (runAll [.pair (coin 0 1) (coin 1 1), .pair (coin 0 1) (.leaf 1 [1] 1 1 fun _ _ _ => .bern 1)] Memo.empty).1 =
      [.mat (.ok k), .mat (.ok k)] ∧
    ip (coin 0 1).ic (T.leaf 1 [1] 1 1 fun _ _ _ => .bern 1).ic = .error .shapeError := by
  obtain ⟨k, hk, v⟩ := leaf_ip (x := .bern 1) (y := .bern 1) rfl
  refine ⟨k, ?_, ?_⟩
  · simp only [runAll, Call.run, coin, ipM, cached, Memo.empty, hk, Memo.set, and_self, if_true]
  · simp [coin, T.ic, ip]

/-- A one-cell Laplace module. -/
def lap (id : ℕ) (loc scale : ℝ) : T := .leaf id [0] 1 1 fun _ _ _ => .laplace loc scale

/-- The scale offset: `torch.isclose(1, 1 + δ)` but not `torch.isclose(1 + δ, 1)`. -/
noncomputable def δ : ℝ := 1001005 / 10 ^ 11

/-- **C87 fails for Laplace leaves whose scales are just about close.** `torch.isclose` is not symmetric, so the two
orders can take different branches of the closed form: after a call on `(b, a)`, the call on `(a, b)` with the same
cache returns a value different from the one it returns without a cache. -/
theorem C87_laplace_is_wrong : ∃ k1 k2 : Mat,
    (runAll [.pair (lap 1 0 (1 + δ)) (lap 0 4 1), .pair (lap 0 4 1) (lap 1 0 (1 + δ))] Memo.empty).1 =
      [.mat (.ok k1), .mat (.ok (swap k1))] ∧
    ip (lap 0 4 1).ic (lap 1 0 (1 + δ)).ic = .ok k2 ∧ k2 0 0 0 0 < swap k1 0 0 0 0 := by
  have hδ : (0 : ℝ) < δ := by unfold δ; norm_num
  have hδ1 : δ < 1 := by unfold δ; norm_num
  have c1 : clampMin 1 = 1 := by unfold clampMin; norm_num
  have c2 : clampMin (1 + δ) = 1 + δ := by
    unfold clampMin
    refine max_eq_left ?_
    have : (10 : ℝ) ^ (-30 : ℤ) ≤ 1 := by norm_num
    linarith
  have i1 : isClose 1 (1 + δ) := by
    unfold isClose δ
    rw [abs_le, abs_of_pos] <;> norm_num
  have i2 : ¬isClose (1 + δ) 1 := by
    unfold isClose
    rw [show 1 + δ - 1 = δ by ring, abs_of_pos hδ]
    unfold δ
    norm_num
  obtain ⟨k1, hk1, v1⟩ := leaf_ip (x := .laplace 0 (1 + δ)) (y := .laplace 4 1) rfl
  obtain ⟨k2, hk2, v2⟩ := leaf_ip (x := .laplace 4 1) (y := .laplace 0 (1 + δ)) rfl
  refine ⟨k1, k2, ?_, hk2, ?_⟩
  · simp only [runAll, Call.run, lap, ipM, cached, Memo.empty, hk1, Memo.set]
    simp
  · simp only [c1, c2] at v1 v2
    rw [if_neg (by rw [c1, c2]; exact i2)] at v1
    rw [if_pos (by rw [c1, c2]; exact i1)] at v2
    unfold swap
    rw [v1, v2]
    have a1 : |(0 : ℝ) - 4| = 4 := by norm_num
    have a2 : |(4 : ℝ) - 0| = 4 := by norm_num
    rw [a1, a2]
    have hu : (0 : ℝ) ≤ 4 * δ / (1 + δ) := by positivity
    have hq := Real.quadratic_le_exp_of_nonneg hu
    have he : Real.exp (-4 / (1 + δ)) = Real.exp (-4 / 1) * Real.exp (4 * δ / (1 + δ)) := by
      rw [← Real.exp_add]
      congr 1
      field_simp
      ring
    have hlt : 4 * δ < Real.exp (4 * δ / (1 + δ)) - 1 := by
      refine lt_of_lt_of_le ?_ (sub_le_sub_right hq 1)
      rw [← sub_pos]
      have : 1 + 4 * δ / (1 + δ) + (4 * δ / (1 + δ)) ^ 2 / 2 - 1 - 4 * δ = 4 * δ ^ 2 * (1 - δ) / (1 + δ) ^ 2 := by
        field_simp
        ring
      rw [this]
      have : 0 < 1 - δ := by linarith
      positivity
    have hE := Real.exp_pos (-4 / 1 : ℝ)
    have hk : Real.exp (-4 / 1) * 4 / (4 * 1 ^ 2) < (Real.exp (-4 / (1 + δ)) - Real.exp (-4 / 1)) / (4 * (1 + δ - 1)) := by
      rw [he, show 1 + δ - 1 = δ by ring, div_lt_div_iff₀ (by norm_num) (by positivity)]
      have := mul_lt_mul_of_pos_left hlt hE
      nlinarith
    have hs : (Real.exp (-4 / 1) + Real.exp (-4 / (1 + δ))) / (4 * (1 + (1 + δ))) =
        (Real.exp (-4 / (1 + δ)) + Real.exp (-4 / 1)) / (4 * (1 + δ + 1)) := by
      rw [add_comm (Real.exp (-4 / 1)), add_comm 1 (1 + δ)]
    rw [hs]
    linarith

end Wit
end IpMemo
end Verif

import Verif.TLayer
import Mathlib.Algebra.BigOperators.Ring.Finset
/-
The log-space steps of the tensorized layers on arbitrary entries (C84).
-/
namespace Verif.TL

/-! ### Specification -/

/-- The probability a log-space entry stands for. -/
noncomputable def prob : Num → ℝ
  | some (some x) => Real.exp x
  | _ => 0

/-- The log-space entry of a real number: NaN for a negative number, `-inf` for zero. -/
noncomputable def logOf (p : ℝ) : Num :=
  open Classical in if p < 0 then none else if p = 0 then some ⊥ else some ((Real.log p : ℝ) : WithBot ℝ)

/-- The `n` entries contain no NaN and are not all `-inf`. -/
def Good (n : ℕ) (x : ℕ → Num) : Prop := (∀ k < n, x k ≠ none) ∧ ∃ k < n, x k ≠ some ⊥

/-- Child `h` of fold `f` takes part. -/
def kept (mask : Option Mask) (f h : ℕ) : Bool :=
  match mask with
  | none => true
  | some m => m.v f h

/-- The mask, if there is one, has the documented shape `(F, H)`. -/
def MaskFits (mask : Option Mask) (F H : ℕ) : Prop := ∀ m ∈ mask, m.a = F ∧ m.b = H

/-! ### Scalars -/

theorem lg_some (r : ℝ) : lg (some r) = logOf r := rfl

theorem prob_nonneg (x : Num) : 0 ≤ prob x := by
  rcases x with _ | _ | x
  · exact le_refl _
  · exact le_refl _
  · exact (Real.exp_pos x).le

theorem logOf_pos {p : ℝ} (h : 0 < p) : logOf p = some ((Real.log p : ℝ) : WithBot ℝ) := by
  unfold logOf
  rw [if_neg (not_lt.2 h.le), if_neg h.ne']

theorem logOf_zero : logOf 0 = some ⊥ := by
  unfold logOf
  rw [if_neg (lt_irrefl _), if_pos rfl]

theorem logOf_neg {p : ℝ} (h : p < 0) : logOf p = none := if_pos h

theorem prob_logOf {p : ℝ} (h : 0 ≤ p) : prob (logOf p) = p := by
  rcases h.eq_or_lt with rfl | h
  · rw [logOf_zero]; rfl
  · rw [logOf_pos h]; exact Real.exp_log h

theorem logOf_prob {x : Num} (h : x ≠ none) : logOf (prob x) = x := by
  rcases x with _ | _ | x
  · exact absurd rfl h
  · exact logOf_zero
  · show logOf (Real.exp x) = _
    rw [logOf_pos (Real.exp_pos x), Real.log_exp]
    rfl

theorem logOf_ne_none {p : ℝ} (h : 0 ≤ p) : logOf p ≠ none := by
  rcases h.eq_or_lt with rfl | h
  · rw [logOf_zero]; exact Option.some_ne_none _
  · rw [logOf_pos h]; exact Option.some_ne_none _

theorem logOf_eq_none {p : ℝ} : logOf p = none ↔ p < 0 := by
  constructor
  · intro h
    by_contra hp
    exact logOf_ne_none (not_lt.1 hp) h
  · exact logOf_neg

theorem logOf_ne_bot {p : ℝ} (h : 0 < p) : logOf p ≠ some ⊥ := by
  rw [logOf_pos h]
  intro e
  exact WithBot.coe_ne_bot (Option.some.inj e)

/-- Reading the rule for probabilities: entries `log p` are good iff one of the probabilities is positive. -/
theorem good_logOf {n : ℕ} {p : ℕ → ℝ} (hp : ∀ k < n, 0 ≤ p k) : Good n (fun k => logOf (p k)) ↔ ∃ k < n, 0 < p k := by
  constructor
  · rintro ⟨_, k, hk, h⟩
    refine ⟨k, hk, lt_of_le_of_ne (hp k hk) fun e => h ?_⟩
    dsimp only
    rw [← e, logOf_zero]
  · rintro ⟨k, hk, h⟩
    exact ⟨fun k hk => logOf_ne_none (hp k hk), k, hk, logOf_ne_bot h⟩

/-! ### The three aggregations -/

theorem vmax_none {n : ℕ} {x : ℕ → Num} (h : ∃ k < n, x k = none) : vmax n x = none := if_pos h

theorem osum_none {n : ℕ} {x : ℕ → Option ℝ} (h : ∃ k < n, x k = none) : osum n x = none := if_pos h

theorem osum_some {n : ℕ} {x : ℕ → Option ℝ} {y : ℕ → ℝ} (h : ∀ k < n, x k = some (y k)) :
    osum n x = some (∑ k ∈ Finset.range n, y k) := by
  unfold osum
  rw [if_neg (by rintro ⟨k, hk, e⟩; rw [h k hk] at e; exact absurd e (Option.some_ne_none _))]
  congr 1
  exact Finset.sum_congr rfl fun k hk => by rw [h k (Finset.mem_range.1 hk)]; rfl

theorem vmax_good {n : ℕ} {x : ℕ → Num} (h : Good n x) : ∃ M : ℝ, vmax n x = some ((M : ℝ) : WithBot ℝ) := by
  obtain ⟨h, k, hk, hb⟩ := h
  unfold vmax
  rw [if_neg (by rintro ⟨k, hk, e⟩; exact h k hk e)]
  have hne : (Finset.range n).sup (fun k => (x k).getD ⊥) ≠ ⊥ := by
    intro e
    have := Finset.sup_eq_bot_iff (f := fun k => (x k).getD ⊥) (S := Finset.range n) |>.1 e k (Finset.mem_range.2 hk)
    apply hb
    obtain ⟨v, hv⟩ := Option.ne_none_iff_exists'.1 (h k hk)
    rw [hv] at this ⊢
    exact congrArg some this
  obtain ⟨M, e⟩ := WithBot.ne_bot_iff_exists.1 hne
  exact ⟨M, by rw [← e]⟩

theorem vmax_bad {n : ℕ} {x : ℕ → Num} (h : ¬ Good n x) : vmax n x = none ∨ vmax n x = some ⊥ := by
  by_cases hn : ∃ k < n, x k = none
  · exact .inl (vmax_none hn)
  · right
    unfold vmax
    rw [if_neg hn]
    congr 1
    rw [Finset.sup_eq_bot_iff]
    intro k hk
    have hk := Finset.mem_range.1 hk
    by_contra hb
    refine h ⟨fun k hk e => hn ⟨k, hk, e⟩, k, hk, fun e => hb ?_⟩
    rw [e]
    rfl

theorem expSub_bad {m : Num} (h : m = none ∨ m = some ⊥) (x : Num) : expSub x m = none := by
  rcases h with rfl | rfl <;> rcases x with _ | _ | x <;> rfl

theorem expSub_real {x : Num} (h : x ≠ none) (M : ℝ) : expSub x (some ((M : ℝ) : WithBot ℝ)) = some (prob x * Real.exp (-M)) := by
  rcases x with _ | _ | x
  · exact absurd rfl h
  · show some (0 : ℝ) = _
    simp [prob]
  · show some (Real.exp (x - M)) = some (Real.exp x * Real.exp (-M))
    rw [← Real.exp_add, sub_eq_add_neg]

theorem lg_shift (s M : ℝ) : vadd (lg (some (s * Real.exp (-M)))) (some ((M : ℝ) : WithBot ℝ)) = logOf s := by
  rw [lg_some]
  have he := Real.exp_pos (-M)
  rcases lt_trichotomy s 0 with h | rfl | h
  · rw [logOf_neg h, logOf_neg (mul_neg_of_neg_of_pos h he)]
    rfl
  · rw [zero_mul, logOf_zero]
    rfl
  · rw [logOf_pos h, logOf_pos (mul_pos h he), Real.log_mul h.ne' he.ne', Real.log_exp]
    show some ((((Real.log s + -M : ℝ) : WithBot ℝ)) + ((M : ℝ) : WithBot ℝ)) = some ((Real.log s : ℝ) : WithBot ℝ)
    rw [← WithBot.coe_add]
    congr 2
    ring

theorem scale_some (w r : ℝ) : scale w (some r) = some (w * r) := rfl

theorem vadd_none_left (x : Num) : vadd none x = none := by cases x <;> rfl

/-- `log_func_exp` for a weighted sum, on arbitrary entries: the logarithm of the weighted sum of the probabilities, NaN if
the entries contain a NaN or are all `-inf`. -/
theorem lfe {n n' : ℕ} (x : ℕ → Num) (e : ℕ → ℕ) (he : ∀ k < n', e k < n) (hn : 0 < n') (w : ℕ → ℝ) :
    vadd (lg (osum n' fun k => scale (w k) (expSub (x (e k)) (vmax n x)))) (vmax n x) =
      open Classical in if Good n x then logOf (∑ k ∈ Finset.range n', w k * prob (x (e k))) else none := by
  by_cases h : Good n x
  · rw [if_pos h]
    obtain ⟨M, hM⟩ := vmax_good h
    rw [hM, osum_some (y := fun k => w k * (prob (x (e k)) * Real.exp (-M))) fun k hk => by
      rw [expSub_real (h.1 _ (he k hk)), scale_some]]
    have : ∑ k ∈ Finset.range n', w k * (prob (x (e k)) * Real.exp (-M)) =
        (∑ k ∈ Finset.range n', w k * prob (x (e k))) * Real.exp (-M) := by
      rw [Finset.sum_mul]
      exact Finset.sum_congr rfl fun k _ => by ring
    rw [this, lg_shift]
  · rw [if_neg h, osum_none ⟨0, hn, by rw [expSub_bad (vmax_bad h)]; rfl⟩]
    exact vadd_none_left _

/-- The same for `eval_tucker`. -/
theorem lfe2 {n m n' m' : ℕ} (x y : ℕ → Num) (e d : ℕ → ℕ) (he : ∀ k < n', e k < n) (hd : ∀ k < m', d k < m)
    (hn : 0 < n') (hm : 0 < m') (w : ℕ → ℕ → ℝ) :
    vadd (lg (osum n' fun i => osum m' fun j =>
        scale (w i j) (omul (expSub (x (e i)) (vmax n x)) (expSub (y (d j)) (vmax m y)))))
      (vadd (vmax n x) (vmax m y)) =
      open Classical in if Good n x ∧ Good m y then
        logOf (∑ i ∈ Finset.range n', ∑ j ∈ Finset.range m', w i j * (prob (x (e i)) * prob (y (d j)))) else none := by
  by_cases h : Good n x ∧ Good m y
  · rw [if_pos h]
    obtain ⟨hx, hy⟩ := h
    obtain ⟨M, hM⟩ := vmax_good hx
    obtain ⟨N, hN⟩ := vmax_good hy
    rw [hM, hN, osum_some (y := fun i => ∑ j ∈ Finset.range m',
        w i j * ((prob (x (e i)) * Real.exp (-M)) * (prob (y (d j)) * Real.exp (-N)))) fun i hi => by
      rw [osum_some fun j hj => by
        rw [expSub_real (hx.1 _ (he i hi)), expSub_real (hy.1 _ (hd j hj))]
        exact scale_some _ _]]
    have : ∑ i ∈ Finset.range n', ∑ j ∈ Finset.range m',
          w i j * ((prob (x (e i)) * Real.exp (-M)) * (prob (y (d j)) * Real.exp (-N))) =
        (∑ i ∈ Finset.range n', ∑ j ∈ Finset.range m', w i j * (prob (x (e i)) * prob (y (d j)))) * Real.exp (-(M + N)) := by
      rw [Finset.sum_mul]
      refine Finset.sum_congr rfl fun i _ => ?_
      rw [Finset.sum_mul]
      refine Finset.sum_congr rfl fun j _ => ?_
      rw [neg_add, Real.exp_add]
      ring
    rw [this]
    exact lg_shift _ (M + N)
  · rw [if_neg h]
    have : omul (expSub (x (e 0)) (vmax n x)) (expSub (y (d 0)) (vmax m y)) = none := by
      by_cases hx : Good n x
      · rw [expSub_bad (vmax_bad fun hy => h ⟨hx, hy⟩)]
        cases expSub (x (e 0)) (vmax n x) <;> rfl
      · rw [expSub_bad (vmax_bad hx)]
        rfl
    rw [osum_none ⟨0, hn, osum_none ⟨0, hm, by rw [this]; rfl⟩⟩]
    exact vadd_none_left _

theorem coe_sum_log {n : ℕ} {c : ℕ → ℝ} : ∀ (_ : ∀ h < n, 0 ≤ c h),
    (some (∑ h ∈ Finset.range n, (logOf (c h)).getD ⊥) : Num) = logOf (∏ h ∈ Finset.range n, c h) := by
  induction n with
  | zero =>
    intro _
    rw [Finset.sum_range_zero, Finset.prod_range_zero, logOf_pos one_pos, Real.log_one]
    rfl
  | succ n ih =>
    intro hc
    have ih := ih fun h hh => hc h (by omega)
    rw [Finset.sum_range_succ, Finset.prod_range_succ]
    have hP : 0 ≤ ∏ h ∈ Finset.range n, c h := Finset.prod_nonneg fun h hh => hc h (by
      have := Finset.mem_range.1 hh
      omega)
    rcases (hc n (by omega)).eq_or_lt with e | e
    · rw [← e, logOf_zero, mul_zero, logOf_zero]
      show some (_ + ⊥) = _
      rw [WithBot.add_bot]
    · rcases hP.eq_or_lt with e' | e'
      · rw [← e', logOf_zero] at ih
        rw [← e', zero_mul, logOf_zero, Option.some.inj ih, WithBot.bot_add]
      · rw [logOf_pos e'] at ih
        rw [Option.some.inj ih, logOf_pos e, logOf_pos (mul_pos e' e), Real.log_mul e'.ne' e.ne']
        rfl

/-- The sum of logarithms over the children: the logarithm of the product, NaN if a factor is negative. -/
theorem vsum_logOf (n : ℕ) (x : ℕ → Num) (c : ℕ → ℝ) (G : ℕ → Prop)
    (hx : ∀ h < n, x h = open Classical in if G h then logOf (c h) else none) :
    vsum n x = open Classical in if ∀ h < n, G h ∧ 0 ≤ c h then logOf (∏ h ∈ Finset.range n, c h) else none := by
  by_cases H : ∀ h < n, G h ∧ 0 ≤ c h
  · rw [if_pos H, ← coe_sum_log fun h hh => (H h hh).2]
    unfold vsum
    have hx' : ∀ h < n, x h = logOf (c h) := fun h hh => by rw [hx h hh, if_pos (H h hh).1]
    rw [if_neg (by
      rintro ⟨h, hh, e⟩
      rw [hx' h hh] at e
      exact logOf_ne_none (H h hh).2 e)]
    congr 1
    exact Finset.sum_congr rfl fun h hh => by rw [hx' h (Finset.mem_range.1 hh)]
  · rw [if_neg H]
    push Not at H
    obtain ⟨h, hh, H⟩ := H
    refine if_pos ⟨h, hh, ?_⟩
    rw [hx h hh]
    by_cases g : G h
    · rw [if_pos g, logOf_neg (H g)]
    · rw [if_neg g]

/-! ### Shapes -/

/-- Two sizes of a dimension fit and give size `n`: equal, or one of them is one (the operand is repeated). -/
def Dim (a b n : ℕ) : Prop := (a = b ∨ a = 1 ∨ b = 1) ∧ n = if a = 1 then b else a

theorem bc_ok {a b n : ℕ} : bc a b = .ok n ↔ Dim a b n := by
  unfold bc Dim
  split
  · next h =>
    subst h
    simp only [Except.ok.injEq, true_or, true_and, ite_self]
    exact eq_comm
  · next h =>
    split
    · next h1 =>
      simp only [Except.ok.injEq, h1, true_or, or_true, true_and]
      exact eq_comm
    · next h1 =>
      split
      · next h2 =>
        simp only [Except.ok.injEq, h2, or_true, true_and, h1]
        exact eq_comm
      · next h2 => simp only [reduceCtorEq, h, h1, h2, or_self, false_and]

theorem bc_self (a : ℕ) : bc a a = .ok a := if_pos rfl

theorem bc_error {a b : ℕ} (h : ∀ n, ¬ Dim a b n) : bc a b = .error .runtimeError := by
  cases e : bc a b with
  | ok n => exact absurd (bc_ok.1 e) (h n)
  | error e' =>
    unfold bc at e
    split at e
    · exact absurd e (by simp)
    · split at e
      · exact absurd e (by simp)
      · split at e
        · exact absurd e (by simp)
        · exact e.symm

theorem bc_cases (a b : ℕ) : (∃ n, bc a b = .ok n ∧ Dim a b n) ∨ bc a b = .error .runtimeError ∧ ∀ n, ¬ Dim a b n := by
  by_cases h : ∃ n, Dim a b n
  · obtain ⟨n, h⟩ := h
    exact .inl ⟨n, bc_ok.2 h, h⟩
  · push Not at h
    exact .inr ⟨bc_error h, h⟩

theorem at1_lt {n i : ℕ} (h : i < n) : at1 n i = i := by
  unfold at1
  split
  · omega
  · rfl

/-- An index below the joint size reads an existing entry of either operand. -/
theorem at1_lt_right {a b n i : ℕ} (h : Dim a b n) (hi : i < n) : at1 b i < b := by
  obtain ⟨h, rfl⟩ := h
  unfold at1
  split
  · omega
  · next hb => split at hi <;> omega

theorem at1_lt_left {a b n i : ℕ} (h : Dim a b n) (hi : i < n) : at1 a i < a := by
  obtain ⟨h, rfl⟩ := h
  unfold at1
  split
  · omega
  · next hb => rw [if_neg hb] at hi; exact hi

theorem dim_pos {a b n : ℕ} (h : Dim a b n) (ha : 0 < a) (hb : 0 < b) : 0 < n := by
  obtain ⟨h, rfl⟩ := h
  split <;> assumption

end Verif.TL

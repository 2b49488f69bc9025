import Verif.CmsProps

/-!
# Property C65: early stopping returns the best evaluated epoch
-/

namespace Verif.Cms

open Verif Verif.LeafFit

/-! ## Specification -/

/-- The states of training: after `k` epochs. -/
def after {S : Type} (upd : ℕ → S → S) (s0 : S) : ℕ → S
  | 0 => s0
  | k + 1 => upd k (after upd s0 k)

/-- A score as an extended real. -/
noncomputable def val : Fl → EReal
  | .fin x => (x : EReal)
  | .pinf => ⊤
  | .ninf => ⊥
  | .nan => ⊥

/-- The best of the first `t` epochs lies at least `patience` epochs back. -/
def Stop (sc : ℕ → Fl) (patience t : ℕ) : Prop :=
  0 < patience ∧ ∃ i, i + patience < t ∧ ∀ j < t, val (sc j) ≤ val (sc i)

/-! ## Proofs -/

theorem fgt_iff {a b : Fl} (ha : a ≠ .nan) (hb : b ≠ .nan) : fgt a b = true ↔ val b < val a := by
  cases a <;> cases b <;> first | exact absurd rfl ha | exact absurd rfl hb | simp [fgt, val, EReal.coe_lt_top, EReal.bot_lt_coe]

/-- `k` is the first maximum of the first `t` scores. -/
def Best (sc : ℕ → Fl) (t k : ℕ) : Prop :=
  k < t ∧ (∀ j < t, val (sc j) ≤ val (sc k)) ∧ ∀ j < k, val (sc j) < val (sc k)

theorem stop_iff {sc : ℕ → Fl} {p t k : ℕ} (hb : Best sc t k) : Stop sc p t ↔ 0 < p ∧ k + p < t := by
  constructor
  · rintro ⟨hp, i, hi, hm⟩
    refine ⟨hp, ?_⟩
    by_contra h
    exact absurd (hm k hb.1) (not_le.2 (hb.2.2 i (by omega)))
  · rintro ⟨hp, h⟩
    exact ⟨hp, k, h, hb.2.1⟩

/-- The loop from epoch `e + 1` on. -/
theorem epochs_inv {S : Type} (upd : ℕ → S → S) (eval : S → Fl) (p : ℕ) (s0 : S) (sc : ℕ → Fl)
    (hsc : ∀ k, sc k = eval (after upd s0 (k + 1))) (n : ℕ) : ∀ e k, (∀ j < e + n, sc j ≠ .nan) → Best sc e k →
      (∀ t ≤ e, ¬ Stop sc p t) →
      ∃ T k', T ≤ e + n ∧ Best sc T k' ∧ (T < e + n → Stop sc p T) ∧ (∀ t < T, ¬ Stop sc p t) ∧
        (epochs upd eval true p n e ⟨after upd s0 e, some (sc k, after upd s0 (k + 1)), e - 1 - k⟩).best =
          some (sc k', after upd s0 (k' + 1)) ∧
        (epochs upd eval true p n e ⟨after upd s0 e, some (sc k, after upd s0 (k + 1)), e - 1 - k⟩).cur = after upd s0 T := by
  induction n with
  | zero =>
    intro e k hn hb hs
    exact ⟨e, k, le_rfl, hb, fun h => absurd h (by simp), fun t ht => hs t ht.le, rfl, rfl⟩
  | succ n ih =>
    intro e k hn hb hs
    have hkn : sc k ≠ .nan := hn k (by have := hb.1; omega)
    have hen : sc e ≠ .nan := hn e (by omega)
    simp only [epochs, if_true, judge]
    rw [show eval (upd e (after upd s0 e)) = sc e from (hsc e).symm]
    by_cases hgt : fgt (sc e) (sc k) = true
    · rw [if_pos hgt]
      have hlt := (fgt_iff hen hkn).1 hgt
      have hb' : Best sc (e + 1) e := by
        refine ⟨by omega, fun j hj => ?_, fun j hj => lt_of_le_of_lt (hb.2.1 j hj) hlt⟩
        rcases Nat.lt_succ_iff_lt_or_eq.1 hj with h | rfl
        · exact (lt_of_le_of_lt (hb.2.1 j h) hlt).le
        · exact le_rfl
      have hs' : ∀ t ≤ e + 1, ¬ Stop sc p t := by
        intro t ht
        rcases Nat.le_succ_iff.1 ht with h | rfl
        · exact hs t h
        · rw [stop_iff hb']; omega
      obtain ⟨T, k', h1, h2⟩ := ih (e + 1) e (fun j hj => hn j (by omega)) hb' hs'
      refine ⟨T, k', by omega, h2.1, fun h => h2.2.1 (by omega), h2.2.2.1, ?_⟩
      have h3 := h2.2.2.2
      rw [show e + 1 - 1 - e = 0 by omega] at h3
      exact h3
    · rw [if_neg hgt]
      have hle : val (sc e) ≤ val (sc k) := not_lt.1 fun h => hgt ((fgt_iff hen hkn).2 h)
      have hb' : Best sc (e + 1) k := by
        refine ⟨by have := hb.1; omega, fun j hj => ?_, hb.2.2⟩
        rcases Nat.lt_succ_iff_lt_or_eq.1 hj with h | rfl
        · exact hb.2.1 j h
        · exact hle
      have hk := hb.1
      by_cases hst : 0 < p ∧ p ≤ e - 1 - k + 1
      · rw [show (decide (0 < p) && decide (p ≤ e - 1 - k + 1)) = true by simp [hst]]
        refine ⟨e + 1, k, by omega, hb', fun _ => (stop_iff hb').2 ⟨hst.1, by omega⟩, fun t ht => hs t (by omega), rfl, rfl⟩
      · rw [show (decide (0 < p) && decide (p ≤ e - 1 - k + 1)) = false by
          rw [Bool.eq_false_iff]; intro h; simp only [Bool.and_eq_true, decide_eq_true_eq] at h; exact hst h]
        have hs' : ∀ t ≤ e + 1, ¬ Stop sc p t := by
          intro t ht
          rcases Nat.le_succ_iff.1 ht with h | rfl
          · exact hs t h
          · rw [stop_iff hb']; omega
        obtain ⟨T, k', h1, h2⟩ := ih (e + 1) k (fun j hj => hn j (by omega)) hb' hs'
        refine ⟨T, k', by omega, h2.1, fun h => h2.2.1 (by omega), h2.2.2.1, ?_⟩
        have h3 := h2.2.2.2
        rw [show e + 1 - 1 - k = e - 1 - k + 1 by omega] at h3
        exact h3

/-- **C65, early stopping.** If scores are computed and none is NaN, training runs for `T` epochs, where `T` is the first
epoch count at which the best score lies `patience` epochs back (the budget `n` if there is none), and returns the state
after the first of these epochs whose score is maximal among them.  The initial state is never a candidate. -/
theorem C65_early_stopping {S : Type} (upd : ℕ → S → S) (eval : S → Fl) (patience n : ℕ) (s0 : S) (hn : 1 ≤ n)
    (hnan : ∀ k < n, eval (after upd s0 (k + 1)) ≠ .nan) :
    ∃ T k, k < T ∧ T ≤ n ∧
      (epochs upd eval true patience n 0 ⟨s0, none, 0⟩).cur = after upd s0 T ∧
      select upd eval true patience n s0 = after upd s0 (k + 1) ∧
      (∀ j < T, val (eval (after upd s0 (j + 1))) ≤ val (eval (after upd s0 (k + 1)))) ∧
      (∀ j < k, val (eval (after upd s0 (j + 1))) < val (eval (after upd s0 (k + 1)))) ∧
      (T < n → Stop (fun k => eval (after upd s0 (k + 1))) patience T) ∧
      ∀ t < T, ¬ Stop (fun k => eval (after upd s0 (k + 1))) patience t := by
  obtain ⟨m, rfl⟩ : ∃ m, n = m + 1 := ⟨n - 1, by omega⟩
  set sc : ℕ → Fl := fun k => eval (after upd s0 (k + 1)) with hsc
  have hb : Best sc 1 0 := ⟨Nat.zero_lt_one, fun j hj => by rw [Nat.lt_one_iff.1 hj], fun j hj => absurd hj (by omega)⟩
  obtain ⟨T, k, h1, h2, h3, h4, h5, h6⟩ := epochs_inv upd eval patience s0 sc (fun _ => rfl) m 1 0
    (fun j hj => hnan j (by omega)) hb (by
      intro t ht h
      obtain ⟨hp, i, hi, _⟩ := h
      omega)
  have e : epochs upd eval true patience (m + 1) 0 ⟨s0, none, 0⟩ =
      epochs upd eval true patience m 1 ⟨after upd s0 1, some (sc 0, after upd s0 (0 + 1)), 1 - 1 - 0⟩ := rfl
  refine ⟨T, k, h2.1, by omega, by rw [e]; exact h6, ?_, h2.2.1, h2.2.2, fun h => h3 (by omega), h4⟩
  unfold select
  simp only [e, h5]

/-- **C65, no evaluation.** Without validation data and patience the last state is returned. -/
theorem C65_no_evaluation {S : Type} (upd : ℕ → S → S) (eval : S → Fl) (patience n : ℕ) (s0 : S) :
    select upd eval false patience n s0 = after upd s0 n := by
  have key : ∀ n e, epochs upd eval false patience n e ⟨after upd s0 e, none, 0⟩ = ⟨after upd s0 (e + n), none, 0⟩ := by
    intro n
    induction n with
    | zero => intro e; rfl
    | succ n ih =>
      intro e
      simp only [epochs, Bool.false_eq_true, if_false]
      rw [show e + (n + 1) = e + 1 + n by omega, ← ih (e + 1)]
      rfl
  unfold select
  have := key n 0
  rw [Nat.zero_add] at this
  simp only [show (⟨s0, none, 0⟩ : Sel S) = ⟨after upd s0 0, none, 0⟩ from rfl, this]

/-- **C65, zero epochs.** -/
theorem C65_no_epochs {S : Type} (upd : ℕ → S → S) (eval : S → Fl) (check : Bool) (patience : ℕ) (s0 : S) :
    select upd eval check patience 0 s0 = s0 := rfl

/-- **C65 needs scores that are numbers.** If the first score is NaN, the state after the first epoch is returned, however
good the later ones are, and with `patience > 0` training ends after `patience + 1` epochs. -/
theorem C65_first_nan {S : Type} (upd : ℕ → S → S) (eval : S → Fl) (patience n : ℕ) (s0 : S) (hn : 1 ≤ n)
    (hnan : eval (after upd s0 1) = .nan) :
    select upd eval true patience n s0 = after upd s0 1 ∧
      (epochs upd eval true patience n 0 ⟨s0, none, 0⟩).cur =
        after upd s0 (if 0 < patience then min n (patience + 1) else n) := by
  obtain ⟨m, rfl⟩ : ∃ m, n = m + 1 := ⟨n - 1, by omega⟩
  have hf : ∀ a, fgt a Fl.nan = false := by intro a; cases a <;> rfl
  have key : ∀ m e b, b < patience ∨ patience = 0 → (epochs upd eval true patience m e ⟨after upd s0 e, some (.nan, after upd s0 1), b⟩).best =
      some (.nan, after upd s0 1) ∧ (epochs upd eval true patience m e ⟨after upd s0 e, some (.nan, after upd s0 1), b⟩).cur =
        after upd s0 (if 0 < patience then e + min m (patience - b) else e + m) := by
    intro m
    induction m with
    | zero => intro e b _; constructor <;> simp [epochs]
    | succ m ih =>
      intro e b hb
      simp only [epochs, if_true, judge, hf, Bool.false_eq_true, if_false]
      by_cases hst : 0 < patience ∧ patience ≤ b + 1
      · rw [show (decide (0 < patience) && decide (patience ≤ b + 1)) = true by simp [hst]]
        refine ⟨rfl, ?_⟩
        rw [if_pos hst.1, show min (m + 1) (patience - b) = 1 by omega]
        rfl
      · rw [show (decide (0 < patience) && decide (patience ≤ b + 1)) = false by
          rw [Bool.eq_false_iff]; intro h; simp only [Bool.and_eq_true, decide_eq_true_eq] at h; exact hst h]
        obtain ⟨h1, h2⟩ := ih (e + 1) (b + 1) (by omega)
        refine ⟨h1, h2.trans ?_⟩
        congr 1
        split <;> omega
  have e : epochs upd eval true patience (m + 1) 0 ⟨s0, none, 0⟩ =
      epochs upd eval true patience m 1 ⟨after upd s0 1, some (.nan, after upd s0 1), 0⟩ := by
    simp only [epochs, if_true, judge]
    rw [show eval (upd 0 s0) = .nan from hnan]
    rfl
  obtain ⟨h1, h2⟩ := key m 1 0 (by omega)
  constructor
  · unfold select
    simp only [e, h1]
  · rw [e, h2]
    congr 1
    split <;> omega

/-! ### Witnesses -/

/-- Scores 1, 3, 2, 2, 9 with patience 2: the loop stops after four epochs and returns the state after the second. -/
example : select (fun e (_ : ℕ) => e + 1) (fun s => .fin (([0, 1, 3, 2, 2, 9] : List ℝ).getD s 0)) true 2 5 0 = 2 := by
  norm_num [select, epochs, judge, fgt]

end Verif.Cms

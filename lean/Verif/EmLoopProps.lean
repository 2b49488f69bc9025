import Verif.EmLoop
import Mathlib.Algebra.BigOperators.Group.Finset.Basic
import Mathlib.Data.Real.Basic
import Mathlib.Algebra.Order.Floor.Defs
/-
C29: the EM driver terminates and reports the history it ran.
-/
namespace Verif.EmLoop
variable {S F E : Type}

/-- Specification: `Traj m s i t` - the parameters after `i` successful steps from `s` are `t`. -/
inductive Traj (m : Em S F E) (s : S) : Nat → S → Prop
  | zero : Traj m s 0 s
  | succ {i t t'} : Traj m s i t → m.step t = .ok t' → Traj m s (i + 1) t'

/-- The value iteration `i` is compared with: `-inf` at first, then the previous average. -/
def prevOf (negInf : F) (h : List F) : Nat → Option F
  | 0 => some negInf
  | i + 1 => h[i]?

theorem loop_spec (m : Em S F E) (s₀ : S) : ∀ (n : Nat) (prev : F) (s : S) (hist : List F)
    (h : List F) (s' : S),
    loop m n prev s hist = .ok (h, s') →
    Traj m s₀ hist.length s →
    (∀ i a, hist.reverse[i]? = some a → ∃ t, Traj m s₀ i t ∧ a = m.avg t) →
    (∀ i a p, i < hist.length → hist.reverse[i]? = some a → prevOf m.negInf hist.reverse i = some p →
      m.le a p = false) →
    prevOf m.negInf hist.reverse hist.length = some prev →
    hist.length ≤ h.length ∧ h.length ≤ hist.length + n ∧ Traj m s₀ h.length s' ∧
    (∀ i a, h[i]? = some a → ∃ t, Traj m s₀ i t ∧ a = m.avg t) ∧
    (∀ i a p, i + 1 < h.length → h[i]? = some a → prevOf m.negInf h i = some p → m.le a p = false) ∧
    (h.length < hist.length + n → ∃ i a p, i + 1 = h.length ∧ h[i]? = some a ∧
      prevOf m.negInf h i = some p ∧ m.le a p = true) := by
  intro n
  induction n with
  | zero =>
    intro prev s hist h s' hl ht hv hc hp
    simp only [loop, Except.ok.injEq, Prod.mk.injEq] at hl
    obtain ⟨rfl, rfl⟩ := hl
    refine ⟨by simp, by simp, by simpa using ht, hv, ?_, by simp⟩
    intro i a p hi
    simp only [List.length_reverse] at hi
    exact hc i a p (by omega)
  | succ n ih =>
    intro prev s hist h s' hl ht hv hc hp
    have hv' : ∀ i a, (m.avg s :: hist).reverse[i]? = some a → ∃ t, Traj m s₀ i t ∧ a = m.avg t := by
      intro i a hi
      rw [List.reverse_cons, List.getElem?_append] at hi
      split at hi
      · exact hv i a hi
      · rename_i hlt
        simp only [List.length_reverse, not_lt] at hlt hi
        have : i = hist.length := by
          by_contra hne
          have : 1 ≤ i - hist.length := by omega
          rw [List.getElem?_eq_none (by simpa using this)] at hi
          simp at hi
        subst this
        simp only [Nat.sub_self, List.getElem?_cons_zero, Option.some.injEq] at hi
        exact ⟨s, ht, hi.symm⟩
    have hprev : ∀ i, i ≤ hist.length →
        prevOf m.negInf (m.avg s :: hist).reverse i = prevOf m.negInf hist.reverse i := by
      intro i hi
      cases i with
      | zero => rfl
      | succ i =>
        simp only [prevOf, List.reverse_cons]
        rw [List.getElem?_append_left (by simp; omega)]
    have hget : ∀ i, i < hist.length → (m.avg s :: hist).reverse[i]? = hist.reverse[i]? := by
      intro i hi
      rw [List.reverse_cons, List.getElem?_append_left (by simpa using hi)]
    have hlast : (m.avg s :: hist).reverse[hist.length]? = some (m.avg s) := by
      rw [List.reverse_cons, List.getElem?_append_right (by simp)]
      simp
    rw [loop] at hl
    split at hl
    · simp at hl
    · rename_i s1 hs1
      split at hl
      · rename_i hle
        simp only [Except.ok.injEq, Prod.mk.injEq] at hl
        obtain ⟨rfl, rfl⟩ := hl
        refine ⟨by simp, by simp, ?_, hv', ?_, ?_⟩
        · simpa using Traj.succ ht hs1
        · intro i a p hi ha hpp
          have hi' : i < hist.length := by simpa using hi
          rw [hget i hi'] at ha
          rw [hprev i hi'.le] at hpp
          exact hc i a p hi' ha hpp
        · intro _
          exact ⟨hist.length, m.avg s, prev, by simp, hlast, by rw [hprev _ le_rfl, hp], hle⟩
      · rename_i hle
        have := ih (m.avg s) s1 (m.avg s :: hist) h s' hl (by simpa using Traj.succ ht hs1) hv'
          (by
            intro i a p hi ha hpp
            have hi' : i ≤ hist.length := by simp at hi; omega
            rcases Nat.lt_or_ge i hist.length with hlt | hge
            · rw [hget i hlt] at ha
              rw [hprev i hi'] at hpp
              exact hc i a p hlt ha hpp
            · have : i = hist.length := by omega
              subst this
              rw [hlast] at ha
              rw [hprev _ le_rfl, hp] at hpp
              simp only [Option.some.injEq] at ha hpp
              subst ha hpp
              simpa using hle)
          (by simp [prevOf])
        obtain ⟨h1, h2, h3, h4, h5, h6⟩ := this
        simp only [List.length_cons] at h1 h2 h6
        exact ⟨by omega, by omega, h3, h4, h5, fun hlt => h6 (by omega)⟩

/-- **C29.** If `expectation_maximization` returns a history `h`, it performed exactly `h.length`
steps (≥ 1, at most `max_steps`), entry `i` is the average log-likelihood before step `i+1`, no
entry but the last failed to improve on its predecessor (`-inf` for the first), and if fewer than
`max_steps` iterations were made then the last one did not improve. -/
theorem C29_history (m : Em S F E) (maxSteps : Int) (s₀ : S) (h : List F) (s' : S)
    (hr : em m maxSteps s₀ = .ok (h, s')) :
    1 ≤ h.length ∧ h.length ≤ maxIters maxSteps ∧
    Traj m s₀ h.length s' ∧
    (∀ i a, h[i]? = some a → ∃ t, Traj m s₀ i t ∧ a = m.avg t) ∧
    (∀ i a p, i + 1 < h.length → h[i]? = some a → prevOf m.negInf h i = some p → m.le a p = false) ∧
    (h.length < maxIters maxSteps → ∃ i a p, i + 1 = h.length ∧ h[i]? = some a ∧
      prevOf m.negInf h i = some p ∧ m.le a p = true) := by
  unfold em at hr
  split at hr
  · simp at hr
  · rename_i h' s'' hl
    split at hr
    · simp at hr
    · rename_i hne
      simp only [Except.ok.injEq, Prod.mk.injEq] at hr
      obtain ⟨rfl, rfl⟩ := hr
      obtain ⟨_, h2, h3, h4, h5, h6⟩ := loop_spec m s₀ _ _ _ _ _ _ hl (by simpa using Traj.zero)
        (by simp) (by simp) (by simp [prevOf])
      simp only [List.length_nil, Nat.zero_add] at h2 h6
      refine ⟨?_, h2, h3, h4, h5, h6⟩
      cases h' with
      | nil => simp at hne
      | cons a l => simp

theorem Traj.unique {m : Em S F E} {s : S} {i : Nat} {t t' : S} (h : Traj m s i t)
    (h' : Traj m s i t') : t = t' := by
  induction h generalizing t' with
  | zero => cases h'; rfl
  | succ _ hs ih =>
    cases h' with
    | succ h2 hs2 =>
      have := ih h2
      subst this
      rw [hs] at hs2
      simpa using hs2

theorem loop_total (m : Em S F E) (hstep : ∀ s, ∃ t, m.step s = .ok t) : ∀ n prev s hist,
    ∃ r, loop m n prev s hist = .ok r := by
  intro n
  induction n with
  | zero => intro prev s hist; exact ⟨_, rfl⟩
  | succ n ih =>
    intro prev s hist
    obtain ⟨t, ht⟩ := hstep s
    rw [loop]
    simp only [ht]
    split
    · exact ⟨_, rfl⟩
    · exact ih _ _ _

/-- **C29, termination and errors.** The driver is a total function; with steps that do not raise it
raises exactly when no iteration is allowed (`max_steps = 0` or `< -1`, `torch.stack([])`). -/
theorem C29_raises_iff (m : Em S F E) (hstep : ∀ s, ∃ t, m.step s = .ok t) (maxSteps : Int) (s : S) :
    (∃ e, em m maxSteps s = .error e) ↔ maxSteps = 0 ∨ maxSteps < -1 := by
  obtain ⟨⟨h, s'⟩, hr⟩ := loop_total m hstep (maxIters maxSteps) m.negInf s []
  unfold em
  rw [hr]
  dsimp only
  have hz : maxIters maxSteps = 0 ↔ maxSteps = 0 ∨ maxSteps < -1 := by
    unfold maxIters
    split
    · rename_i h; subst h; simp
    · omega
  rw [← hz]
  constructor
  · rintro ⟨e, he⟩
    split at he
    · rename_i hemp
      by_contra hne
      obtain ⟨k, hk⟩ : ∃ k, maxIters maxSteps = k + 1 := ⟨maxIters maxSteps - 1, by omega⟩
      rw [hk, loop] at hr
      obtain ⟨t, ht⟩ := hstep s
      simp only [ht] at hr
      split at hr
      · simp only [Except.ok.injEq, Prod.mk.injEq] at hr
        rw [← hr.1] at hemp
        simp at hemp
      · have := (loop_spec m s k (m.avg s) t [m.avg s] h s' hr (by simpa using Traj.succ .zero ht)
          (by
            intro i a hi
            cases i with
            | zero => simp at hi; exact ⟨s, .zero, hi.symm⟩
            | succ i => simp at hi)
          (by
            intro i a p hi ha hp
            have : i = 0 := by simpa using hi
            subst this
            simp at ha
            simp [prevOf] at hp
            subst ha hp
            rename_i hle
            simpa using hle)
          (by simp [prevOf])).1
        cases h with
        | nil => simp at this
        | cons a l => simp at hemp
    · simp at he
  · intro hz'
    rw [hz', loop] at hr
    simp only [List.reverse_nil, Except.ok.injEq, Prod.mk.injEq] at hr
    exact ⟨.stackEmpty, by simp [← hr.1]⟩

/-- The model is left one step beyond the last reported value: the reported history never contains
the likelihood of the parameters that `expectation_maximization` leaves behind, and the last step is
taken even if it made things worse. -/
theorem C29_final_not_reported :
    ∃ (m : Em Nat Int Unit) (h : List Int) (s' : Nat),
      em m 10 0 = .ok (h, s') ∧ m.avg s' < h.foldl max (-1000) ∧ s' = h.length :=
  ⟨⟨fun s => if s ≤ 2 then s else -(s : Int), fun s => .ok (s + 1), fun a b => decide (a ≤ b), -1000⟩,
    [0, 1, 2, -3], 4, by decide, by decide, by decide⟩

/-- Non-vacuity of `C29_history`: three improvements, then a decrease. -/
example : em (E := Unit) ⟨fun s : Nat => if s ≤ 2 then (s : Int) else -(s : Int), fun s => .ok (s + 1),
    fun a b => decide (a ≤ b), -1000⟩ (-1 : Int) 0 = .ok ([0, 1, 2, -3], 4) := by
  have : maxIters (-1) = (2 ^ 64 - 5) + 4 := by decide
  unfold em
  rw [this]
  rfl

/-! ### Mini-batches -/

/-- Specification: parameters after processing a sequence of batches. -/
def after {B : Type} (step : B → S → S) (s : S) (bs : List B) : S := bs.foldl (fun s b => step b s) s

/-- Specification: total log-likelihood of an epoch started at `s`, each batch scored with the
parameters in force when it is reached. -/
def epochTotal {B : Type} (ll : B → S → ℝ) (step : B → S → S) (bs : List B) (s : S) : ℝ :=
  ((List.range bs.length).map fun i => match bs[i]? with
    | some b => ll b (after step s (bs.take i))
    | none => 0).sum

theorem epoch_spec {B : Type} (ll : B → S → ℝ) (size : B → Nat) (step : B → S → S) :
    ∀ (bs : List B) (s : S) (acc : Option ℝ) (cnt : Nat),
      epoch ll size step bs s acc cnt = (after step s bs,
        if bs = [] then acc else some (acc.getD 0 + epochTotal ll step bs s),
        cnt + (bs.map size).sum) := by
  intro bs
  induction bs with
  | nil => intro s acc cnt; simp [epoch, after]
  | cons b bs ih =>
    intro s acc cnt
    rw [epoch, ih]
    have htot : epochTotal ll step (b :: bs) s = ll b s + epochTotal ll step bs (step b s) := by
      unfold epochTotal
      rw [List.length_cons, List.range_succ_eq_map]
      simp only [List.map_cons, List.map_map, List.sum_cons]
      congr 1
    rw [htot]
    refine Prod.ext rfl (Prod.ext ?_ ?_)
    · dsimp only
      by_cases hb : bs = []
      · subst hb; simp [epochTotal]
      · simp [hb, add_assoc]
    · simp [add_assoc]

/-- **C29, mini-batches.** `expectation_maximization_batched` reports one value per epoch; the value
of epoch `k` is the total log-likelihood of all its batches, each under the parameters in force when
the batch was reached, divided by the number of rows (NaN for an empty epoch). -/
theorem C29_batched_history {B : Type} (ll : B → S → ℝ) (size : B → Nat) (step : B → S → S) (nan : ℝ)
    (bs : List B) (n : Nat) (s : S) :
    let res := batched ll size step (fun a c => a / c) nan bs n s []
    res.1.length = n ∧ res.2 = after step s (List.replicate n bs).flatten ∧
    ∀ k < n, res.1[k]? = some (if (bs.map size).sum = 0 then nan
      else epochTotal ll step bs (after step s (List.replicate k bs).flatten) / (bs.map size).sum) := by
  intro res
  have key : ∀ (n : Nat) (s : S) (hist : List ℝ),
      batched ll size step (fun a c => a / (c : ℝ)) nan bs n s hist =
        (hist.reverse ++ (List.range n).map (fun k => if (bs.map size).sum = 0 then nan
          else epochTotal ll step bs (after step s (List.replicate k bs).flatten) / (bs.map size).sum),
         after step s (List.replicate n bs).flatten) := by
    intro n
    induction n with
    | zero => intro s hist; simp [batched, after]
    | succ n ih =>
      intro s hist
      have hafter : ∀ k, after step (after step s bs) (List.replicate k bs).flatten
          = after step s (List.replicate (k + 1) bs).flatten := by
        intro k
        simp [after, List.replicate_succ, List.foldl_append]
      rw [batched, epoch_spec]
      have hhead : (List.range (n + 1)).map (fun k => if (bs.map size).sum = 0 then nan
          else epochTotal ll step bs (after step s (List.replicate k bs).flatten) / (bs.map size).sum)
          = (if (bs.map size).sum = 0 then nan else epochTotal ll step bs s / (bs.map size).sum) ::
            (List.range n).map (fun k => if (bs.map size).sum = 0 then nan
          else epochTotal ll step bs (after step (after step s bs) (List.replicate k bs).flatten)
            / (bs.map size).sum) := by
        rw [List.range_succ_eq_map]
        simp only [List.map_cons, List.map_map]
        congr 1
        apply List.map_congr_left
        intro k _
        simp only [Function.comp, hafter]
      rw [hhead]
      by_cases hb : bs = []
      · subst hb
        simp only [if_true]
        rw [ih]
        simp [after]
      · simp only [hb, if_false]
        rw [ih, hafter]
        simp
  have hres : res = _ := key n s []
  rw [hres]
  refine ⟨by simp, rfl, ?_⟩
  intro k hk
  simp [hk]

/-- non-vacuity: two epochs over two batches -/
example : (batched (F := ℝ) (fun (b : Nat) (s : Nat) => ((b * s : Nat) : ℝ)) (fun _ => 1)
    (fun b s => s + b) (fun a c => a / c) 0 [1, 2] 2 5 []).1.length = 2 :=
  (C29_batched_history _ _ _ _ _ _ _).1

end Verif.EmLoop

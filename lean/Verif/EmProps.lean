import Verif.Em
import Verif.CircuitProps
import Mathlib.Algebra.BigOperators.Ring.Finset
import Mathlib.Algebra.BigOperators.Field
import Mathlib.Algebra.Order.BigOperators.Group.Finset
import Mathlib.Algebra.BigOperators.Intervals
import Mathlib.Tactic.Ring
import Mathlib.Tactic.FieldSimp
import Mathlib.Tactic.Linarith
import Mathlib.Tactic.NormNum

/-!
# C28: an EM step never decreases the training likelihood
-/

namespace Verif
namespace Em
open Circ Finset

/-! ### Two inequalities -/

/-- Jensen at one Sum unit: the gain in log-likelihood is at least the posterior-weighted gain of the weights and of
the inputs. -/
theorem unit_gain (n : ℕ) (w u w' u' : ℕ → ℝ) (hw : ∀ i < n, 0 ≤ w i) (hu : ∀ i < n, 0 ≤ u i)
    (hw' : ∀ i < n, 0 ≤ w' i) (hu' : ∀ i < n, 0 ≤ u' i)
    (hv : 0 < ∑ i ∈ range n, w i * u i)
    (hpos : ∀ i < n, 0 < w i * u i → 0 < w' i * u' i) :
    ∑ i ∈ range n, (w i * u i / ∑ i ∈ range n, w i * u i) *
        ((Real.log (w' i) - Real.log (w i)) + (Real.log (u' i) - Real.log (u i))) ≤
      Real.log (∑ i ∈ range n, w' i * u' i) - Real.log (∑ i ∈ range n, w i * u i) := by
  set v := ∑ i ∈ range n, w i * u i with hvd
  set v' := ∑ i ∈ range n, w' i * u' i with hvd'
  have hv' : 0 < v' := by
    obtain ⟨i, hi, hp⟩ : ∃ i ∈ range n, 0 < w i * u i := by
      by_contra hcon
      push Not at hcon
      exact absurd hv (not_lt.2 (sum_nonpos fun i hi => hcon i hi))
    exact sum_pos' (fun j hj => mul_nonneg (hw' j (mem_range.1 hj)) (hu' j (mem_range.1 hj)))
      ⟨i, hi, hpos i (mem_range.1 hi) hp⟩
  have key : ∀ i ∈ range n, (w i * u i / v) *
        ((Real.log (w' i) - Real.log (w i)) + (Real.log (u' i) - Real.log (u i))) ≤
      (w i * u i / v) * (Real.log v' - Real.log v) + (w' i * u' i / v' - w i * u i / v) := by
    intro i hi
    have hi' := mem_range.1 hi
    have h0 := mul_nonneg (hw i hi') (hu i hi')
    rcases h0.eq_or_lt with h | h
    · rw [← h]; simp
      exact div_nonneg (mul_nonneg (hw' i hi') (hu' i hi')) hv'.le
    · have hp := hpos i hi' h
      have w0 : 0 < w i := (pos_of_mul_pos_left h (hu i hi'))
      have u0 : 0 < u i := (pos_of_mul_pos_right h (hw i hi'))
      have w0' : 0 < w' i := (pos_of_mul_pos_left hp (hu' i hi'))
      have u0' : 0 < u' i := (pos_of_mul_pos_right hp (hw' i hi'))
      have hs : 0 < (w' i * u' i * v) / (w i * u i * v') := by positivity
      have hlog := Real.log_le_sub_one_of_pos hs
      rw [Real.log_div (by positivity) (by positivity), Real.log_mul (by positivity) hv.ne',
        Real.log_mul w0'.ne' u0'.ne', Real.log_mul (by positivity) hv'.ne', Real.log_mul w0.ne' u0.ne'] at hlog
      have hm := mul_le_mul_of_nonneg_left hlog (div_nonneg h.le hv.le)
      have e : (w i * u i / v) * ((w' i * u' i * v) / (w i * u i * v') - 1) =
          w' i * u' i / v' - w i * u i / v := by field_simp
      rw [e] at hm
      linarith
  calc _ ≤ ∑ i ∈ range n, ((w i * u i / v) * (Real.log v' - Real.log v) + (w' i * u' i / v' - w i * u i / v)) :=
        sum_le_sum key
    _ = _ := by
        rw [sum_add_distrib, ← sum_mul, sum_sub_distrib, ← sum_div, ← sum_div, ← hvd, ← hvd',
          div_self hv.ne', div_self hv'.ne']; ring

/-- Gibbs' inequality: normalised counts are a maximiser. -/
theorem count_gain (n : ℕ) (w k : ℕ → ℝ) (hw : ∀ i < n, 0 ≤ w i) (hw1 : ∑ i ∈ range n, w i ≤ 1)
    (hk : ∀ i < n, 0 ≤ k i) (hpos : ∀ i < n, 0 < k i → 0 < w i) (hS : 0 < ∑ i ∈ range n, k i) :
    0 ≤ ∑ i ∈ range n, k i * (Real.log (k i / ∑ i ∈ range n, k i) - Real.log (w i)) := by
  set S := ∑ i ∈ range n, k i with hSd
  have key : ∀ i ∈ range n, k i - S * w i ≤ k i * (Real.log (k i / S) - Real.log (w i)) := by
    intro i hi
    have hi' := mem_range.1 hi
    rcases (hk i hi').eq_or_lt with h | h
    · rw [← h]; simp; exact mul_nonneg hS.le (hw i hi')
    · have w0 := hpos i hi' h
      have hs : 0 < w i / (k i / S) := by positivity
      have hlog := Real.log_le_sub_one_of_pos hs
      rw [Real.log_div w0.ne' (by positivity)] at hlog
      have hm := mul_le_mul_of_nonneg_left hlog h.le
      have e : k i * (w i / (k i / S) - 1) = S * w i - k i := by field_simp
      rw [e] at hm
      linarith
  calc (0 : ℝ) ≤ S - S * ∑ i ∈ range n, w i := by nlinarith
    _ = ∑ i ∈ range n, (k i - S * w i) := by rw [sum_sub_distrib, ← mul_sum]
    _ ≤ _ := sum_le_sum key

/-! ### Real values of log values -/

theorem real_eq {v : LogV} : real v = Real.log (expL v) := by
  induction v using WithBot.recBotCoe with
  | bot => simp [real]
  | coe x => simp [real]

theorem coe_real {v : LogV} (h : v ≠ ⊥) : ((real v : ℝ) : LogV) = v := by
  induction v using WithBot.recBotCoe with
  | bot => exact absurd rfl h
  | coe x => rfl

theorem expL_neg_real {v : LogV} (h : v ≠ ⊥) : expL ((-real v : ℝ) : LogV) = (expL v)⁻¹ := by
  induction v using WithBot.recBotCoe with
  | bot => exact absurd rfl h
  | coe x => simp [real, Real.exp_neg]

/-- Expected count in the linear domain. -/
theorem expL_logCount (N : ℕ) (lw : ℕ → LogV) (g : ℕ → ℝ) (u : ℕ → ℕ → LogV) (v : ℕ → LogV) (ci : ℕ)
    (hg : ∀ n < N, 0 ≤ g n) (hv : ∀ n < N, v n ≠ ⊥) :
    expL (logCount N lw g u v ci) = ∑ n ∈ range N, g n * (expL (lw ci) * expL (u n ci) / expL (v n)) := by
  unfold logCount
  rw [expL_lse]
  refine sum_congr rfl fun n hn => ?_
  have hn' := mem_range.1 hn
  rw [expL_add, expL_add, expL_add, expL_logL (hg n hn'), expL_neg_real (hv n hn')]
  ring

/-! ### Shapes -/

theorem step_F (X : ℕ → Row) (N : ℕ) (upd : LeafUpd) (c : Circ) : ∀ g, F (step X N upd c g) = F c := by
  induction c with
  | leaf q Ch R d => intro g; rfl
  | cat1 n cs ih => intro g; simp [step, F, ih]
  | cat2 n cs ih => intro g; simp [step, F, ih]
  | prod c ih => intro g; rfl
  | sum c Co R θ ih => intro g; simp [step, F, ih]

theorem step_C (X : ℕ → Row) (N : ℕ) (upd : LeafUpd) (c : Circ) : ∀ g, C (step X N upd c g) = C c := by
  induction c with
  | leaf q Ch R d => intro g; rfl
  | cat1 n cs ih => intro g; simp [step, C, ih]
  | cat2 n cs ih => intro g; simp [step, C, ih]
  | prod c ih => intro g; simp [step, C, ih]
  | sum c Co R θ ih => intro g; rfl

theorem step_offF (X : ℕ → Row) (N : ℕ) (upd : LeafUpd) {n : ℕ} (cs : Fin n → Circ) (g : Fin n → Grad) (i : ℕ) :
    offF (fun i => step X N upd (cs i) (g i)) i = offF cs i := by
  simp [offF, step_F]

theorem step_offC (X : ℕ → Row) (N : ℕ) (upd : LeafUpd) {n : ℕ} (cs : Fin n → Circ) (g : Fin n → Grad) (i : ℕ) :
    offC (fun i => step X N upd (cs i) (g i)) i = offC cs i := by
  simp [offC, step_C]

/-- Sum over a concatenated axis, block by block. -/
theorem sum_blocks {n : ℕ} (k : Fin n → ℕ) (h : ℕ → ℝ) :
    ∑ f ∈ range (List.ofFn k).sum, h f =
      ∑ i : Fin n, ∑ f ∈ range (k i), h (((List.ofFn k).take i).sum + f) := by
  induction n generalizing h with
  | zero => simp
  | succ n ih =>
    rw [List.ofFn_succ, List.sum_cons, sum_range_add, Fin.sum_univ_succ]
    congr 1
    · simp
    · rw [ih (fun i => k i.succ) fun f => h (k 0 + f)]
      refine sum_congr rfl fun i _ => sum_congr rfl fun f _ => ?_
      simp [add_assoc]

theorem bc_same {T r : ℕ} (h : r < T) : bc T r = r := by unfold bc; split <;> omega

/-! ### The gain of one step -/

/-- Gradient-weighted gain in log-likelihood of a module when it is replaced by another one. -/
noncomputable def gain (X : ℕ → Row) (N T : ℕ) (c c' : Circ) (g : Grad) : ℝ :=
  ∑ n ∈ range N, ∑ r ∈ range T, ∑ f ∈ range (F c), ∑ ch ∈ range (C c),
    g n f ch r * (real (featAt (den c') f (X n) r ch) - real (featAt (den c) f (X n) r ch))

/-- A gradient that is non-negative and only positive where the module has positive likelihood. -/
def GoodGrad (X : ℕ → Row) (N T : ℕ) (c : Circ) (g : Grad) : Prop :=
  ∀ n < N, ∀ r < T, ∀ f < F c, ∀ ch < C c, 0 ≤ g n f ch r ∧ (0 < g n f ch r → featAt (den c) f (X n) r ch ≠ ⊥)

/-- Where the gradient is positive, the new module has positive likelihood. -/
def Alive (X : ℕ → Row) (N T : ℕ) (c c' : Circ) (g : Grad) : Prop :=
  ∀ n < N, ∀ r < T, ∀ f < F c, ∀ ch < C c, 0 < g n f ch r → featAt (den c') f (X n) r ch ≠ ⊥

/-- The leaf update is a (generalised) M-step: for every leaf and every weighting of the batch it does not decrease the
weighted log-likelihood, and rows with positive weight keep positive likelihood.  (Weighted maximum likelihood has this
property, and so do fixed leaves.) -/
def GoodUpd (X : ℕ → Row) (N T : ℕ) (upd : LeafUpd) : Prop :=
  ∀ q Ch d g, GoodGrad X N T (leaf q Ch T d) g →
    Alive X N T (leaf q Ch T d) (leaf q Ch T (upd q Ch T d g)) g ∧
      0 ≤ gain X N T (leaf q Ch T d) (leaf q Ch T (upd q Ch T d g)) g

theorem fixedLeaves_good (X : ℕ → Row) (N T : ℕ) : GoodUpd X N T fixedLeaves := by
  intro q Ch d g h
  refine ⟨fun n hn r hr f hf ch hch hp => (h n hn r hr f hf ch hch).2 hp, ?_⟩
  simp [gain, fixedLeaves]

/-- The three facts about one unit of a Sum. -/
theorem sum_entry {c : Circ} {Co T : ℕ} {θ} {f co r : ℕ} (hf : f < F c) (hr : r < T) (x : Row) :
    expL (featAt (den (sum c Co T θ)) f x r co) =
      ∑ ci ∈ range (C c), expL (logW c θ f co r ci) * expL (featAt (den c) f x r ci) := by
  rw [expL_featAt_sum hf, bc_same hr]
  refine sum_congr rfl fun ci _ => ?_
  rw [weight, logW, expL_logSoftmax_eq_softmax]

theorem sumGrad_eq {X : ℕ → Row} {c : Circ} {Co T : ℕ} {θ} {g : Grad} {n f ci r : ℕ}
    (hv : ∀ co < Co, featAt (den (sum c Co T θ)) f (X n) r co ≠ ⊥) :
    sumGrad X c Co T θ g n f ci r = ∑ co ∈ range Co, g n f co r *
      (expL (logW c θ f co r ci) * expL (featAt (den c) f (X n) r ci) /
        expL (featAt (den (sum c Co T θ)) f (X n) r co)) := by
  unfold sumGrad
  refine sum_congr rfl fun co hco => ?_
  rw [expL_add, expL_add, expL_neg_real (hv co (mem_range.1 hco))]
  ring

theorem step_main (X : ℕ → Row) (N T : ℕ) (upd : LeafUpd) (hu : GoodUpd X N T upd) (c : Circ) :
    ∀ g, Accepted c → SameReps T c → GoodGrad X N T c g → NoNaN X N c g →
      Alive X N T c (step X N upd c g) g ∧ 0 ≤ gain X N T c (step X N upd c g) g := by
  induction c with
  | leaf q Ch R d =>
    intro g _ hs hg _
    have hR : R = T := hs
    subst hR
    exact hu q Ch d g hg
  | cat1 n cs ih =>
    intro g ha hs hg hn
    obtain ⟨ha1, ha2⟩ := ha
    replace hs : ∀ i, SameReps T (cs i) := hs
    replace hn : ∀ i, NoNaN X N (cs i) fun m f ch r => g m (offF cs i + f) ch r := hn
    have hCe := cat1_C ha2
    have hFlt : ∀ (i : Fin n) f, f < F (cs i) → offF cs i + f < F (cat1 n cs) := by
      intro i f hf
      have h1 : F (cat1 n cs) = ((List.ofFn fun k => F (cs k)).take (i + 1)).sum +
          ((List.ofFn fun k => F (cs k)).drop (i + 1)).sum := by
        rw [← List.sum_append, List.take_append_drop]; rfl
      have h2 : ((List.ofFn fun k => F (cs k)).take (i + 1)).sum = offF cs i + F (cs i) := by
        rw [List.take_add_one, List.sum_append]; simp [offF]
      omega
    have hgi : ∀ i, GoodGrad X N T (cs i) fun m f ch r => g m (offF cs i + f) ch r := by
      intro i m hm r hr f hf ch hch
      rw [hCe i] at hch
      have := hg m hm r hr (offF cs i + f) (hFlt i f hf) ch hch
      rwa [featAt_cat1 i hf] at this
    have hI := fun i => ih i _ (ha1 i) (hs i) (hgi i) (hn i)
    have hval : ∀ (i : Fin n) f, f < F (cs i) → ∀ x r ch,
        featAt (den (step X N upd (cat1 n cs) g)) (offF cs i + f) x r ch =
          featAt (den (step X N upd (cs i) fun m f ch r => g m (offF cs i + f) ch r)) f x r ch := by
      intro i f hf x r ch
      have := featAt_cat1 (cs := fun i => step X N upd (cs i) fun m f ch r => g m (offF cs i + f) ch r) i
        (j := f) (by rw [step_F]; exact hf) x r ch
      rw [step_offF X N upd cs (fun i => fun m f ch r => g m (offF cs i + f) ch r)] at this
      exact this
    constructor
    · intro m hm r hr f hf ch hch hp
      obtain ⟨i, j, hj, rfl⟩ := exists_cat1_index hf
      rw [hval i j hj]
      exact (hI i).1 m hm r hr j hj ch (by rw [hCe i]; exact hch) hp
    · have e : gain X N T (cat1 n cs) (step X N upd (cat1 n cs) g) g =
          ∑ i : Fin n, gain X N T (cs i) (step X N upd (cs i) fun m f ch r => g m (offF cs i + f) ch r)
            (fun m f ch r => g m (offF cs i + f) ch r) := by
        unfold gain
        rw [sum_comm]
        simp only [F]
        rw [sum_comm (s := univ)]
        simp only [sum_comm (s := univ)]
        rw [sum_comm]
        refine sum_congr rfl fun m _ => ?_
        refine sum_congr rfl fun r _ => ?_
        rw [sum_blocks]
        refine sum_congr rfl fun i _ => sum_congr rfl fun f hf => ?_
        have hf' := mem_range.1 hf
        rw [hCe i]
        refine sum_congr rfl fun ch _ => ?_
        have h1 := hval i f hf' (X m) r ch
        have h2 := featAt_cat1 (cs := cs) i hf' (X m) r ch
        unfold offF at h1 h2
        rw [h1, h2]; rfl
      rw [e]
      exact sum_nonneg fun i _ => (hI i).2
  | cat2 n cs ih =>
    intro g ha hs hg hn
    obtain ⟨ha1, ha2⟩ := ha
    replace hs : ∀ i, SameReps T (cs i) := hs
    replace hn : ∀ i, NoNaN X N (cs i) fun m f ch r => g m f (offC cs i + ch) r := hn
    have hFe := cat2_F ha2
    have hClt : ∀ (i : Fin n) k, k < C (cs i) → offC cs i + k < C (cat2 n cs) := by
      intro i f hf
      have h1 : C (cat2 n cs) = ((List.ofFn fun k => C (cs k)).take (i + 1)).sum +
          ((List.ofFn fun k => C (cs k)).drop (i + 1)).sum := by
        rw [← List.sum_append, List.take_append_drop]; rfl
      have h2 : ((List.ofFn fun k => C (cs k)).take (i + 1)).sum = offC cs i + C (cs i) := by
        rw [List.take_add_one, List.sum_append]; simp [offC]
      omega
    have hgi : ∀ i, GoodGrad X N T (cs i) fun m f ch r => g m f (offC cs i + ch) r := by
      intro i m hm r hr f hf ch hch
      rw [hFe i] at hf
      have := hg m hm r hr f hf (offC cs i + ch) (hClt i ch hch)
      rwa [featAt_cat2 i hf hch] at this
    have hI := fun i => ih i _ (ha1 i) (hs i) (hgi i) (hn i)
    have hval : ∀ (i : Fin n) f k, f < F (cat2 n cs) → k < C (cs i) → ∀ x r,
        featAt (den (step X N upd (cat2 n cs) g)) f x r (offC cs i + k) =
          featAt (den (step X N upd (cs i) fun m f ch r => g m f (offC cs i + ch) r)) f x r k := by
      intro i f k hf hk x r
      have := featAt_cat2 (cs := fun i => step X N upd (cs i) fun m f ch r => g m f (offC cs i + ch) r) i
        (f := f) (k := k) (by have := step_F X N upd (cat2 n cs) g; simp only [step] at this; rw [this]; exact hf)
        (by rw [step_C]; exact hk) x r
      rw [step_offC X N upd cs (fun i => fun m f ch r => g m f (offC cs i + ch) r)] at this
      exact this
    constructor
    · intro m hm r hr f hf ch hch hp
      obtain ⟨i, k, hk, rfl⟩ := exists_cat2_index hch
      rw [hval i f k hf hk]
      exact (hI i).1 m hm r hr f (by rw [hFe i]; exact hf) k hk hp
    · have e : gain X N T (cat2 n cs) (step X N upd (cat2 n cs) g) g =
          ∑ i : Fin n, gain X N T (cs i) (step X N upd (cs i) fun m f ch r => g m f (offC cs i + ch) r)
            (fun m f ch r => g m f (offC cs i + ch) r) := by
        unfold gain
        rw [sum_comm (s := univ)]
        refine sum_congr rfl fun m _ => ?_
        rw [sum_comm (s := univ)]
        refine sum_congr rfl fun r _ => ?_
        have : ∀ i : Fin n, F (cs i) = F (cat2 n cs) := hFe
        simp only [this]
        rw [sum_comm (s := univ)]
        refine sum_congr rfl fun f hf => ?_
        have hf' := mem_range.1 hf
        have hC0 : C (cat2 n cs) = (List.ofFn fun k => C (cs k)).sum := rfl
        rw [hC0, sum_blocks]
        refine sum_congr rfl fun i _ => sum_congr rfl fun k hk => ?_
        have h1 := hval i f k hf' (mem_range.1 hk) (X m) r
        have h2 := featAt_cat2 (cs := cs) i hf' (mem_range.1 hk) (X m) r
        unfold offC at h1 h2
        rw [h1, h2]; rfl
      rw [e]
      exact sum_nonneg fun i _ => (hI i).2
  | prod c ih =>
    intro g ha hs hg hn
    replace ha : Accepted c := ha
    replace hs : SameReps T c := hs
    replace hn : NoNaN X N c fun m _ ch r => g m 0 ch r := hn
    have hgc : GoodGrad X N T c fun m _ ch r => g m 0 ch r := by
      intro m hm r hr f hf ch hch
      obtain ⟨h1, h2⟩ := hg m hm r hr 0 (by simp [F]) ch hch
      refine ⟨h1, fun hp => ?_⟩
      have := h2 hp
      rw [featAt_prod] at this
      intro hb
      apply this
      rw [WithBot.sum_eq_bot_iff]
      exact ⟨f, mem_range.2 hf, hb⟩
    obtain ⟨hA, hG⟩ := ih _ ha hs hgc hn
    constructor
    · intro m hm r hr f hf ch hch hp
      have hf0 : f = 0 := by simpa [F] using hf
      subst hf0
      show featAt (den (prod (step X N upd c fun m _ ch r => g m 0 ch r))) 0 (X m) r ch ≠ ⊥
      rw [featAt_prod, ne_eq, WithBot.sum_eq_bot_iff]
      rintro ⟨f, hf, hb⟩
      rw [mem_range, step_F] at hf
      exact hA m hm r hr f hf ch hch hp hb
    · have e : gain X N T (prod c) (step X N upd (prod c) g) g =
          gain X N T c (step X N upd c fun m _ ch r => g m 0 ch r) fun m _ ch r => g m 0 ch r := by
        unfold gain
        refine sum_congr rfl fun m hm => sum_congr rfl fun r hr => ?_
        have hF1 : F (prod c) = 1 := rfl
        rw [hF1, sum_range_one, sum_comm]
        refine sum_congr rfl fun ch hch => ?_
        obtain ⟨h1, h2⟩ := hg m (mem_range.1 hm) r (mem_range.1 hr) 0 (by simp [F]) ch (mem_range.1 hch)
        rcases h1.eq_or_lt with h | h
        · simp [← h]
        · rw [← mul_sum]
          congr 1
          have r1 : real (featAt (den (prod c)) 0 (X m) r ch) =
              ∑ f ∈ range (F c), real (featAt (den c) f (X m) r ch) := by
            rw [real_eq, expL_featAt_prod, Real.log_prod]
            · exact sum_congr rfl fun f _ => real_eq.symm
            · intro f hf
              exact ((expL_pos_iff _).2 ((hgc m (mem_range.1 hm) r (mem_range.1 hr) f (mem_range.1 hf) ch
                (mem_range.1 hch)).2 h)).ne'
          have r2 : real (featAt (den (step X N upd (prod c) g)) 0 (X m) r ch) =
              ∑ f ∈ range (F c), real (featAt (den (step X N upd c fun m _ ch r => g m 0 ch r)) f (X m) r ch) := by
            show real (featAt (den (prod (step X N upd c fun m _ ch r => g m 0 ch r))) 0 (X m) r ch) = _
            rw [real_eq, expL_featAt_prod, Real.log_prod, step_F]
            · exact sum_congr rfl fun f _ => real_eq.symm
            · intro f hf
              rw [step_F] at hf
              exact ((expL_pos_iff _).2 (hA m (mem_range.1 hm) r (mem_range.1 hr) f (mem_range.1 hf) ch
                (mem_range.1 hch) h)).ne'
          rw [r1, r2, sum_sub_distrib]
      rw [e]; exact hG
  | sum c Co R θ ih =>
    intro g ha hs hg hn
    obtain ⟨ha1, hCo, hfin⟩ := ha
    obtain ⟨hs1, hR⟩ := hs
    subst hR
    obtain ⟨hn1, hn2⟩ := hn
    -- abbreviations
    set u := fun n f r ci => expL (featAt (den c) f (X n) r ci) with hud
    set v := fun n f r co => expL (featAt (den (sum c Co R θ)) f (X n) r co) with hvd
    set w := fun f co r ci => expL (logW c θ f co r ci) with hwd
    set c' := step X N upd c (sumGrad X c Co R θ g) with hc'
    set s' := step X N upd (sum c Co R θ) g with hs'
    set u' := fun n f r ci => expL (featAt (den c') f (X n) r ci) with hud'
    set v' := fun n f r co => expL (featAt (den s') f (X n) r co) with hvd'
    set k := fun f co r ci => ∑ n ∈ range N, g n f co r * (w f co r ci * u n f r ci / v n f r co) with hkd
    have hvne : ∀ n < N, ∀ f < F c, ∀ co < Co, ∀ r < R, featAt (den (sum c Co R θ)) f (X n) r co ≠ ⊥ :=
      fun n hn f hf co hco r hr => (hn2 f hf co hco r hr).1 n hn
    have hvpos : ∀ n < N, ∀ f < F c, ∀ co < Co, ∀ r < R, 0 < v n f r co :=
      fun n hn f hf co hco r hr => (expL_pos_iff _).2 (hvne n hn f hf co hco r hr)
    have hveq : ∀ n, ∀ f < F c, ∀ co, ∀ r < R, v n f r co = ∑ ci ∈ range (C c), w f co r ci * u n f r ci :=
      fun n f hf co r hr => sum_entry hf hr (X n)
    have hg0 : ∀ n < N, ∀ f < F c, ∀ co < Co, ∀ r < R, 0 ≤ g n f co r :=
      fun n hn f hf co hco r hr => (hg n hn r hr f hf co hco).1
    have hw0 : ∀ f co r ci, 0 ≤ w f co r ci := fun _ _ _ _ => expL_nonneg _
    have hu0 : ∀ n f r ci, 0 ≤ u n f r ci := fun _ _ _ _ => expL_nonneg _
    have hu0' : ∀ n f r ci, 0 ≤ u' n f r ci := fun _ _ _ _ => expL_nonneg _
    have hsg : ∀ n < N, ∀ f < F c, ∀ ci, ∀ r < R, sumGrad X c Co R θ g n f ci r =
        ∑ co ∈ range Co, g n f co r * (w f co r ci * u n f r ci / v n f r co) :=
      fun n hn f hf ci r hr => sumGrad_eq fun co hco => hvne n hn f hf co hco r hr
    -- the expected counts
    have hk : ∀ f < F c, ∀ co < Co, ∀ r < R, ∀ ci,
        expL (logCount N (logW c θ f co r) (fun n => g n f co r) (fun n ci => featAt (den c) f (X n) r ci)
          (fun n => featAt (den (sum c Co R θ)) f (X n) r co) ci) = k f co r ci :=
      fun f hf co hco r hr ci => expL_logCount N _ _ _ _ ci (fun n hn => hg0 n hn f hf co hco r hr)
        (fun n hn => hvne n hn f hf co hco r hr)
    have hk0 : ∀ f < F c, ∀ co < Co, ∀ r < R, ∀ ci, 0 ≤ k f co r ci := by
      intro f hf co hco r hr ci; rw [← hk f hf co hco r hr ci]; exact expL_nonneg _
    have hS : ∀ f < F c, ∀ co < Co, ∀ r < R, 0 < ∑ ci ∈ range (C c), k f co r ci := by
      intro f hf co hco r hr
      obtain ⟨ci, hci, hne⟩ := (hn2 f hf co hco r hr).2
      refine sum_pos' (fun ci _ => hk0 f hf co hco r hr ci) ⟨ci, mem_range.2 hci, ?_⟩
      rw [← hk f hf co hco r hr ci]; exact (expL_pos_iff _).2 hne
    -- the new weights
    have hCc' : C c' = C c := step_C _ _ _ _ _
    have hFc' : F c' = F c := step_F _ _ _ _ _
    set w' := fun f co r ci => k f co r ci / ∑ ci ∈ range (C c), k f co r ci with hwd'
    have hveq' : ∀ n, ∀ f < F c, ∀ co < Co, ∀ r < R, v' n f r co = ∑ ci ∈ range (C c), w' f co r ci * u' n f r ci := by
      intro n f hf co hco r hr
      have := sum_entry (c := c') (Co := Co) (T := R) (θ := fun f ci co r =>
        newLogits (C c) N (logW c θ f co r) (fun n => g n f co r) (fun n ci => featAt (den c) f (X n) r ci)
        (fun n => featAt (den (sum c Co R θ)) f (X n) r co) ci) (f := f) (co := co) (r := r)
        (by rw [hFc']; exact hf) hr (X n)
      refine this.trans ?_
      rw [hCc']
      refine sum_congr rfl fun ci _ => ?_
      congr 1
      rw [show ∀ θ', logW c' θ' f co r ci = logSoftmax (C c) (fun i => θ' f i co r) ci from fun θ' => by rw [logW, hCc']]
      simp only [newLogits]
      rw [expL_logSoftmax, expL_logSoftmax]
      have e1 : ∀ j, expL (logSoftmax (C c) (logCount N (logW c θ f co r) (fun n => g n f co r)
          (fun n ci => featAt (den c) f (X n) r ci) (fun n => featAt (den (sum c Co R θ)) f (X n) r co)) j) =
          k f co r j / ∑ ci ∈ range (C c), k f co r ci := by
        intro j
        rw [expL_logSoftmax]
        have hk' := hk f hf co hco r hr
        rw [hk' j]
        congr 1
        exact sum_congr rfl fun i _ => hk' i
      have e2 : ∑ j ∈ range (C c), expL (logSoftmax (C c) (logCount N (logW c θ f co r)
          (fun n => g n f co r)
          (fun n ci => featAt (den c) f (X n) r ci) (fun n => featAt (den (sum c Co R θ)) f (X n) r co)) j) = 1 := by
        rw [sum_congr rfl fun j _ => e1 j, ← sum_div, div_self (hS f hf co hco r hr).ne']
      rw [e2, div_one]
      have := e1 ci
      rw [expL_logSoftmax] at this
      exact this
    have hw0' : ∀ f < F c, ∀ co < Co, ∀ r < R, ∀ ci, 0 ≤ w' f co r ci :=
      fun f hf co hco r hr ci => div_nonneg (hk0 f hf co hco r hr ci) (hS f hf co hco r hr).le
    -- gradient of the input
    have hgc : GoodGrad X N R c (sumGrad X c Co R θ g) := by
      intro n hn r hr f hf ci hci
      rw [hsg n hn f hf ci r hr]
      refine ⟨sum_nonneg fun co hco => mul_nonneg (hg0 n hn f hf co (mem_range.1 hco) r hr)
        (div_nonneg (mul_nonneg (hw0 _ _ _ _) (hu0 _ _ _ _)) (hvpos n hn f hf co (mem_range.1 hco) r hr).le), ?_⟩
      intro hp hb
      have : u n f r ci = 0 := by simp only [hud, hb]; simp
      simp [this] at hp
    obtain ⟨hA, hG⟩ := ih _ ha1 hs1 hgc hn1
    -- responsibilities that are positive
    have hposg : ∀ n < N, ∀ f < F c, ∀ co < Co, ∀ r < R, ∀ ci < C c, 0 < g n f co r → 0 < w f co r ci * u n f r ci →
        0 < w' f co r ci * u' n f r ci := by
      intro n hn f hf co hco r hr ci hci hgp hwu
      have hρ : 0 < g n f co r * (w f co r ci * u n f r ci / v n f r co) :=
        mul_pos hgp (div_pos hwu (hvpos n hn f hf co hco r hr))
      refine mul_pos (div_pos ?_ (hS f hf co hco r hr)) ((expL_pos_iff _).2 (hA n hn r hr f hf ci hci ?_))
      · refine sum_pos' (fun m hm => mul_nonneg (hg0 m (mem_range.1 hm) f hf co hco r hr)
          (div_nonneg (mul_nonneg (hw0 _ _ _ _) (hu0 _ _ _ _)) (hvpos m (mem_range.1 hm) f hf co hco r hr).le))
          ⟨n, mem_range.2 hn, hρ⟩
      · rw [hsg n hn f hf ci r hr]
        exact sum_pos' (fun co' hco' => mul_nonneg (hg0 n hn f hf co' (mem_range.1 hco') r hr)
          (div_nonneg (mul_nonneg (hw0 _ _ _ _) (hu0 _ _ _ _)) (hvpos n hn f hf co' (mem_range.1 hco') r hr).le))
          ⟨co, mem_range.2 hco, hρ⟩
    have hex : ∀ n < N, ∀ f < F c, ∀ co < Co, ∀ r < R, ∃ ci < C c, 0 < w f co r ci * u n f r ci := by
      intro n hn f hf co hco r hr
      by_contra hcon
      push Not at hcon
      have := hvpos n hn f hf co hco r hr
      rw [hveq n f hf co r hr] at this
      exact absurd this (not_lt.2 (sum_nonpos fun i hi => hcon i (mem_range.1 hi)))
    constructor
    · intro n hn r hr f hf co hco hp
      rw [← expL_pos_iff]
      show 0 < v' n f r co
      rw [hveq' n f hf co hco r hr]
      obtain ⟨ci, hci, hwu⟩ := hex n hn f hf co hco r hr
      exact sum_pos' (fun i hi => mul_nonneg (hw0' f hf co hco r hr i) (hu0' n f r i))
        ⟨ci, mem_range.2 hci, hposg n hn f hf co hco r hr ci hci hp hwu⟩
    · -- lower bound by Jensen, entry by entry
      have hJ : ∀ n ∈ range N, ∀ r ∈ range R, ∀ f ∈ range (F c), ∀ co ∈ range Co,
          ∑ ci ∈ range (C c), g n f co r * (w f co r ci * u n f r ci / v n f r co) *
            ((Real.log (w' f co r ci) - Real.log (w f co r ci)) +
              (Real.log (u' n f r ci) - Real.log (u n f r ci))) ≤
          g n f co r * (real (featAt (den s') f (X n) r co) - real (featAt (den (sum c Co R θ)) f (X n) r co)) := by
        intro n hn r hr f hf co hco
        have hn := mem_range.1 hn; have hr := mem_range.1 hr; have hf := mem_range.1 hf; have hco := mem_range.1 hco
        rcases (hg0 n hn f hf co hco r hr).eq_or_lt with h | h
        · simp [← h]
        · have := unit_gain (C c) (w f co r) (u n f r) (w' f co r) (u' n f r) (fun i _ => hw0 _ _ _ i)
            (fun i _ => hu0 _ _ _ i) (fun i _ => hw0' f hf co hco r hr i) (fun i _ => hu0' _ _ _ i)
            (by rw [← hveq n f hf co r hr]; exact hvpos n hn f hf co hco r hr)
            (fun i hi => hposg n hn f hf co hco r hr i hi h)
          rw [← hveq n f hf co r hr, ← hveq' n f hf co hco r hr] at this
          rw [real_eq, real_eq]
          calc _ = g n f co r * ∑ ci ∈ range (C c), (w f co r ci * u n f r ci / v n f r co) *
                ((Real.log (w' f co r ci) - Real.log (w f co r ci)) +
                  (Real.log (u' n f r ci) - Real.log (u n f r ci))) := by
                rw [mul_sum]; exact sum_congr rfl fun i _ => by ring
            _ ≤ _ := mul_le_mul_of_nonneg_left this h.le
      -- the weights part
      have hW : 0 ≤ ∑ n ∈ range N, ∑ r ∈ range R, ∑ f ∈ range (F c), ∑ co ∈ range Co, ∑ ci ∈ range (C c),
          g n f co r * (w f co r ci * u n f r ci / v n f r co) *
            (Real.log (w' f co r ci) - Real.log (w f co r ci)) := by
        have e : ∑ n ∈ range N, ∑ r ∈ range R, ∑ f ∈ range (F c), ∑ co ∈ range Co, ∑ ci ∈ range (C c),
            g n f co r * (w f co r ci * u n f r ci / v n f r co) *
              (Real.log (w' f co r ci) - Real.log (w f co r ci)) =
            ∑ r ∈ range R, ∑ f ∈ range (F c), ∑ co ∈ range Co, ∑ ci ∈ range (C c),
              k f co r ci * (Real.log (w' f co r ci) - Real.log (w f co r ci)) := by
          rw [sum_comm]
          refine sum_congr rfl fun r _ => ?_
          rw [sum_comm]
          refine sum_congr rfl fun f _ => ?_
          rw [sum_comm]
          refine sum_congr rfl fun co _ => ?_
          rw [sum_comm]
          refine sum_congr rfl fun ci _ => ?_
          rw [← sum_mul]
        rw [e]
        refine sum_nonneg fun r hr => sum_nonneg fun f hf => sum_nonneg fun co hco => ?_
        have hr := mem_range.1 hr; have hf := mem_range.1 hf; have hco := mem_range.1 hco
        refine count_gain (C c) (w f co r) (k f co r) (fun i _ => hw0 _ _ _ i) ?_
          (fun i _ => hk0 f hf co hco r hr i) ?_ (hS f hf co hco r hr)
        · have : ∑ i ∈ range (C c), w f co r i = 1 := by
            simp only [hwd, logW, expL_logSoftmax_eq_softmax]
            exact sum_softmax (hfin f hf co hco r hr)
          exact this.le
        · intro i hi hp
          by_contra hcon
          have h0 : w f co r i = 0 := le_antisymm (not_lt.1 hcon) (hw0 _ _ _ _)
          simp [hkd, h0] at hp
      -- the inputs part
      have hU : ∑ n ∈ range N, ∑ r ∈ range R, ∑ f ∈ range (F c), ∑ co ∈ range Co, ∑ ci ∈ range (C c),
          g n f co r * (w f co r ci * u n f r ci / v n f r co) *
            (Real.log (u' n f r ci) - Real.log (u n f r ci)) = gain X N R c c' (sumGrad X c Co R θ g) := by
        unfold gain
        refine sum_congr rfl fun n hn => sum_congr rfl fun r hr => sum_congr rfl fun f hf => ?_
        rw [sum_comm]
        refine sum_congr rfl fun ci _ => ?_
        rw [hsg n (mem_range.1 hn) f (mem_range.1 hf) ci r (mem_range.1 hr), sum_mul]
        refine sum_congr rfl fun co _ => ?_
        rw [real_eq, real_eq]
      have hsum : gain X N R (sum c Co R θ) s' g ≥
          ∑ n ∈ range N, ∑ r ∈ range R, ∑ f ∈ range (F c), ∑ co ∈ range Co, ∑ ci ∈ range (C c),
            g n f co r * (w f co r ci * u n f r ci / v n f r co) *
            ((Real.log (w' f co r ci) - Real.log (w f co r ci)) +
              (Real.log (u' n f r ci) - Real.log (u n f r ci))) :=
        sum_le_sum fun n hn => sum_le_sum fun r hr => sum_le_sum fun f hf => sum_le_sum fun co hco =>
          hJ n hn r hr f hf co hco
      refine le_trans ?_ hsum
      simp only [mul_add, sum_add_distrib]
      rw [hU]
      exact add_nonneg hW hG

/-! ### C28 -/

theorem sum_coe_real {ι : Type*} (s : Finset ι) (f : ι → LogV) (h : ∀ i ∈ s, f i ≠ ⊥) :
    ∑ i ∈ s, f i = ((∑ i ∈ s, real (f i) : ℝ) : LogV) := by
  classical
  induction s using Finset.induction_on with
  | empty => simp
  | insert a s ha ih =>
    rw [sum_insert ha, sum_insert ha, WithBot.coe_add, ← ih fun i hi => h i (mem_insert_of_mem hi),
      coe_real (h a (mem_insert_self _ _))]

/-- `module_lls.sum()` of a circuit with positive likelihood on all rows is a real number. -/
theorem accLL_real (X : ℕ → Row) (N T : ℕ) (c : Circ)
    (h : ∀ n < N, ∀ r < T, ∀ f < F c, ∀ ch < C c, featAt (den c) f (X n) r ch ≠ ⊥) :
    accLL X N T c = ((∑ n ∈ range N, ∑ r ∈ range T, ∑ f ∈ range (F c), ∑ ch ∈ range (C c),
      real (featAt (den c) f (X n) r ch) : ℝ) : LogV) := by
  unfold accLL
  have e : ∀ n ∈ range N, ∑ f ∈ range (F c), ∑ ch ∈ range (C c), ∑ r ∈ range T, featAt (den c) f (X n) r ch =
      ((∑ r ∈ range T, ∑ f ∈ range (F c), ∑ ch ∈ range (C c), real (featAt (den c) f (X n) r ch) : ℝ) : LogV) := by
    intro n hn
    have e1 : ∀ f ∈ range (F c), ∀ ch ∈ range (C c), ∑ r ∈ range T, featAt (den c) f (X n) r ch =
        ((∑ r ∈ range T, real (featAt (den c) f (X n) r ch) : ℝ) : LogV) := fun f hf ch hch =>
      sum_coe_real _ _ fun r hr => h n (mem_range.1 hn) r (mem_range.1 hr) f (mem_range.1 hf) ch (mem_range.1 hch)
    have e2 : ∀ f ∈ range (F c), ∑ ch ∈ range (C c), ∑ r ∈ range T, featAt (den c) f (X n) r ch =
        ((∑ ch ∈ range (C c), ∑ r ∈ range T, real (featAt (den c) f (X n) r ch) : ℝ) : LogV) := by
      intro f hf
      rw [sum_congr rfl (e1 f hf), sum_coe_real _ _ fun _ _ => WithBot.coe_ne_bot]
      rfl
    rw [sum_congr rfl e2, sum_coe_real _ _ fun _ _ => WithBot.coe_ne_bot]
    congr 1
    show ∑ f ∈ range (F c), ∑ ch ∈ range (C c), ∑ r ∈ range T, real (featAt (den c) f (X n) r ch) = _
    rw [sum_comm (s := range T)]
    refine sum_congr rfl fun f _ => ?_
    rw [sum_comm]
  rw [sum_congr rfl e, sum_coe_real _ _ fun _ _ => WithBot.coe_ne_bot]
  rfl

/-- **C28.** For every accepted circuit of leaves, Cat, Product and Sum (any shape, channels, features, repetitions
used consistently), every batch on which the model has positive likelihood and every leaf update that does not decrease
the weighted likelihood of the leaf - in particular fixed leaves - one EM step that produces no NaN does not decrease
the accumulated log-likelihood, and the new model again has positive likelihood on all rows. -/
theorem C28_em_step_monotone {X : ℕ → Row} {N T : ℕ} {upd : LeafUpd} (hu : GoodUpd X N T upd) {c : Circ}
    (ha : Accepted c) (hs : SameReps T c)
    (hpos : ∀ n < N, ∀ r < T, ∀ f < F c, ∀ ch < C c, featAt (den c) f (X n) r ch ≠ ⊥)
    (hn : NoNaN X N c rootGrad) :
    accLL X N T c ≤ accLL X N T (emStep X N upd c) ∧
      ∀ n < N, ∀ r < T, ∀ f < F c, ∀ ch < C c, featAt (den (emStep X N upd c)) f (X n) r ch ≠ ⊥ := by
  obtain ⟨hA, hG⟩ := step_main X N T upd hu c rootGrad ha hs
    (fun n hn r hr f hf ch hch => ⟨zero_le_one, fun _ => hpos n hn r hr f hf ch hch⟩) hn
  have hA' : ∀ n < N, ∀ r < T, ∀ f < F c, ∀ ch < C c, featAt (den (emStep X N upd c)) f (X n) r ch ≠ ⊥ :=
    fun n hn r hr f hf ch hch => hA n hn r hr f hf ch hch one_pos
  refine ⟨?_, hA'⟩
  rw [accLL_real X N T c hpos, accLL_real X N T (emStep X N upd c) (by
    intro n hn r hr f hf ch hch
    unfold emStep at hf hch
    rw [step_F] at hf; rw [step_C] at hch
    exact hA' n hn r hr f hf ch hch), WithBot.coe_le_coe]
  have h1 : ∀ n f ch r, rootGrad n f ch r = 1 := fun _ _ _ _ => rfl
  simp only [gain, h1, one_mul, sum_sub_distrib] at hG
  unfold emStep
  rw [step_F, step_C]
  linarith

/-- **C28 (weights).** After a step without NaN every Sum unit of the root is normalised; stated for the Sum the step is
called on (inner Sums: the same with their own gradient). -/
theorem C28_weights_normalised {X : ℕ → Row} {N : ℕ} {upd : LeafUpd} {c : Circ} {Co R : ℕ} {θ} {g : Grad}
    (hn : NoNaN X N (sum c Co R θ) g) :
    ∃ c' θ', step X N upd (sum c Co R θ) g = sum c' Co R θ' ∧
      ∀ f < F c, ∀ co < Co, ∀ r < R, ∑ ci ∈ range (C c'), weight c' θ' f ci co r = 1 := by
  refine ⟨_, _, rfl, ?_⟩
  intro f hf co hco r hr
  obtain ⟨ci, hci, hne⟩ := (hn.2 f hf co hco r hr).2
  refine sum_softmax ⟨ci, by rw [step_C]; exact hci, ?_⟩
  show newLogits _ _ _ _ _ _ ci ≠ ⊥
  unfold newLogits
  rw [← expL_pos_iff, expL_logSoftmax]
  exact div_pos ((expL_pos_iff _).2 hne) (sum_expL_pos ⟨ci, hci, hne⟩)

/-! ### When no NaN arises -/

/-- All leaf densities are positive on the batch. -/
def LeavesPositive (X : ℕ → Row) (N T : ℕ) : Circ → Prop
  | leaf q Ch R d => ∀ n < N, ∀ r < T, ∀ f < q.length, ∀ ch < Ch, featAt (den (leaf q Ch R d)) f (X n) r ch ≠ ⊥
  | cat1 _ cs => ∀ i, LeavesPositive X N T (cs i)
  | cat2 _ cs => ∀ i, LeavesPositive X N T (cs i)
  | prod c => LeavesPositive X N T c
  | sum c _ _ _ => LeavesPositive X N T c

theorem logW_ne_bot {c : Circ} {θ} {f co r ci : ℕ} (hci : ci < C c) (h : θ f ci co r ≠ ⊥) : logW c θ f co r ci ≠ ⊥ := by
  unfold logW
  rw [← expL_pos_iff, expL_logSoftmax]
  exact div_pos ((expL_pos_iff _).2 h) (sum_expL_pos ⟨ci, hci, h⟩)

/-- Every module has at least one channel (Sum: `out_channels ≥ 1`, leaves: checked by the leaf constructors). -/
def ChannelsPositive : Circ → Prop
  | leaf _ Ch _ _ => 0 < Ch
  | cat1 _ cs => ∀ i, ChannelsPositive (cs i)
  | cat2 _ cs => ∀ i, ChannelsPositive (cs i)
  | prod c => ChannelsPositive c
  | sum c _ _ _ => ChannelsPositive c ∧ 0 < C c

theorem entries_positive {X : ℕ → Row} {N T : ℕ} {c : Circ} :
    Accepted c → SameReps T c → FiniteLogits c → ChannelsPositive c → LeavesPositive X N T c →
      ∀ n < N, ∀ r < T, ∀ f < F c, ∀ ch < C c, featAt (den c) f (X n) r ch ≠ ⊥ := by
  induction c with
  | leaf q Ch R d => intro _ _ _ _ h; exact h
  | cat1 k cs ih =>
    intro ha hs hf hc hl n hn r hr f hf' ch hch
    obtain ⟨i, j, hj, rfl⟩ := exists_cat1_index hf'
    rw [featAt_cat1 i hj]
    exact ih i (ha.1 i) (hs i) (hf i) (hc i) (hl i) n hn r hr j hj ch (by rw [cat1_C ha.2]; exact hch)
  | cat2 k cs ih =>
    intro ha hs hf hc hl n hn r hr f hf' ch hch
    obtain ⟨i, j, hj, rfl⟩ := exists_cat2_index hch
    rw [featAt_cat2 i hf' hj]
    exact ih i (ha.1 i) (hs i) (hf i) (hc i) (hl i) n hn r hr f (by rw [cat2_F ha.2]; exact hf') j hj
  | prod c ih =>
    intro ha hs hf hc hl n hn r hr f hf' ch hch
    have hf0 : f = 0 := by simpa [F] using hf'
    subst hf0
    rw [featAt_prod, ne_eq, WithBot.sum_eq_bot_iff]
    rintro ⟨j, hj, hb⟩
    exact ih ha hs hf hc hl n hn r hr j (mem_range.1 hj) ch hch hb
  | sum c Co R θ ih =>
    intro ha hs hf hc hl n hn r hr f hf' co hco
    have hR : R = T := hs.2
    replace hf' : f < F c := hf'
    replace hco : co < Co := hco
    rw [featAt_sum hf', ne_eq, lse_eq_bot_iff]
    push Not
    refine ⟨0, hc.2, ?_⟩
    rw [ne_eq, WithBot.add_eq_bot]
    push Not
    refine ⟨ih ha.1 hs.1 hf.1 hc.1 hl n hn r hr f hf' 0 hc.2, ?_⟩
    have := hf.2 f hf' 0 hc.2 co hco r (by omega)
    rw [hR, bc_same hr]
    exact logW_ne_bot (θ := θ) hc.2 this

theorem noNaN_of_positive {X : ℕ → Row} {N T : ℕ} (hN : 0 < N) {c : Circ} :
    ∀ g : Grad, Accepted c → SameReps T c → FiniteLogits c → ChannelsPositive c → LeavesPositive X N T c →
      (∀ n < N, ∀ r < T, ∀ f < F c, ∀ ch < C c, 0 < g n f ch r) → NoNaN X N c g := by
  induction c with
  | leaf q Ch R d => intros; trivial
  | cat1 k cs ih =>
    intro g ha hs hf hc hl hg i
    refine ih i _ (ha.1 i) (hs i) (hf i) (hc i) (hl i) fun n hn r hr f hf' ch hch => ?_
    refine hg n hn r hr _ ?_ ch (by rw [← cat1_C ha.2 i]; exact hch)
    have h1 : F (cat1 k cs) = ((List.ofFn fun k => F (cs k)).take (i + 1)).sum +
        ((List.ofFn fun k => F (cs k)).drop (i + 1)).sum := by
      rw [← List.sum_append, List.take_append_drop]; rfl
    have h2 : ((List.ofFn fun k => F (cs k)).take (i + 1)).sum = offF cs i + F (cs i) := by
      rw [List.take_add_one, List.sum_append]; simp [offF]
    omega
  | cat2 k cs ih =>
    intro g ha hs hf hc hl hg i
    refine ih i _ (ha.1 i) (hs i) (hf i) (hc i) (hl i) fun n hn r hr f hf' ch hch => ?_
    refine hg n hn r hr f (by rw [← cat2_F ha.2 i]; exact hf') _ ?_
    have h1 : C (cat2 k cs) = ((List.ofFn fun k => C (cs k)).take (i + 1)).sum +
        ((List.ofFn fun k => C (cs k)).drop (i + 1)).sum := by
      rw [← List.sum_append, List.take_append_drop]; rfl
    have h2 : ((List.ofFn fun k => C (cs k)).take (i + 1)).sum = offC cs i + C (cs i) := by
      rw [List.take_add_one, List.sum_append]; simp [offC]
    omega
  | prod c ih =>
    intro g ha hs hf hc hl hg
    exact ih _ ha hs hf hc hl fun n hn r hr f hf' ch hch => hg n hn r hr 0 (by simp [F]) ch hch
  | sum c Co R θ ih =>
    intro g ha hs hf hc hl hg
    have hR : R = T := hs.2
    have hv := entries_positive (X := X) (N := N) (T := T) ha hs hf hc hl
    have hin := entries_positive (X := X) (N := N) (T := T) ha.1 hs.1 hf.1 hc.1 hl
    refine ⟨ih _ ha.1 hs.1 hf.1 hc.1 hl fun n hn r hr f hf' ci hci => ?_, ?_⟩
    · unfold sumGrad
      have hCo : 0 < Co := ha.2.1
      refine sum_pos (fun co hco => mul_pos (hg n hn r hr f hf' co (mem_range.1 hco)) ?_) ⟨0, mem_range.2 hCo⟩
      rw [expL_pos_iff, ne_eq, WithBot.add_eq_bot, WithBot.add_eq_bot]
      push Not
      exact ⟨⟨hin n hn r hr f hf' ci hci, logW_ne_bot hci (hf.2 f hf' ci hci co (mem_range.1 hco) r (by omega))⟩,
        WithBot.coe_ne_bot⟩
    · intro f hf' co hco r hr
      refine ⟨fun n hn => hv n hn r (by omega) f hf' co hco, 0, hc.2, ?_⟩
      unfold logCount
      rw [ne_eq, lse_eq_bot_iff]
      push Not
      refine ⟨0, hN, ?_⟩
      rw [ne_eq, WithBot.add_eq_bot, WithBot.add_eq_bot, WithBot.add_eq_bot]
      push Not
      refine ⟨⟨⟨logW_ne_bot hc.2 (hf.2 f hf' 0 hc.2 co hco r hr), ?_⟩, hin 0 hN r (by omega) f hf' 0 hc.2⟩,
        WithBot.coe_ne_bot⟩
      rw [← expL_pos_iff, expL_logL (hg 0 hN r (by omega) f hf' co hco).le]
      exact hg 0 hN r (by omega) f hf' co hco

/-- **C28 for positive models**: with finite logits and leaf densities that are positive on the batch - e.g. Gaussian,
Bernoulli or Categorical leaves with parameters in the interior - the EM step never produces NaN and never decreases
the likelihood, whatever the weights. -/
theorem C28_em_step_positive_model {X : ℕ → Row} {N T : ℕ} (hN : 0 < N) {upd : LeafUpd} (hu : GoodUpd X N T upd)
    {c : Circ} (ha : Accepted c) (hs : SameReps T c) (hf : FiniteLogits c) (hc : ChannelsPositive c)
    (hl : LeavesPositive X N T c) :
    NoNaN X N c rootGrad ∧ accLL X N T c ≤ accLL X N T (emStep X N upd c) := by
  have hn := noNaN_of_positive hN rootGrad ha hs hf hc hl (fun _ _ _ _ _ _ _ _ => one_pos)
  exact ⟨hn, (C28_em_step_monotone hu ha hs (entries_positive ha hs hf hc hl) hn).1⟩

/-! ### Any number of steps -/

theorem step_scope (X : ℕ → Row) (N : ℕ) (upd : LeafUpd) (c : Circ) : ∀ g, scope (step X N upd c g) = scope c := by
  induction c with
  | leaf q Ch R d => intro g; rfl
  | cat1 n cs ih => intro g; simp [step, scope, ih]
  | cat2 n cs ih => intro g; simp [step, scope, ih]
  | prod c ih => intro g; simp [step, scope, ih]
  | sum c Co R θ ih => intro g; simp [step, scope, ih]

theorem step_sameReps (X : ℕ → Row) (N T : ℕ) (upd : LeafUpd) (c : Circ) :
    ∀ g, SameReps T c → SameReps T (step X N upd c g) := by
  induction c with
  | leaf q Ch R d => intro g h; exact h
  | cat1 n cs ih => intro g h i; exact ih i _ (h i)
  | cat2 n cs ih => intro g h i; exact ih i _ (h i)
  | prod c ih => intro g h; exact ih _ h
  | sum c Co R θ ih => intro g h; exact ⟨ih _ h.1, h.2⟩

theorem step_channels (X : ℕ → Row) (N : ℕ) (upd : LeafUpd) (c : Circ) :
    ∀ g, ChannelsPositive c → ChannelsPositive (step X N upd c g) := by
  induction c with
  | leaf q Ch R d => intro g h; exact h
  | cat1 n cs ih => intro g h i; exact ih i _ (h i)
  | cat2 n cs ih => intro g h i; exact ih i _ (h i)
  | prod c ih => intro g h; exact ih _ h
  | sum c Co R θ ih => intro g h; exact ⟨ih _ h.1, by rw [step_C]; exact h.2⟩

/-- The step of a positive model is again a positive, accepted model. -/
theorem step_positive {X : ℕ → Row} {N T : ℕ} (hN : 0 < N) {upd : LeafUpd} (hu : GoodUpd X N T upd) {c : Circ} :
    ∀ g : Grad, Accepted c → SameReps T c → FiniteLogits c → ChannelsPositive c → LeavesPositive X N T c →
      (∀ n < N, ∀ r < T, ∀ f < F c, ∀ ch < C c, 0 < g n f ch r) →
      Accepted (step X N upd c g) ∧ FiniteLogits (step X N upd c g) ∧ LeavesPositive X N T (step X N upd c g) := by
  induction c with
  | leaf q Ch R d =>
    intro g ha hs hf hc hl hg
    have hR : R = T := hs
    subst hR
    refine ⟨?_, trivial, ?_⟩
    · have := ha.leaf_valid
      simp only [Accepted, mkLeaf, bind, Except.bind] at ha
      show mkLeaf _ _ _ _ = _
      simp only [mkLeaf, bind, Except.bind]
      split at ha
      · simp at ha
      · rfl
    · intro n hn r hr f hf' ch hch
      exact (hu q Ch d g fun n hn r hr f hf' ch hch =>
        ⟨(hg n hn r hr f hf' ch hch).le, fun _ => hl n hn r hr f hf' ch hch⟩).1 n hn r hr f hf' ch hch
          (hg n hn r hr f hf' ch hch)
  | cat1 k cs ih =>
    intro g ha hs hf hc hl hg
    have hI : ∀ i, _ := fun i => ih i (fun m f ch r => g m (offF cs i + f) ch r) (ha.1 i) (hs i) (hf i) (hc i) (hl i)
      (fun n hn r hr f hf' ch hch => by
        refine hg n hn r hr _ ?_ ch (by rw [← cat1_C ha.2 i]; exact hch)
        have h1 : F (cat1 k cs) = ((List.ofFn fun k => F (cs k)).take (i + 1)).sum +
            ((List.ofFn fun k => F (cs k)).drop (i + 1)).sum := by
          rw [← List.sum_append, List.take_append_drop]; rfl
        have h2 : ((List.ofFn fun k => F (cs k)).take (i + 1)).sum = offF cs i + F (cs i) := by
          rw [List.take_add_one, List.sum_append]; simp [offF]
        omega)
    refine ⟨⟨fun i => (hI i).1, ?_⟩, fun i => (hI i).2.1, fun i => (hI i).2.2⟩
    rw [← ha.2]
    refine check1_congr ?_ ?_
    · rw [List.map_ofFn, List.map_ofFn]; congr 1; funext i; exact step_C ..
    · rw [List.map_ofFn, List.map_ofFn]; congr 1; funext i; exact step_scope ..
  | cat2 k cs ih =>
    intro g ha hs hf hc hl hg
    have hI : ∀ i, _ := fun i => ih i (fun m f ch r => g m f (offC cs i + ch) r) (ha.1 i) (hs i) (hf i) (hc i) (hl i)
      (fun n hn r hr f hf' ch hch => by
        refine hg n hn r hr f (by rw [← cat2_F ha.2 i]; exact hf') _ ?_
        have h1 : C (cat2 k cs) = ((List.ofFn fun k => C (cs k)).take (i + 1)).sum +
            ((List.ofFn fun k => C (cs k)).drop (i + 1)).sum := by
          rw [← List.sum_append, List.take_append_drop]; rfl
        have h2 : ((List.ofFn fun k => C (cs k)).take (i + 1)).sum = offC cs i + C (cs i) := by
          rw [List.take_add_one, List.sum_append]; simp [offC]
        omega)
    refine ⟨⟨fun i => (hI i).1, ?_⟩, fun i => (hI i).2.1, fun i => (hI i).2.2⟩
    rw [← ha.2]
    refine check2_congr ?_ ?_
    · rw [List.map_ofFn, List.map_ofFn]; congr 1; funext i; exact step_F ..
    · rw [List.map_ofFn, List.map_ofFn]; congr 1; funext i; exact step_scope ..
  | prod c ih =>
    intro g ha hs hf hc hl hg
    exact ih _ ha hs hf hc hl fun n hn r hr f hf' ch hch => hg n hn r hr 0 (by simp [F]) ch hch
  | sum c Co R θ ih =>
    intro g ha hs hf hc hl hg
    have hR : R = T := hs.2
    replace hg : ∀ n < N, ∀ r < T, ∀ f < F c, ∀ ch < Co, 0 < g n f ch r := hg
    have hin := entries_positive (X := X) (N := N) (T := T) ha.1 hs.1 hf.1 hc.1 hl
    obtain ⟨i1, i2, i3⟩ := ih (sumGrad X c Co R θ g) ha.1 hs.1 hf.1 hc.1 hl (by
      intro n hn r hr f hf' ci hci
      unfold sumGrad
      have hCo : 0 < Co := ha.2.1
      refine sum_pos (fun co hco => mul_pos (hg n hn r hr f hf' co (mem_range.1 hco)) ?_) ⟨0, mem_range.2 hCo⟩
      rw [expL_pos_iff, ne_eq, WithBot.add_eq_bot, WithBot.add_eq_bot]
      push Not
      exact ⟨⟨hin n hn r hr f hf' ci hci, logW_ne_bot hci (hf.2 f hf' ci hci co (mem_range.1 hco) r (by omega))⟩,
        WithBot.coe_ne_bot⟩)
    have hnew : ∀ f < F c, ∀ ci < C c, ∀ co < Co, ∀ r < R,
        newLogits (C c) N (logW c θ f co r) (fun n => g n f co r) (fun n ci => featAt (den c) f (X n) r ci)
          (fun n => featAt (den (sum c Co R θ)) f (X n) r co) ci ≠ ⊥ := by
      intro f hf' ci hci co hco r hr
      have hcnt : logCount N (logW c θ f co r) (fun n => g n f co r) (fun n ci => featAt (den c) f (X n) r ci)
          (fun n => featAt (den (sum c Co R θ)) f (X n) r co) ci ≠ ⊥ := by
        unfold logCount
        rw [ne_eq, lse_eq_bot_iff]
        push Not
        refine ⟨0, hN, ?_⟩
        rw [ne_eq, WithBot.add_eq_bot, WithBot.add_eq_bot, WithBot.add_eq_bot]
        push Not
        refine ⟨⟨⟨logW_ne_bot hci (hf.2 f hf' ci hci co hco r hr), ?_⟩, hin 0 hN r (by omega) f hf' ci hci⟩,
          WithBot.coe_ne_bot⟩
        rw [← expL_pos_iff, expL_logL (hg 0 hN r (by omega) f hf' co hco).le]
        exact hg 0 hN r (by omega) f hf' co hco
      unfold newLogits
      rw [← expL_pos_iff, expL_logSoftmax]
      exact div_pos ((expL_pos_iff _).2 hcnt) (sum_expL_pos ⟨ci, hci, hcnt⟩)
    refine ⟨⟨i1, ha.2.1, ?_⟩, ⟨i2, ?_⟩, i3⟩
    · intro f hf' co hco r hr
      rw [step_F] at hf'
      exact ⟨0, by rw [step_C]; exact hc.2, hnew f hf' 0 hc.2 co hco r hr⟩
    · intro f hf' ci hci co hco r hr
      rw [step_F] at hf'; rw [step_C] at hci
      exact hnew f hf' ci hci co hco r hr

/-- **C28 along a whole run**: from a positive model, the training likelihood never decreases at any of the steps of an
EM run of any length, and no step produces NaN. -/
theorem C28_em_run_monotone {X : ℕ → Row} {N T : ℕ} (hN : 0 < N) {upd : LeafUpd} (hu : GoodUpd X N T upd)
    {c : Circ} (ha : Accepted c) (hs : SameReps T c) (hf : FiniteLogits c) (hc : ChannelsPositive c)
    (hl : LeavesPositive X N T c) :
    (∀ k, NoNaN X N ((emStep X N upd)^[k] c) rootGrad) ∧
      Monotone fun k => accLL X N T ((emStep X N upd)^[k] c) := by
  have inv : ∀ k, Accepted ((emStep X N upd)^[k] c) ∧ SameReps T ((emStep X N upd)^[k] c) ∧
      FiniteLogits ((emStep X N upd)^[k] c) ∧ ChannelsPositive ((emStep X N upd)^[k] c) ∧
      LeavesPositive X N T ((emStep X N upd)^[k] c) := by
    intro k
    induction k with
    | zero => exact ⟨ha, hs, hf, hc, hl⟩
    | succ k ih =>
      rw [Function.iterate_succ_apply']
      obtain ⟨a, b, d, e, f⟩ := ih
      obtain ⟨x, y, z⟩ := step_positive hN hu rootGrad a b d e f (fun _ _ _ _ _ _ _ _ => one_pos)
      exact ⟨x, step_sameReps X N T upd _ _ b, y, step_channels X N upd _ _ e, z⟩
  have main : ∀ k, _ := fun k =>
    C28_em_step_positive_model hN hu (inv k).1 (inv k).2.1 (inv k).2.2.1 (inv k).2.2.2.1 (inv k).2.2.2.2
  refine ⟨fun k => (main k).1, monotone_nat_of_le_succ fun k => ?_⟩
  show accLL X N T ((emStep X N upd)^[k] c) ≤ accLL X N T ((emStep X N upd)^[k + 1] c)
  rw [Function.iterate_succ_apply']
  exact (main k).2

/-! ### Non-vacuity: the Bernoulli-Gaussian mixture of `CircuitProps` on two rows -/

def exRows : ℕ → Row := fun n v => some (if v = 0 then (n : ℝ) else 3)

theorem exMix_hypotheses : Accepted exMix ∧ SameReps 1 exMix ∧ FiniteLogits exMix ∧ ChannelsPositive exMix ∧
    LeavesPositive exRows 2 1 exMix := by
  refine ⟨exMix_ok.1, ⟨fun i => ?_, rfl⟩, ⟨fun i => ?_, ?_⟩, ⟨fun i => ?_, by decide⟩, fun i => ?_⟩
  · fin_cases i <;> exact fun i => by fin_cases i <;> rfl
  · fin_cases i <;> exact fun i => by fin_cases i <;> trivial
  · intro f _ ci _ co _ r _
    show logL (if ci = 0 then 1 / 4 else 3 / 4) ≠ ⊥
    split <;> norm_num [logL]
  · fin_cases i <;> exact fun i => by fin_cases i <;> exact Nat.one_pos
  · have key : ∀ p m : ℝ, 0 < p → p < 1 → LeavesPositive exRows 2 1 (exComp p m) := by
      intro p m h0 h1 i
      fin_cases i
      · intro n hn r _ f hf ch _
        obtain rfl : f = 0 := by simpa using hf
        rw [featAt_leaf (v := 0) rfl]
        interval_cases n <;> simp [exRows, Leaves.bernoulliLL, logL, h0, h1]
      · intro n hn r _ f hf ch _
        obtain rfl : f = 0 := by simpa using hf
        rw [featAt_leaf (v := 1) rfl]
        simp [exRows, Leaves.normalLL]
    fin_cases i
    · exact key _ _ (by norm_num) (by norm_num)
    · exact key _ _ (by norm_num) (by norm_num)

example : Monotone fun k => accLL exRows 2 1 ((emStep exRows 2 fixedLeaves)^[k] exMix) :=
  (C28_em_run_monotone (by decide) (fixedLeaves_good _ _ _) exMix_hypotheses.1 exMix_hypotheses.2.1
    exMix_hypotheses.2.2.1 exMix_hypotheses.2.2.2.1 exMix_hypotheses.2.2.2.2).2

/-! ### Where the property fails -/

/-- A unit that is responsible for no row of the batch gets NaN weights. -/
theorem C28_dead_unit_nan {Ci N : ℕ} {lw : ℕ → LogV} {g : ℕ → ℝ} {u : ℕ → ℕ → LogV} {v : ℕ → LogV}
    (h : ∀ n < N, g n = 0) : ¬ UnitOk Ci N lw g u v := by
  rintro ⟨-, ci, -, hne⟩
  apply hne
  unfold logCount
  rw [lse_eq_bot_iff]
  intro n hn
  simp [h n hn, logL]

/-- A mixture of `U(0,1) * S` and `U(5,6) * S'` with Sums `S`, `S'` over a Gaussian. -/
noncomputable def deadComp (a : ℝ) : Circ :=
  prod (cat1 2 ![leaf [0] 1 1 fun _ _ _ => Leaves.uniformLL a (a + 1),
    sum (leaf [1] 2 1 fun _ ch _ => Leaves.normalLL ch 1) 1 1 fun _ _ _ _ => 0])

noncomputable def deadMix : Circ := sum (cat2 2 ![deadComp 0, deadComp 5]) 1 1 fun _ _ _ _ => 0

noncomputable def deadRow : ℕ → Row := fun _ _ => some (1 / 2)

theorem deadComp_entry0 (a : ℝ) (n : ℕ) :
    featAt (den (cat1 2 ![leaf [0] 1 1 fun _ _ _ => Leaves.uniformLL a (a + 1),
      sum (leaf [1] 2 1 fun _ ch _ => Leaves.normalLL ch 1) 1 1 fun _ _ _ _ => 0])) 0 (deadRow n) 0 0 =
      Leaves.uniformLL a (a + 1) (1 / 2) :=
  (featAt_cat1 (cs := ![leaf [0] 1 1 fun _ _ _ => Leaves.uniformLL a (a + 1),
      sum (leaf [1] 2 1 fun _ ch _ => Leaves.normalLL ch 1) 1 1 fun _ _ _ _ => 0]) (0 : Fin 2) (j := 0) Nat.one_pos
      (deadRow n) 0 0).trans (featAt_leaf (v := 0) rfl _ _ _)

theorem deadComp_entry1 (a : ℝ) (n : ℕ) :
    featAt (den (cat1 2 ![leaf [0] 1 1 fun _ _ _ => Leaves.uniformLL a (a + 1),
      sum (leaf [1] 2 1 fun _ ch _ => Leaves.normalLL ch 1) 1 1 fun _ _ _ _ => 0])) 1 (deadRow n) 0 0 =
      featAt (den (sum (leaf [1] 2 1 fun _ ch _ => Leaves.normalLL ch 1) 1 1 fun _ _ _ _ => 0)) 0 (deadRow n) 0 0 :=
  featAt_cat1 (cs := ![leaf [0] 1 1 fun _ _ _ => Leaves.uniformLL a (a + 1),
      sum (leaf [1] 2 1 fun _ ch _ => Leaves.normalLL ch 1) 1 1 fun _ _ _ _ => 0]) (1 : Fin 2) (j := 0) Nat.one_pos
      (deadRow n) 0 0

theorem deadComp_zero (n : ℕ) : featAt (den (deadComp 0)) 0 (deadRow n) 0 0 ≠ ⊥ := by
  unfold deadComp
  rw [featAt_prod, ne_eq, WithBot.sum_eq_bot_iff]
  rintro ⟨j, hj, hb⟩
  have hj' : j < 2 := by simpa [F] using hj
  interval_cases j
  · rw [deadComp_entry0] at hb
    norm_num [Leaves.uniformLL] at hb
  · rw [deadComp_entry1, featAt_sum (by decide), lse_eq_bot_iff] at hb
    have := hb 0 (by decide)
    rw [featAt_leaf (v := 1) rfl, WithBot.add_eq_bot] at this
    rcases this with h | h
    · simp [deadRow, Leaves.normalLL] at h
    · exact logW_ne_bot (c := leaf [1] 2 1 fun _ ch _ => Leaves.normalLL ch 1) (θ := fun _ _ _ _ => 0) (f := 0) (co := 0)
        (r := 0) (ci := 0) (by decide) (by simp) h

theorem deadComp_five (n : ℕ) : featAt (den (deadComp 5)) 0 (deadRow n) 0 0 = ⊥ := by
  unfold deadComp
  rw [featAt_prod, WithBot.sum_eq_bot_iff]
  refine ⟨0, mem_range.2 (by decide), ?_⟩
  rw [deadComp_entry0]
  norm_num [Leaves.uniformLL]

/-- **C28 is false without the no-NaN hypothesis**: an accepted circuit with finite weights and a batch on which it has
positive likelihood, whose EM step sets the weights of a Sum node to NaN. -/
theorem C28_em_nan_witness : Accepted deadMix ∧ SameReps 1 deadMix ∧ FiniteLogits deadMix ∧
    (∀ n, featAt (den deadMix) 0 (deadRow n) 0 0 ≠ ⊥) ∧ ¬ NoNaN deadRow 1 deadMix rootGrad := by
  refine ⟨⟨⟨fun i => ?_, rfl⟩, le_rfl, fun _ _ _ _ _ _ => ⟨0, by decide, by simp⟩⟩, ⟨fun i => ?_, rfl⟩,
    ⟨fun i => ?_, fun _ _ _ _ _ _ _ _ => by simp⟩, fun n => ?_, fun h => ?_⟩
  · have : ∀ a, Accepted (deadComp a) := fun a => ⟨fun i => by
      fin_cases i
      · rfl
      · exact ⟨rfl, le_rfl, fun _ _ _ _ _ _ => ⟨0, by decide, by simp⟩⟩, rfl⟩
    fin_cases i <;> exact this _
  · have : ∀ a, SameReps 1 (deadComp a) := fun a i => by
      fin_cases i
      · rfl
      · exact ⟨rfl, rfl⟩
    fin_cases i <;> exact this _
  · have : ∀ a, FiniteLogits (deadComp a) := fun a i => by
      fin_cases i
      · trivial
      · exact ⟨trivial, fun _ _ _ _ _ _ _ _ => by simp⟩
    fin_cases i <;> exact this _
  · unfold deadMix
    rw [featAt_sum (by decide), ne_eq, lse_eq_bot_iff]
    intro h
    have := h 0 (by decide)
    rw [WithBot.add_eq_bot] at this
    rcases this with h | h
    · have e := featAt_cat2 (cs := ![deadComp 0, deadComp 5]) (0 : Fin 2) (f := 0) (k := 0) (by decide) (by decide)
        (deadRow n) 0
      exact deadComp_zero n (e.symm.trans h)
    · exact logW_ne_bot (c := cat2 2 ![deadComp 0, deadComp 5]) (θ := fun _ _ _ _ => 0) (f := 0) (co := 0)
        (r := 0) (ci := 0) (by decide) (by simp) h
  · have h1 := (h.1 (1 : Fin 2))
    have h2 := (h1 (1 : Fin 2)).2 0 (by decide) 0 (by decide) 0 (by decide)
    refine C28_dead_unit_nan (fun n hn => ?_) h2
    show sumGrad _ _ _ _ _ _ n 0 1 0 = 0
    unfold sumGrad
    refine sum_eq_zero fun co hco => ?_
    rw [show featAt (den (cat2 2 ![deadComp 0, deadComp 5])) 0 (deadRow n) 0 1 = ⊥ from ?_]
    · simp
    · have := featAt_cat2 (cs := ![deadComp 0, deadComp 5]) (1 : Fin 2) (f := 0) (k := 0) (by decide) (by decide)
        (deadRow n) 0
      exact this.trans (deadComp_five n)

/-- The softmax weights after `k` visits are the old ones times the `k`-th power of the mean responsibility ratio,
renormalised. -/
theorem visits_weights {Ci N : ℕ} {g : ℕ → ℝ} {u : ℕ → ℕ → LogV} {v : ℕ → LogV} (hg : ∀ n < N, 0 ≤ g n)
    (hv : ∀ n < N, v n ≠ ⊥) : ∀ (k : ℕ) (θ : ℕ → LogV), (∃ ci < Ci, θ ci ≠ ⊥) →
      (∀ ci < Ci, 0 < ∑ n ∈ range N, g n * (expL (u n ci) / expL (v n))) →
      ∀ ci < Ci, softmax Ci (visits Ci N g u v k θ) ci =
        expL (θ ci) * (∑ n ∈ range N, g n * (expL (u n ci) / expL (v n))) ^ k /
          ∑ j ∈ range Ci, expL (θ j) * (∑ n ∈ range N, g n * (expL (u n j) / expL (v n))) ^ k := by
  intro k
  induction k with
  | zero =>
    intro θ _ _ ci hci
    rw [softmax_eq]; simp [visits]
  | succ k ih =>
    intro θ hθ hh ci hci
    have hS : 0 < ∑ j ∈ range Ci, expL (θ j) := sum_expL_pos hθ
    have hcnt : ∀ j, expL (logCount N (logSoftmax Ci θ) g u v j) =
        expL (θ j) / (∑ j ∈ range Ci, expL (θ j)) * ∑ n ∈ range N, g n * (expL (u n j) / expL (v n)) := by
      intro j
      rw [expL_logCount N _ g u v j hg hv, expL_logSoftmax, mul_sum]
      exact sum_congr rfl fun n _ => by ring
    obtain ⟨j0, hj0, hne⟩ := hθ
    have hZ : 0 < ∑ j ∈ range Ci, expL (logCount N (logSoftmax Ci θ) g u v j) := by
      refine sum_expL_pos ⟨j0, hj0, ?_⟩
      rw [← expL_pos_iff, hcnt]
      have := (expL_pos_iff _).2 hne
      have := hh j0 hj0
      positivity
    have hnew : ∀ j, expL (newLogits Ci N (logSoftmax Ci θ) g u v j) =
        expL (θ j) / (∑ j ∈ range Ci, expL (θ j)) * (∑ n ∈ range N, g n * (expL (u n j) / expL (v n))) /
          ∑ j ∈ range Ci, expL (logCount N (logSoftmax Ci θ) g u v j) := by
      intro j
      unfold newLogits
      rw [expL_logSoftmax, hcnt j]
    show softmax Ci (visits Ci N g u v k (newLogits Ci N (logSoftmax Ci θ) g u v)) ci = _
    rw [ih _ ⟨j0, hj0, by
      rw [← expL_pos_iff, hnew]
      have := (expL_pos_iff _).2 hne
      have := hh j0 hj0
      positivity⟩ hh ci hci]
    simp only [hnew]
    set Z := ∑ j ∈ range Ci, expL (logCount N (logSoftmax Ci θ) g u v j)
    set S := ∑ j ∈ range Ci, expL (θ j)
    have e : ∀ j, expL (θ j) / S * (∑ n ∈ range N, g n * (expL (u n j) / expL (v n))) / Z *
        (∑ n ∈ range N, g n * (expL (u n j) / expL (v n))) ^ k =
        (S * Z)⁻¹ * (expL (θ j) * (∑ n ∈ range N, g n * (expL (u n j) / expL (v n))) ^ (k + 1)) := by
      intro j
      rw [pow_succ, mul_inv]
      ring
    simp only [e]
    rw [← mul_sum, mul_div_mul_left _ _ (by positivity)]

/-- Three rows, two of the first kind: the two components have densities `(1, 0)` and `(0, 1)`. -/
noncomputable def sharedU : ℕ → ℕ → LogV := fun n ci =>
  if n < 2 then (if ci = 0 then 0 else ⊥) else (if ci = 0 then ⊥ else 0)

/-- Weights `(4/5, 1/5)`. -/
noncomputable def sharedθ : ℕ → LogV := fun ci => logL (if ci = 0 then 4 / 5 else 1 / 5)

/-- The cached values of the unit. -/
noncomputable def sharedV : ℕ → LogV := fun n => logL (if n < 2 then 4 / 5 else 1 / 5)

/-- Data likelihood of the unit with logits `θ`. -/
noncomputable def sharedLik (θ : ℕ → LogV) : ℝ :=
  ∏ n ∈ range 3, ∑ ci ∈ range 2, softmax 2 θ ci * expL (sharedU n ci)

/-- **C28 is false for shared Sum nodes**: reached along two paths, the update runs twice with the stale likelihoods and
the data likelihood falls from 16/125 to 1/8 (a single visit would raise it to 4/27). -/
theorem C28_shared_not_monotone :
    (∀ n < 3, expL (sharedV n) = ∑ ci ∈ range 2, softmax 2 sharedθ ci * expL (sharedU n ci)) ∧
    sharedLik (visits 2 3 (fun _ => 1) sharedU sharedV 0 sharedθ) = 16 / 125 ∧
    sharedLik (visits 2 3 (fun _ => 1) sharedU sharedV 1 sharedθ) = 4 / 27 ∧
    sharedLik (visits 2 3 (fun _ => 1) sharedU sharedV 2 sharedθ) = 1 / 8 := by
  have hv : ∀ n < 3, sharedV n ≠ ⊥ := by
    intro n hn
    unfold sharedV
    split <;> norm_num [logL]
  have eV : ∀ n, expL (sharedV n) = if n < 2 then 4 / 5 else 1 / 5 := by
    intro n; unfold sharedV; split <;> exact expL_logL (by norm_num)
  have eθ : ∀ n, expL (sharedθ n) = if n = 0 then 4 / 5 else 1 / 5 := by
    intro n; unfold sharedθ; split <;> exact expL_logL (by norm_num)
  have eU : ∀ n ci, expL (sharedU n ci) = if n < 2 then (if ci = 0 then 1 else 0) else (if ci = 0 then 0 else 1) := by
    intro n ci; unfold sharedU; split <;> split <;> simp
  have hw := fun k => visits_weights (Ci := 2) (N := 3) (g := fun _ => 1) (u := sharedU) (v := sharedV)
    (fun _ _ => zero_le_one) hv k sharedθ ⟨0, by decide, by rw [← expL_pos_iff, eθ]; norm_num⟩
    (by intro ci hci; interval_cases ci <;> norm_num [sum_range_succ, eU, eV])
  refine ⟨?_, ?_, ?_, ?_⟩
  · intro n hn
    rw [eV]
    simp only [softmax_eq, eθ, eU]
    interval_cases n <;> norm_num [sum_range_succ]
  all_goals
    unfold sharedLik
    have h0 := hw 0 0 (by decide)
    have h1 := hw 0 1 (by decide)
    have h2 := hw 1 0 (by decide)
    have h3 := hw 1 1 (by decide)
    have h4 := hw 2 0 (by decide)
    have h5 := hw 2 1 (by decide)
    norm_num [sum_range_succ, eU, eV, eθ] at h0 h1 h2 h3 h4 h5
    norm_num [prod_range_succ, sum_range_succ, eU, h0, h1, h2, h3, h4, h5]

end Em
end Verif

import Verif.SumConvProps
import Verif.SamplingLaw
import Mathlib.Data.List.GetD

/-!
Helper lemmas for C61: families of likelihoods closed under the layers of a convolutional network.
-/

open MeasureTheory

namespace Verif.Conv

open Finset Verif.Circ

/-- What a layer's output family (features `< n`, channels `< C`, scopes `s`, log-likelihoods `u`) satisfies. -/
structure Fam (μ : Var → Measure ℝ) (n C : ℕ) (s : ℕ → Finset Var) (u : ℕ → Row → ℕ → LogV) : Prop where
  disj : ∀ f < n, ∀ g < n, f ≠ g → Disjoint (s f) (s g)
  loc : ∀ f < n, ∀ ch < C, ∀ x y : Row, (∀ v ∈ s f, x v = y v) → u f x ch = u f y ch
  meas : ∀ f < n, ∀ ch < C, ∀ {Ω : Type} [MeasurableSpace Ω] (Φ : Ω → Row), MeasRow Φ →
    Measurable fun ω => expL (u f (Φ ω) ch)
  miss : ∀ f < n, ∀ ch < C, ∀ x : Row, (∀ v ∈ s f, x v = none) → expL (u f x ch) = 1
  int : ∀ f < n, ∀ ch < C, ∀ v ∈ s f, ∀ x : Row,
    ∫⁻ t, ENNReal.ofReal (expL (u f (Function.update x v (some t)) ch)) ∂μ v
      = ENNReal.ofReal (expL (u f (Function.update x v none) ch))
  mono : ∀ f < n, ∀ ch < C, ∀ e z : Row, (∀ v, e v ≠ none → z v = e v) → expL (u f e ch) = 0 → expL (u f z ch) = 0

variable {μ : Var → Measure ℝ}

theorem Fam.congr {n C : ℕ} {s : ℕ → Finset Var} {u u' : ℕ → Row → ℕ → LogV} (h : Fam μ n C s u)
    (he : ∀ f < n, ∀ ch < C, ∀ x, u' f x ch = u f x ch) : Fam μ n C s u' where
  disj := h.disj
  loc f hf ch hch x y hxy := by rw [he f hf ch hch, he f hf ch hch]; exact h.loc f hf ch hch x y hxy
  meas f hf ch hch _ _ Φ hΦ := by simp only [he f hf ch hch]; exact h.meas f hf ch hch Φ hΦ
  miss f hf ch hch x hx := by rw [he f hf ch hch]; exact h.miss f hf ch hch x hx
  int f hf ch hch v hv x := by simp only [he f hf ch hch]; exact h.int f hf ch hch v hv x
  mono f hf ch hch e z hez := by rw [he f hf ch hch, he f hf ch hch]; exact h.mono f hf ch hch e z hez

theorem Fam.base {c : Circ} (h : Accepted c) (hal : Aligned c) (hl : LeafOk μ c) (hr : RepIn 0 c) :
    Fam μ c.F c.C (Circ.fscope c) (fun f x ch => featAt (den c) f x 0 ch) where
  disj _ hf _ hg hne := fscope_disjoint h hf hg hne
  loc _ hf _ hch _ _ hxy := featAt_local h hal hf hch hxy
  meas _ hf _ hch _ _ _ hΦ := featAt_measurable hΦ h hr hl hf hch
  miss _ hf _ hch _ hx := expL_featAt_missing h hal hr hf hch hx
  int _ hf _ hch _ hv _ := lintegral_one_var h hal hr hl hf hch hv
  mono _ hf _ hch _ _ hez := expL_zero_mono h hez hf hch

/-- A layer of mixtures. -/
theorem Fam.sum {n C Co : ℕ} {s : ℕ → Finset Var} {u u' : ℕ → Row → ℕ → LogV} (h : Fam μ n C s u)
    {w : ℕ → ℕ → ℕ → ℝ} (hw : ∀ f co ci, 0 ≤ w f co ci) (hw1 : ∀ f < n, ∀ co < Co, ∑ ci ∈ range C, w f co ci = 1)
    (he : ∀ f < n, ∀ co < Co, ∀ x, expL (u' f x co) = ∑ ci ∈ range C, w f co ci * expL (u f x ci)) :
    Fam μ n Co s u' where
  disj := h.disj
  loc f hf co hco x y hxy := by
    apply expL_injective
    rw [he f hf co hco, he f hf co hco]
    exact sum_congr rfl fun ci hci => by rw [h.loc f hf ci (mem_range.1 hci) x y hxy]
  meas f hf co hco _ _ Φ hΦ := by
    simp only [he f hf co hco]
    exact Finset.measurable_sum _ fun ci hci => (h.meas f hf ci (mem_range.1 hci) Φ hΦ).const_mul _
  miss f hf co hco x hx := by
    rw [he f hf co hco, ← hw1 f hf co hco]
    exact sum_congr rfl fun ci hci => by rw [h.miss f hf ci (mem_range.1 hci) x hx, mul_one]
  int f hf co hco v hv x := by
    simp only [he f hf co hco]
    have hnn : ∀ (o : Option ℝ) ci, 0 ≤ w f co ci * expL (u f (Function.update x v o) ci) := fun o ci =>
      mul_nonneg (hw _ _ _) (expL_nonneg _)
    simp only [ENNReal.ofReal_sum_of_nonneg fun ci _ => hnn _ ci, ENNReal.ofReal_mul (hw _ _ _)]
    have hm : ∀ ci ∈ range C, Measurable fun t : ℝ =>
        ENNReal.ofReal (expL (u f (Function.update x v (some t)) ci)) := fun ci hci =>
      ENNReal.measurable_ofReal.comp (h.meas f hf ci (mem_range.1 hci) _ (measRow_update x v))
    rw [lintegral_finsetSum' _ fun ci hci => ((hm ci hci).const_mul _).aemeasurable]
    refine sum_congr rfl fun ci hci => ?_
    rw [lintegral_const_mul _ (hm ci hci), h.int f hf ci (mem_range.1 hci) v hv x]
  mono f hf co hco e z hez := by
    rw [he f hf co hco, he f hf co hco]
    intro h0
    rw [sum_eq_zero_iff_of_nonneg fun ci _ => mul_nonneg (hw _ _ _) (expL_nonneg _)] at h0
    refine sum_eq_zero fun ci hci => ?_
    rcases mul_eq_zero.1 (h0 ci hci) with h1 | h1
    · rw [h1, zero_mul]
    · rw [h.mono f hf ci (mem_range.1 hci) e z hez h1, mul_zero]

/-- A layer of products of disjoint groups of features. -/
theorem Fam.prod {n n' C : ℕ} {s s' : ℕ → Finset Var} {u u' : ℕ → Row → ℕ → LogV} (h : Fam μ n C s u)
    {G : ℕ → Finset ℕ} (hG : ∀ o < n', G o ⊆ range n) (hd : ∀ o < n', ∀ o' < n', o ≠ o' → Disjoint (G o) (G o'))
    (hs : ∀ o < n', ∀ v, v ∈ s' o ↔ ∃ f ∈ G o, v ∈ s f)
    (he : ∀ o < n', ∀ ch < C, ∀ x, u' o x ch = ∑ f ∈ G o, u f x ch) : Fam μ n' C s' u' := by
  have hin : ∀ o < n', ∀ f ∈ G o, f < n := fun o ho f hf => mem_range.1 (hG o ho hf)
  have hE : ∀ o < n', ∀ ch < C, ∀ x, expL (u' o x ch) = ∏ f ∈ G o, expL (u f x ch) := by
    intro o ho ch hch x
    rw [he o ho ch hch, expL_sum]
  refine ⟨?_, ?_, ?_, ?_, ?_, ?_⟩
  · intro o ho o' ho' hne
    rw [Finset.disjoint_left]
    intro v hv hv'
    obtain ⟨f, hf, hvf⟩ := (hs o ho v).1 hv
    obtain ⟨g, hg, hvg⟩ := (hs o' ho' v).1 hv'
    by_cases hfg : f = g
    · subst hfg; exact Finset.disjoint_left.1 (hd o ho o' ho' hne) hf hg
    · exact Finset.disjoint_left.1 (h.disj f (hin o ho f hf) g (hin o' ho' g hg) hfg) hvf hvg
  · intro o ho ch hch x y hxy
    rw [he o ho ch hch, he o ho ch hch]
    exact sum_congr rfl fun f hf => h.loc f (hin o ho f hf) ch hch x y fun v hv => hxy v ((hs o ho v).2 ⟨f, hf, hv⟩)
  · intro o ho ch hch Ω _ Φ hΦ
    simp only [hE o ho ch hch]
    exact Finset.measurable_prod _ fun f hf => h.meas f (hin o ho f hf) ch hch Φ hΦ
  · intro o ho ch hch x hx
    rw [hE o ho ch hch]
    exact prod_eq_one fun f hf => h.miss f (hin o ho f hf) ch hch x fun v hv => hx v ((hs o ho v).2 ⟨f, hf, hv⟩)
  · intro o ho ch hch v hv x
    obtain ⟨g, hg, hvg⟩ := (hs o ho v).1 hv
    have hgn := hin o ho g hg
    have hother : ∀ q : Option ℝ, ∏ f ∈ (G o).erase g, expL (u f (Function.update x v q) ch) =
        ∏ f ∈ (G o).erase g, expL (u f x ch) := by
      intro q
      refine prod_congr rfl fun f hf => ?_
      rw [mem_erase] at hf
      congr 1
      refine h.loc f (hin o ho f hf.2) ch hch _ _ fun w hw => ?_
      have : w ≠ v := by
        rintro rfl
        exact Finset.disjoint_left.1 (h.disj f (hin o ho f hf.2) g hgn hf.1) hw hvg
      simp [this]
    simp only [hE o ho ch hch, ← mul_prod_erase _ _ hg, hother, ENNReal.ofReal_mul (expL_nonneg _)]
    have hm : Measurable fun t : ℝ => ENNReal.ofReal (expL (u g (Function.update x v (some t)) ch)) :=
      ENNReal.measurable_ofReal.comp (h.meas g hgn ch hch _ (measRow_update x v))
    rw [lintegral_mul_const _ hm, h.int g hgn ch hch v hvg x]
  · intro o ho ch hch e z hez
    rw [hE o ho ch hch, hE o ho ch hch, prod_eq_zero_iff, prod_eq_zero_iff]
    rintro ⟨f, hf, h0⟩
    exact ⟨f, hf, h.mono f (hin o ho f hf) ch hch e z hez h0⟩

/-- The product, feature by feature, of two layers over disjoint scopes. -/
theorem Fam.fuse {n C : ℕ} {s t s' : ℕ → Finset Var} {u w u' : ℕ → Row → ℕ → LogV} (h : Fam μ n C s u) (k : Fam μ n C t w)
    (hd : ∀ f < n, ∀ g < n, Disjoint (s f) (t g)) (hs : ∀ f < n, ∀ v, v ∈ s' f ↔ v ∈ s f ∨ v ∈ t f)
    (he : ∀ f < n, ∀ ch < C, ∀ x, u' f x ch = u f x ch + w f x ch) : Fam μ n C s' u' := by
  have hall : Fam μ (n + n) C (fun f => if f < n then s f else t (f - n)) (fun f x ch => if f < n then u f x ch else w (f - n) x ch) := by
    refine ⟨?_, ?_, ?_, ?_, ?_, ?_⟩
    · intro f hf g hg hne
      by_cases h1 : f < n <;> by_cases h2 : g < n <;> simp only [h1, h2, if_true, if_false]
      · exact h.disj f h1 g h2 hne
      · exact hd f h1 _ (by omega)
      · exact (hd g h2 _ (by omega)).symm
      · exact k.disj _ (by omega) _ (by omega) (by omega)
    · intro f hf ch hch x y hxy
      by_cases h1 : f < n <;> simp only [h1, if_true, if_false] at hxy ⊢
      · exact h.loc f h1 ch hch x y hxy
      · exact k.loc _ (by omega) ch hch x y hxy
    · intro f hf ch hch Ω _ Φ hΦ
      by_cases h1 : f < n <;> simp only [h1, if_true, if_false]
      · exact h.meas f h1 ch hch Φ hΦ
      · exact k.meas _ (by omega) ch hch Φ hΦ
    · intro f hf ch hch x hx
      by_cases h1 : f < n <;> simp only [h1, if_true, if_false] at hx ⊢
      · exact h.miss f h1 ch hch x hx
      · exact k.miss _ (by omega) ch hch x hx
    · intro f hf ch hch v hv x
      by_cases h1 : f < n <;> simp only [h1, if_true, if_false] at hv ⊢
      · exact h.int f h1 ch hch v hv x
      · exact k.int _ (by omega) ch hch v hv x
    · intro f hf ch hch e z hez
      by_cases h1 : f < n <;> simp only [h1, if_true, if_false]
      · exact h.mono f h1 ch hch e z hez
      · exact k.mono _ (by omega) ch hch e z hez
  refine hall.prod (G := fun f => {f, n + f}) ?_ ?_ ?_ ?_
  · intro o ho f hf
    simp only [Finset.mem_insert, Finset.mem_singleton] at hf
    rw [mem_range]; omega
  · intro o ho o' ho' hne
    rw [Finset.disjoint_left]
    intro f hf hf'
    simp only [Finset.mem_insert, Finset.mem_singleton] at hf hf'
    omega
  · intro o ho v
    rw [hs o ho]
    constructor
    · rintro (hv | hv)
      · exact ⟨o, by simp, by simpa [ho] using hv⟩
      · exact ⟨n + o, by simp, by simpa using hv⟩
    · rintro ⟨f, hf, hv⟩
      simp only [Finset.mem_insert, Finset.mem_singleton] at hf
      rcases hf with rfl | rfl
      · left; simpa [ho] using hv
      · right; simpa using hv
  · intro o ho ch hch x
    rw [he o ho ch hch, Finset.sum_pair (by omega)]
    simp [ho]

/-- Products of pairs of neighbouring features. -/
theorem Fam.pair {n C : ℕ} {s s' : ℕ → Finset Var} {u u' : ℕ → Row → ℕ → LogV} (h : Fam μ n C s u)
    (hs : ∀ f < n / 2, ∀ v, v ∈ s' f ↔ v ∈ s (2 * f) ∨ v ∈ s (2 * f + 1))
    (he : ∀ f < n / 2, ∀ ch < C, ∀ x, u' f x ch = u (2 * f) x ch + u (2 * f + 1) x ch) : Fam μ (n / 2) C s' u' := by
  refine h.prod (G := fun f => {2 * f, 2 * f + 1}) ?_ ?_ ?_ ?_
  · intro o ho f hf
    simp only [Finset.mem_insert, Finset.mem_singleton] at hf
    rw [mem_range]; omega
  · intro o ho o' ho' hne
    rw [Finset.disjoint_left]
    intro f hf hf'
    simp only [Finset.mem_insert, Finset.mem_singleton] at hf hf'
    omega
  · intro o ho v
    rw [hs o ho]
    simp
  · intro o ho ch hch x
    rw [he o ho ch hch, Finset.sum_pair (by omega)]

/-- What a permutation of the outputs of a packing layer satisfies. -/
def PermOk (t : ℕ) (perm : Option (List ℕ)) : Prop := ∀ p, perm = some p → p.Perm (List.range t)

theorem permAt_lt {t : ℕ} {perm : Option (List ℕ)} (h : PermOk t perm) {f : ℕ} (hf : f < t) : permAt perm f < t := by
  cases perm with
  | none => exact hf
  | some p =>
    have hp := h p rfl
    have hl : f < p.length := by rw [hp.length_eq, List.length_range]; exact hf
    show p.getD f 0 < t
    rw [List.getD_eq_getElem p 0 hl]
    exact List.mem_range.1 (hp.mem_iff.1 (List.getElem_mem hl))

theorem permInv_permAt {t : ℕ} {perm : Option (List ℕ)} (h : PermOk t perm) {f : ℕ} (hf : f < t) :
    permInv perm (permAt perm f) = f := by
  cases perm with
  | none => rfl
  | some p =>
    have hp := h p rfl
    have hl : f < p.length := by rw [hp.length_eq, List.length_range]; exact hf
    show p.idxOf (p.getD f 0) = f
    rw [List.getD_eq_getElem p 0 hl]
    exact (hp.nodup_iff.2 List.nodup_range).idxOf_getElem f hl

theorem permAt_permInv {t : ℕ} {perm : Option (List ℕ)} (h : PermOk t perm) {i : ℕ} (hi : i < t) :
    permInv perm i < t ∧ permAt perm (permInv perm i) = i := by
  cases perm with
  | none => exact ⟨hi, rfl⟩
  | some p =>
    have hp := h p rfl
    have hm : i ∈ p := hp.mem_iff.2 (List.mem_range.2 hi)
    have hl : p.idxOf i < p.length := List.idxOf_lt_length_iff.2 hm
    refine ⟨by rw [hp.length_eq, List.length_range] at hl; exact hl, ?_⟩
    show p.getD (p.idxOf i) 0 = i
    rw [List.getD_eq_getElem p 0 hl]
    exact List.getElem_idxOf hl

/-- Features put at new positions, the other positions filled with the constant 1. -/
theorem Fam.place {n C t : ℕ} {s s' : ℕ → Finset Var} {u u' : ℕ → Row → ℕ → LogV} (h : Fam μ n C s u)
    {perm : Option (List ℕ)} (hp : PermOk t perm)
    (hs : ∀ f < t, ∀ v, v ∈ s' f ↔ permAt perm f < n ∧ v ∈ s (permAt perm f))
    (he : ∀ f < t, ∀ ch < C, ∀ x, u' f x ch = if permAt perm f < n then u (permAt perm f) x ch else 0) : Fam μ t C s' u' := by
  refine h.prod (G := fun f => if permAt perm f < n then {permAt perm f} else ∅) ?_ ?_ ?_ ?_
  · intro o ho f hf
    split_ifs at hf with h1
    · rw [Finset.mem_singleton] at hf; rw [mem_range, hf]; exact h1
    · simp at hf
  · intro o ho o' ho' hne
    rw [Finset.disjoint_left]
    intro f hf hf'
    split_ifs at hf with h1
    · split_ifs at hf' with h2
      · rw [Finset.mem_singleton] at hf hf'
        apply hne
        rw [← permInv_permAt hp ho, ← permInv_permAt hp ho', ← hf, ← hf']
      · simp at hf'
    · simp at hf
  · intro o ho v
    rw [hs o ho]
    split_ifs with h1 <;> simp [h1]
  · intro o ho ch hch x
    rw [he o ho ch hch]
    split_ifs with h1 <;> simp

/-- Integrating out any set of variables of a feature gives the value with those columns missing. -/
theorem Fam.marginal [∀ v, SigmaFinite (μ v)] {n C : ℕ} {s : ℕ → Finset Var} {u : ℕ → Row → ℕ → LogV} (h : Fam μ n C s u)
    {f ch : ℕ} (hf : f < n) (hch : ch < C) (S : Finset Var) (hS : S ⊆ s f) (x : Var → ℝ) :
    (∫⋯∫⁻_S, (fun y => ENNReal.ofReal (expL (u f (fun v => some (y v)) ch))) ∂μ) x
      = ENNReal.ofReal (expL (u f (maskRow S x) ch)) := by
  classical
  have hmeas : Measurable fun y : Var → ℝ => ENNReal.ofReal (expL (u f (fun v => some (y v)) ch)) := by
    refine ENNReal.measurable_ofReal.comp (h.meas f hf ch hch (Ω := Var → ℝ) (fun y v => some (y v)) ?_)
    intro v; exact .inl ⟨fun y => y v, measurable_pi_apply v, fun _ => rfl⟩
  induction S using Finset.induction_on generalizing x with
  | empty =>
    have : maskRow ∅ x = fun v => some (x v) := by funext v; simp [maskRow]
    simp [this]
  | insert v S hv ih =>
    rw [lmarginal_insert _ hmeas hv]
    simp only [ih (fun w hw => hS (mem_insert_of_mem hw))]
    have e1 : ∀ t, maskRow S (Function.update x v t) = Function.update (maskRow S x) v (some t) := by
      intro t; funext w
      by_cases hw : w = v
      · subst hw; simp [maskRow, hv]
      · simp [maskRow, hw]
    have e2 : maskRow (insert v S) x = Function.update (maskRow S x) v none := by
      funext w
      by_cases hw : w = v
      · subst hw; simp [maskRow]
      · simp [maskRow, hw]
    simp only [e1, e2]
    exact h.int f hf ch hch v (hS (mem_insert_self _ _)) _

/-! ### Networks -/

namespace Net

/-- Entry `[f, ch, 0]` of `log_likelihood`. -/
noncomputable def val (n : Net) (f : ℕ) (x : Row) (ch : ℕ) : LogV :=
  match logLik n x with
  | .ok T => T f ch 0
  | .error _ => ⊥

/-- The logits a `SumConv` uses for pixel `f`. -/
def pixLogits (n : Net) (K : ℕ) (θ : ℕ → ℕ → ℕ → ℕ → LogV) (f co ci : ℕ) : LogV :=
  if side (F n) < K then θ co ci 0 0 else θ co ci (kpos (side (F n)) K f).1 (kpos (side (F n)) K f).2

/-- The layers fit together: every constructor accepted, the shapes are those the layers evaluate on, every unit has a
finite logit. -/
def Good (μ : Var → Measure ℝ) : Net → Prop
  | base c => Accepted c ∧ Aligned c ∧ LeafOk μ c ∧ tensorR c = some 1
  | sum n Co θ => Good μ n ∧ 1 ≤ Co ∧ ∀ f < F n, ∀ co < Co, ∃ ci < C n, θ f ci co ≠ ⊥
  | sumConv n Co K θ => Good μ n ∧ 1 ≤ Co ∧ 1 ≤ K ∧ Square (F n) ∧ (side (F n) < K ∨ K ∣ side (F n)) ∧
      ∀ co < Co, ∀ a < K, ∀ b < K, ∃ ci < C n, θ co ci a b ≠ ⊥
  | prodConv n kh kw ph pw => Good μ n ∧ 1 ≤ kh ∧ 1 ≤ kw ∧ Square (F n) ∧ kh ≤ side (F n) + 2 * ph ∧
      kw ≤ side (F n) + 2 * pw
  | pair n => Good μ n ∧ 2 ∣ F n
  | pack n t perm => Good μ n ∧ F n ≤ t ∧ PermOk t perm
  | fuse a b => Good μ a ∧ Good μ b ∧ F a = F b ∧ C a = C b ∧ ∀ f < F a, ∀ g < F b, Disjoint (fscope a f) (fscope b g)

theorem val_of {n : Net} {x : Row} {T : Tens} (h : logLik n x = .ok T) (f ch : ℕ) : n.val f x ch = T f ch 0 := by
  unfold val; rw [h]

/-- Everything evaluates and is a normalised family. -/
theorem good_fam {n : Net} (h : Good μ n) : (∀ x, ∃ T, logLik n x = .ok T) ∧ Fam μ (F n) (C n) (fscope n) (val n) := by
  induction n with
  | base c =>
    obtain ⟨ha, hal, hl, hR⟩ := h
    have hok : ∀ x, logLik (base c) x = .ok fun f ch r => featAt (den c) f x r ch := by
      intro x
      show Circ.logLik c x = _
      unfold Circ.logLik; rw [hR]
    refine ⟨fun x => ⟨_, hok x⟩, ?_⟩
    refine (Fam.base ha hal hl (repIn_of_tensorR hR (.inl rfl))).congr fun f _ ch _ x => ?_
    rw [val_of (hok x)]
  | sum n Co θ ih =>
    obtain ⟨hg, hCo, hθ⟩ := h
    obtain ⟨hok, hfam⟩ := ih hg
    refine ⟨fun x => ?_, ?_⟩
    · obtain ⟨T, hT⟩ := hok x
      refine ⟨fun f co r => lse (C n) fun ci => T f ci r + logSoftmax (C n) (fun i => θ f i co) ci, ?_⟩
      simp only [logLik, hT]
      rfl
    · refine hfam.sum (w := fun f co ci => softmax (C n) (fun i => θ f i co) ci) (fun f co ci => softmax_nonneg _ _ _)
        (fun f hf co hco => sum_softmax (hθ f hf co hco)) ?_
      intro f hf co hco x
      obtain ⟨T, hT⟩ := hok x
      have h2 : logLik (sum n Co θ) x = .ok fun f co r => lse (C n) fun ci => T f ci r +
          logSoftmax (C n) (fun i => θ f i co) ci := by
        simp only [logLik, hT]; rfl
      rw [val_of h2, expL_lse]
      refine sum_congr rfl fun ci _ => ?_
      rw [expL_add, val_of hT, expL_logSoftmax_eq_softmax, mul_comm]
  | sumConv n Co K θ ih =>
    obtain ⟨hg, hCo, hK, hsq, hd, hθ⟩ := h
    obtain ⟨hok, hfam⟩ := ih hg
    have hok' : ∀ x, ∃ T T', logLik n x = .ok T ∧ (layer n Co K θ).logLik (F n) 1 T = .ok T' ∧
        logLik (sumConv n Co K θ) x = .ok T' := by
      intro x
      obtain ⟨T, hT⟩ := hok x
      obtain ⟨T', hT'⟩ := (C50_evaluates_iff (L := layer n Co K θ) (le_refl 1) (F n) 1 T).2 ⟨rfl, hsq, hd⟩
      refine ⟨T, T', hT, hT', ?_⟩
      simp only [logLik, hT]
      exact hT'
    refine ⟨fun x => ?_, ?_⟩
    · obtain ⟨T, T', _, _, h3⟩ := hok' x
      exact ⟨T', h3⟩
    · refine hfam.sum (w := fun f co ci => softmax (C n) (pixLogits n K θ f co) ci) (fun f co ci => softmax_nonneg _ _ _)
        (fun f hf co hco => sum_softmax ?_) ?_
      · unfold pixLogits
        split_ifs with hs
        · exact hθ co hco 0 hK 0 hK
        · exact hθ co hco _ (Nat.mod_lt _ hK) _ (Nat.mod_lt _ hK)
      · intro f hf co hco x
        obtain ⟨T, T', h1, h2, h3⟩ := hok' x
        rw [val_of h3, C50_pixel_mixture (L := layer n Co K θ) hK h2]
        refine sum_congr rfl fun ci _ => ?_
        rw [val_of h1]
        congr 1
        show (if side (F n) < K then _ else _) = _
        unfold pixLogits
        split_ifs <;> rfl
  | prodConv n kh kw ph pw ih =>
    obtain ⟨hg, h1, h2, hsq, h3, h4⟩ := h
    obtain ⟨hok, hfam⟩ := ih hg
    have hin : (geo n kh kw ph pw).inF = F n := hsq
    have hv : (geo n kh kw ph pw).Valid := ⟨h1, h2⟩
    have hok' : ∀ x, ∃ T T', logLik n x = .ok T ∧ (geo n kh kw ph pw).logLik T = .ok T' ∧
        logLik (prodConv n kh kw ph pw) x = .ok T' := by
      intro x
      obtain ⟨T, hT⟩ := hok x
      obtain ⟨T', hT'⟩ := (ProdConv.C43_likelihood (geo n kh kw ph pw) T).2.2 ⟨h3, h4⟩
      refine ⟨T, T', hT, hT', ?_⟩
      simp only [logLik, hT]
      exact hT'
    refine ⟨fun x => ?_, ?_⟩
    · obtain ⟨T, T', _, _, h3⟩ := hok' x
      exact ⟨T', h3⟩
    · refine hfam.prod (G := fun o => (range (geo n kh kw ph pw).inF).filter ((geo n kh kw ph pw).InPatch o)) ?_ ?_ ?_ ?_
      · intro o _; rw [hin]; exact filter_subset _ _
      · intro o ho o' ho' hne
        rw [Finset.disjoint_left]
        intro f hf hf'
        exact hne ((ProdConv.C43_each_pixel_once hv).1 f o o' ho ho' (mem_filter.1 hf).2 (mem_filter.1 hf').2)
      · intro o _ v
        rw [fscope, ProdConv.C43_scope]
        simp only [mem_filter, mem_range, and_assoc]
      · intro o _ ch _ x
        obtain ⟨T, T', e1, e2, e3⟩ := hok' x
        rw [val_of e3, (ProdConv.C43_likelihood (geo n kh kw ph pw) T).1 T' e2]
        refine sum_congr rfl fun f _ => ?_
        rw [val_of e1]
  | pair n ih =>
    obtain ⟨hok, hfam⟩ := ih h.1
    have hok' : ∀ x, ∃ T, logLik n x = .ok T ∧ logLik (pair n) x = .ok fun f ch r => T (2 * f) ch r + T (2 * f + 1) ch r := by
      intro x
      obtain ⟨T, hT⟩ := hok x
      refine ⟨T, hT, ?_⟩
      simp only [logLik, hT]; rfl
    refine ⟨fun x => ?_, ?_⟩
    · obtain ⟨T, _, hT⟩ := hok' x
      exact ⟨_, hT⟩
    · refine hfam.pair (fun f _ v => by rw [fscope, Finset.mem_union]) fun f _ ch _ x => ?_
      obtain ⟨T, e1, e2⟩ := hok' x
      rw [val_of e2, val_of e1, val_of e1]
  | pack n t perm ih =>
    obtain ⟨hok, hfam⟩ := ih h.1
    have hok' : ∀ x, ∃ T, logLik n x = .ok T ∧
        logLik (pack n t perm) x = .ok fun f ch r => if permAt perm f < F n then T (permAt perm f) ch r else 0 := by
      intro x
      obtain ⟨T, hT⟩ := hok x
      refine ⟨T, hT, ?_⟩
      simp only [logLik, hT]; rfl
    refine ⟨fun x => ?_, ?_⟩
    · obtain ⟨T, _, hT⟩ := hok' x
      exact ⟨_, hT⟩
    · refine hfam.place h.2.2 (fun f _ v => ?_) fun f _ ch _ x => ?_
      · rw [fscope]
        by_cases h1 : permAt perm f < F n <;> simp [h1]
      · obtain ⟨T, e1, e2⟩ := hok' x
        rw [val_of e2, val_of e1]
  | fuse a b iha ihb =>
    obtain ⟨ha, hb, hF, hC, hd⟩ := h
    obtain ⟨hoka, hfa⟩ := iha ha
    obtain ⟨hokb, hfb⟩ := ihb hb
    have hok' : ∀ x, ∃ T U, logLik a x = .ok T ∧ logLik b x = .ok U ∧
        logLik (fuse a b) x = .ok fun f ch r => T f ch r + U f ch r := by
      intro x
      obtain ⟨T, hT⟩ := hoka x
      obtain ⟨U, hU⟩ := hokb x
      refine ⟨T, U, hT, hU, ?_⟩
      simp only [logLik, hT, hU]; rfl
    refine ⟨fun x => ?_, ?_⟩
    · obtain ⟨T, U, _, _, hT⟩ := hok' x
      exact ⟨_, hT⟩
    · rw [← hF, ← hC] at hfb
      rw [← hF] at hd
      refine hfa.fuse hfb hd (fun f _ v => by rw [fscope, Finset.mem_union]) fun f _ ch _ x => ?_
      obtain ⟨T, U, e1, e2, e3⟩ := hok' x
      rw [val_of e3, val_of e1, val_of e2]

end Net

end Verif.Conv

import Verif.ElemSumRoot
import Verif.EmProps

/-!
# C66: expectation maximisation on an `ElementwiseSum`
-/

namespace Verif.ESum
open Verif Verif.Circ Verif.Em Finset

/-- One unit of a weighted mixture under the M-step for its weights while the components are replaced by others: the gain is at
least the responsibility-weighted gain of the components. -/
theorem unit_step (n N : ℕ) (w : ℕ → ℝ) (g : ℕ → ℝ) (u u' : ℕ → ℕ → ℝ) (v : ℕ → ℝ) (hw : ∀ i < n, 0 ≤ w i)
    (hw1 : ∑ i ∈ range n, w i ≤ 1) (hg : ∀ m < N, 0 ≤ g m) (hu : ∀ m i, 0 ≤ u m i) (hu' : ∀ m i, 0 ≤ u' m i)
    (hv : ∀ m < N, v m = ∑ i ∈ range n, w i * u m i) (hvpos : ∀ m < N, 0 < v m) (k : ℕ → ℝ)
    (hk : ∀ i < n, k i = ∑ m ∈ range N, g m * (w i * u m i / v m)) (hS : 0 < ∑ i ∈ range n, k i) (w' : ℕ → ℝ)
    (hw' : ∀ i < n, w' i = k i / ∑ i ∈ range n, k i) (v' : ℕ → ℝ) (hv' : ∀ m < N, v' m = ∑ i ∈ range n, w' i * u' m i)
    (halive : ∀ m < N, ∀ i < n, 0 < g m → 0 < w i * u m i → 0 < u' m i) :
    (∀ m < N, 0 < g m → 0 < v' m) ∧
    ∑ m ∈ range N, ∑ i ∈ range n, g m * (w i * u m i / v m) * (Real.log (u' m i) - Real.log (u m i)) ≤
      ∑ m ∈ range N, g m * (Real.log (v' m) - Real.log (v m)) := by
  have hρ0 : ∀ m < N, ∀ i < n, 0 ≤ g m * (w i * u m i / v m) := fun m hm i hi =>
    mul_nonneg (hg m hm) (div_nonneg (mul_nonneg (hw i hi) (hu m i)) (hvpos m hm).le)
  have hk0 : ∀ i < n, 0 ≤ k i := fun i hi => by
    rw [hk i hi]; exact sum_nonneg fun m hm => hρ0 m (mem_range.1 hm) i hi
  have hw0' : ∀ i < n, 0 ≤ w' i := fun i hi => by rw [hw' i hi]; exact div_nonneg (hk0 i hi) hS.le
  have hpos : ∀ m < N, ∀ i < n, 0 < g m → 0 < w i * u m i → 0 < w' i * u' m i := by
    intro m hm i hi hgm hwu
    refine mul_pos ?_ (halive m hm i hi hgm hwu)
    rw [hw' i hi]
    refine div_pos ?_ hS
    rw [hk i hi]
    exact sum_pos' (fun m' hm' => hρ0 m' (mem_range.1 hm') i hi)
      ⟨m, mem_range.2 hm, mul_pos hgm (div_pos hwu (hvpos m hm))⟩
  have hex : ∀ m < N, ∃ i < n, 0 < w i * u m i := by
    intro m hm
    by_contra hcon
    push Not at hcon
    have := hvpos m hm
    rw [hv m hm] at this
    exact absurd this (not_lt.2 (sum_nonpos fun i hi => hcon i (mem_range.1 hi)))
  refine ⟨fun m hm hgm => ?_, ?_⟩
  · obtain ⟨i, hi, hwu⟩ := hex m hm
    rw [hv' m hm]
    exact sum_pos' (fun j hj => mul_nonneg (hw0' j (mem_range.1 hj)) (hu' m j))
      ⟨i, mem_range.2 hi, hpos m hm i hi hgm hwu⟩
  · have hJ : ∀ m ∈ range N, ∑ i ∈ range n, g m * (w i * u m i / v m) *
        ((Real.log (w' i) - Real.log (w i)) + (Real.log (u' m i) - Real.log (u m i))) ≤
        g m * (Real.log (v' m) - Real.log (v m)) := by
      intro m hm
      replace hm := mem_range.1 hm
      rcases (hg m hm).eq_or_lt with h | h
      · simp [← h]
      · have := unit_gain n w (u m) w' (u' m) hw (fun i _ => hu m i) hw0' (fun i _ => hu' m i)
          (by rw [← hv m hm]; exact hvpos m hm) (fun i hi => hpos m hm i hi h)
        rw [← hv m hm, ← hv' m hm] at this
        calc _ = g m * ∑ i ∈ range n, (w i * u m i / v m) *
              ((Real.log (w' i) - Real.log (w i)) + (Real.log (u' m i) - Real.log (u m i))) := by
              rw [mul_sum]; exact sum_congr rfl fun i _ => by ring
          _ ≤ _ := mul_le_mul_of_nonneg_left this h.le
    have hW : 0 ≤ ∑ m ∈ range N, ∑ i ∈ range n, g m * (w i * u m i / v m) * (Real.log (w' i) - Real.log (w i)) := by
      rw [sum_comm]
      have e : ∀ i ∈ range n, ∑ m ∈ range N, g m * (w i * u m i / v m) * (Real.log (w' i) - Real.log (w i)) =
          k i * (Real.log (k i / ∑ i ∈ range n, k i) - Real.log (w i)) := by
        intro i hi
        rw [← sum_mul, ← hk i (mem_range.1 hi), hw' i (mem_range.1 hi)]
      rw [sum_congr rfl e]
      refine count_gain n w k hw hw1 hk0 (fun i hi hp => ?_) hS
      by_contra hcon
      have h0 : w i = 0 := le_antisymm (not_lt.1 hcon) (hw i hi)
      rw [hk i hi] at hp
      simp [h0] at hp
    have := sum_le_sum hJ
    simp only [mul_add, sum_add_distrib] at this
    linarith

/-! ## The step -/

theorem sum_range_mul (Co K : ℕ) (h : ℕ → ℝ) :
    ∑ ch ∈ range (Co * K), h ch = ∑ ci ∈ range K, ∑ co ∈ range Co, h (ci * Co + co) := by
  induction K with
  | zero => simp
  | succ K ih => rw [Nat.mul_succ, sum_range_add, ih, sum_range_succ, Nat.mul_comm Co K]

/-- `module_lls.sum()` of the module on the batch. -/
noncomputable def accLL (X : ℕ → Row) (N T : ℕ) (e : ES) : LogV :=
  ∑ n ∈ range N, ∑ r ∈ range T, ∑ f ∈ range e.F, ∑ ch ∈ range e.C, e.val f (X n) r ch

/-- The step produces numbers: no module value is `-inf` on the batch, no unit loses all its counts, and the same holds in
the inputs. -/
structure EmOk (X : ℕ → Row) (N : ℕ) (e : ES) (g : Grad) : Prop where
  inputs : ∀ i (hi : i < e.cs.length), NoNaN X N e.cs[i] (e.inputGrad X g i)
  own : ∀ f < e.F, ∀ ci < e.Cin, ∀ co < e.Co, ∀ r < e.R,
    UnitOk e.cs.length N (fun j => e.logWeight f ci co j r) (fun n => g n f (ci * e.Co + co) r)
      (fun n j => e.inAt f (X n) r j ci) (fun n => e.val f (X n) r (ci * e.Co + co))

section
variable {X : ℕ → Row} {N : ℕ} {upd : LeafUpd} {e e' : ES} {g : Grad}

theorem emStep_ok (h : e.emStep X N upd g = .ok e') : (∀ c ∈ e.cs, Circ.C c = e.Cin) ∧ e' =
    { cs := e.cs.mapIdx fun i c => Em.step X N upd c (e.inputGrad X g i), Co := e.Co, R := e.R
      θ := e.newLogits X N g } := by
  unfold ES.emStep at h
  split at h
  · cases h
  · rename_i hall
    refine ⟨?_, ?_⟩
    · simpa [ES.Cin] using hall
    · cases h; rfl

theorem maxC_step (f : ℕ → Circ → Circ) (hf : ∀ i c, Circ.C (f i c) = Circ.C c) (cs : List Circ) :
    maxC (cs.mapIdx f) = maxC cs := by
  unfold maxC
  congr 1
  apply List.ext_getElem <;> simp [hf]

theorem feats_step (f : ℕ → Circ → Circ) (hf : ∀ i c, Circ.F (f i c) = Circ.F c) (cs : List Circ) :
    feats (cs.mapIdx f) = feats cs := by
  cases cs with
  | nil => rfl
  | cons c cs => simp [feats, List.mapIdx_cons, hf]

theorem inAt_same (hC : ∀ c ∈ e.cs, Circ.C c = e.Cin) {i : ℕ} (hi : i < e.cs.length) (f : ℕ) (x : Row) (r ci : ℕ) :
    e.inAt f x r i ci = featAt (den e.cs[i]) f x r ci := by
  unfold ES.inAt
  rw [List.getElem?_eq_getElem hi]
  have := hC _ (List.getElem_mem hi)
  unfold ES.Cin at this
  show featAt _ _ _ _ (if _ then 0 else ci) = _
  rw [if_neg (by omega)]

/-- The accumulated gain of the step, weighted with the incoming gradient, is non-negative. -/
theorem step_gain {T : ℕ} (hu : GoodUpd X N T upd) (h : Ready e) (hs : ∀ c ∈ e.cs, SameReps T c) (hR : e.R = T)
    (hg : ∀ n < N, ∀ r < T, ∀ f < e.F, ∀ ch < e.C, 0 ≤ g n f ch r) (hok : EmOk X N e g)
    (hst : e.emStep X N upd g = .ok e') :
    (∀ n < N, ∀ r < T, ∀ f < e.F, ∀ ch < e.C, 0 < g n f ch r → e'.val f (X n) r ch ≠ ⊥) ∧
    0 ≤ ∑ n ∈ range N, ∑ r ∈ range T, ∑ f ∈ range e.F, ∑ ch ∈ range e.C,
      g n f ch r * (real (e'.val f (X n) r ch) - real (e.val f (X n) r ch)) := by
  obtain ⟨hC, he'⟩ := emStep_ok hst
  subst hR
  have hlen : e'.cs.length = e.cs.length := by rw [he']; simp
  have hCin' : e'.Cin = e.Cin := by rw [he']; exact maxC_step _ (fun i c => step_C _ _ _ _ _) _
  have hCo' : e'.Co = e.Co := by rw [he']
  have hR' : e'.R = e.R := by rw [he']
  have hC' : e'.C = e.C := by unfold ES.C; rw [hCo']; exact congrArg _ hCin'
  have hcs' : ∀ i (hi : i < e.cs.length), e'.cs[i]'(by rw [hlen]; exact hi) =
      Em.step X N upd e.cs[i] (e.inputGrad X g i) := by
    intro i hi; simp [he']
  have hCall' : ∀ c ∈ e'.cs, Circ.C c = e'.Cin := by
    intro c hc
    obtain ⟨i, hi, rfl⟩ := List.getElem_of_mem hc
    rw [hcs' i (by rw [← hlen]; exact hi), step_C, hCin', hC _ (List.getElem_mem _)]
  have hFi : ∀ i (hi : i < e.cs.length), Circ.F e.cs[i] = e.F := fun i hi =>
    (feats_eq h.fit.features (List.getElem_mem hi)).symm
  -- linear values
  let q : ℕ → ℕ := fun ch => ch / e.Co
  let w : ℕ → ℕ → ℕ → ℕ → ℝ := fun f ch r i => expL (e.logWeight f (ch / e.Co) (ch % e.Co) i r)
  let u : ℕ → ℕ → ℕ → ℕ → ℕ → ℝ := fun n f r ch i => expL (e.inAt f (X n) r i (ch / e.Co))
  let u' : ℕ → ℕ → ℕ → ℕ → ℕ → ℝ := fun n f r ch i => expL (e'.inAt f (X n) r i (ch / e.Co))
  let v : ℕ → ℕ → ℕ → ℕ → ℝ := fun n f r ch => expL (e.val f (X n) r ch)
  let v' : ℕ → ℕ → ℕ → ℕ → ℝ := fun n f r ch => expL (e'.val f (X n) r ch)
  have hfl : ∀ ch, ch / e.Co * e.Co + ch % e.Co = ch := fun ch => Nat.div_add_mod' ch e.Co
  have hown : ∀ f < e.F, ∀ ch < e.C, ∀ r < e.R, UnitOk e.cs.length N
      (fun j => e.logWeight f (ch / e.Co) (ch % e.Co) j r) (fun n => g n f ch r)
      (fun n j => e.inAt f (X n) r j (ch / e.Co)) (fun n => e.val f (X n) r ch) := by
    intro f hf ch hch r hr
    have := hok.own f hf _ (div_lt_Cin hch).1 _ (div_lt_Cin hch).2 r hr
    rwa [hfl ch] at this
  have hvne : ∀ n < N, ∀ f < e.F, ∀ ch < e.C, ∀ r < e.R, e.val f (X n) r ch ≠ ⊥ :=
    fun n hn f hf ch hch r hr => (hown f hf ch hch r hr).1 n hn
  have hv : ∀ n f ch, ∀ r < e.R, v n f r ch = ∑ i ∈ range e.cs.length, w f ch r i * u n f r ch i := by
    intro n f ch r hr
    show expL (lse _ _) = _
    rw [expL_lse]
    refine sum_congr rfl fun i _ => ?_
    rw [expL_add, bc_same hr, mul_comm]
  -- expected counts
  let k : ℕ → ℕ → ℕ → ℕ → ℝ := fun f ch r i => ∑ n ∈ range N, g n f ch r * (w f ch r i * u n f r ch i / v n f r ch)
  have hk : ∀ f < e.F, ∀ ch < e.C, ∀ r < e.R, ∀ i, expL (logCount N
      (fun j => e.logWeight f (ch / e.Co) (ch % e.Co) j r) (fun n => g n f ch r)
      (fun n j => e.inAt f (X n) r j (ch / e.Co)) (fun n => e.val f (X n) r ch) i) = k f ch r i :=
    fun f hf ch hch r hr i => expL_logCount N _ _ _ _ i (fun n hn => hg n hn r hr f hf ch hch)
      (fun n hn => hvne n hn f hf ch hch r hr)
  have hS : ∀ f < e.F, ∀ ch < e.C, ∀ r < e.R, 0 < ∑ i ∈ range e.cs.length, k f ch r i := by
    intro f hf ch hch r hr
    obtain ⟨i, hi, hne⟩ := (hown f hf ch hch r hr).2
    refine sum_pos' (fun i _ => by rw [← hk f hf ch hch r hr i]; exact expL_nonneg _) ⟨i, mem_range.2 hi, ?_⟩
    rw [← hk f hf ch hch r hr i]; exact (expL_pos_iff _).2 hne
  let w' : ℕ → ℕ → ℕ → ℕ → ℝ := fun f ch r i => k f ch r i / ∑ i ∈ range e.cs.length, k f ch r i
  have hv' : ∀ n, ∀ f < e.F, ∀ ch < e.C, ∀ r < e.R,
      v' n f r ch = ∑ i ∈ range e.cs.length, w' f ch r i * u' n f r ch i := by
    intro n f hf ch hch r hr
    show expL (lse _ _) = _
    rw [expL_lse, hlen]
    refine sum_congr rfl fun i _ => ?_
    rw [expL_add, hR', bc_same hr, mul_comm, hCo']
    congr 1
    rw [ES.logWeight, expL_logSoftmax_eq_softmax, hlen]
    have hθ : (fun j => e'.θ f (ch / e.Co) (ch % e.Co) j r) = logSoftmax e.cs.length (logCount N
        (fun j => e.logWeight f (ch / e.Co) (ch % e.Co) j r) (fun n => g n f ch r)
        (fun n j => e.inAt f (X n) r j (ch / e.Co)) (fun n => e.val f (X n) r ch)) := by
      funext j
      rw [he']
      show e.newLogits X N g f (ch / e.Co) (ch % e.Co) j r = _
      unfold ES.newLogits Em.newLogits
      rw [hfl ch]
    rw [hθ, softmax_logSoftmax, softmax_eq]
    have hk' := hk f hf ch hch r hr
    rw [hk' i]
    congr 1
    exact sum_congr rfl fun j _ => hk' j
  -- gradient of the inputs
  have hig : ∀ i n, n < N → ∀ f < e.F, ∀ ci < e.Cin, ∀ r < e.R, e.inputGrad X g i n f ci r =
      ∑ co ∈ range e.Co, g n f (ci * e.Co + co) r * (w f (ci * e.Co + co) r i * u n f r (ci * e.Co + co) i /
        v n f r (ci * e.Co + co)) := by
    intro i n hn f hf ci hci r hr
    unfold ES.inputGrad
    refine sum_congr rfl fun co hco => ?_
    have hco := mem_range.1 hco
    show _ = _ * (expL (e.logWeight f ((ci * e.Co + co) / e.Co) ((ci * e.Co + co) % e.Co) i r) *
      expL (e.inAt f (X n) r i ((ci * e.Co + co) / e.Co)) / _)
    rw [(div_mod_flat hco).1, (div_mod_flat hco).2, expL_add, expL_add,
      expL_neg_real (hvne n hn f hf _ (flat_lt hci hco) r hr)]
    simp only [v]
    ring
  have hρ0 : ∀ n < N, ∀ f < e.F, ∀ ch < e.C, ∀ r < e.R, ∀ i, 0 ≤ g n f ch r * (w f ch r i * u n f r ch i / v n f r ch) :=
    fun n hn f hf ch hch r hr i => mul_nonneg (hg n hn r hr f hf ch hch)
      (div_nonneg (mul_nonneg (expL_nonneg _) (expL_nonneg _)) (expL_nonneg _))
  have hgc : ∀ i (hi : i < e.cs.length), GoodGrad X N e.R e.cs[i] (e.inputGrad X g i) := by
    intro i hi n hn r hr f hf ci hci
    rw [hFi i hi] at hf
    rw [hC _ (List.getElem_mem hi)] at hci
    rw [hig i n hn f hf ci hci r hr]
    refine ⟨sum_nonneg fun co hco => hρ0 n hn f hf _ (flat_lt hci (mem_range.1 hco)) r hr i, ?_⟩
    intro hp hb
    refine absurd hp (not_lt.2 (sum_nonpos fun co hco => ?_))
    have : u n f r (ci * e.Co + co) i = 0 := by
      show expL (e.inAt f (X n) r i ((ci * e.Co + co) / e.Co)) = 0
      rw [(div_mod_flat (mem_range.1 hco)).1, inAt_same hC hi, hb]
      simp
    rw [this]; simp
  have hmain := fun i (hi : i < e.cs.length) => step_main X N e.R upd hu e.cs[i] (e.inputGrad X g i)
    (h.acc _ (List.getElem_mem hi)) (hs _ (List.getElem_mem hi)) (hgc i hi) (hok.inputs i hi)
  have hin' : ∀ i (hi : i < e.cs.length) f x r ci, e'.inAt f x r i ci =
      featAt (den (Em.step X N upd e.cs[i] (e.inputGrad X g i))) f x r ci := by
    intro i hi f x r ci
    rw [inAt_same hCall' (by rw [hlen]; exact hi), hcs' i hi]
  -- the unit lemma
  have hunit : ∀ f < e.F, ∀ ch < e.C, ∀ r < e.R,
      (∀ n < N, 0 < g n f ch r → 0 < v' n f r ch) ∧
      ∑ n ∈ range N, ∑ i ∈ range e.cs.length, g n f ch r * (w f ch r i * u n f r ch i / v n f r ch) *
        (Real.log (u' n f r ch i) - Real.log (u n f r ch i)) ≤
      ∑ n ∈ range N, g n f ch r * (Real.log (v' n f r ch) - Real.log (v n f r ch)) := by
    intro f hf ch hch r hr
    obtain ⟨hd1, hd2⟩ := div_lt_Cin hch
    refine unit_step e.cs.length N (w f ch r) (fun n => g n f ch r) (fun n => u n f r ch) (fun n => u' n f r ch)
      (fun n => v n f r ch) (fun i _ => expL_nonneg _) ?_ (fun n hn => hg n hn r hr f hf ch hch) (fun n i => expL_nonneg _)
      (fun n i => expL_nonneg _) (fun n _ => hv n f ch r hr)
      (fun n hn => (expL_pos_iff _).2 (hvne n hn f hf ch hch r hr)) (k f ch r) (fun i _ => rfl) (hS f hf ch hch r hr)
      (w' f ch r) (fun i _ => rfl) (fun n => v' n f r ch) (fun n _ => hv' n f hf ch hch r hr) ?_
    · have : ∑ i ∈ range e.cs.length, w f ch r i = 1 := by
        simp only [w, ES.logWeight, expL_logSoftmax_eq_softmax]
        exact sum_softmax (h.live f hf _ hd1 _ hd2 r hr)
      exact this.le
    · intro n hn i hi hgp hwu
      show 0 < expL (e'.inAt f (X n) r i (ch / e.Co))
      rw [hin' i hi, expL_pos_iff]
      refine (hmain i hi).1 n hn r hr f (by rw [hFi]; exact hf) _ (by rw [hC _ (List.getElem_mem hi)]; exact hd1) ?_
      rw [hig i n hn f hf _ hd1 r hr]
      refine sum_pos' (fun co hco => hρ0 n hn f hf _ (flat_lt hd1 (mem_range.1 hco)) r hr i)
        ⟨ch % e.Co, mem_range.2 hd2, ?_⟩
      rw [hfl ch]
      exact mul_pos hgp (div_pos hwu ((expL_pos_iff _).2 (hvne n hn f hf ch hch r hr)))
  refine ⟨fun n hn r hr f hf ch hch hp => (expL_pos_iff _).1 ((hunit f hf ch hch r hr).1 n hn hp), ?_⟩
  -- sum over the units
  have hG : ∑ n ∈ range N, ∑ r ∈ range e.R, ∑ f ∈ range e.F, ∑ ch ∈ range e.C, ∑ i ∈ range e.cs.length,
      g n f ch r * (w f ch r i * u n f r ch i / v n f r ch) * (Real.log (u' n f r ch i) - Real.log (u n f r ch i)) =
      ∑ i : Fin e.cs.length, gain X N e.R e.cs[i] (Em.step X N upd e.cs[i] (e.inputGrad X g i)) (e.inputGrad X g i) := by
    unfold gain
    rw [sum_comm (s := univ)]
    refine sum_congr rfl fun n hn => ?_
    rw [sum_comm (s := univ)]
    refine sum_congr rfl fun r hr => ?_
    have hFi' : ∀ i : Fin e.cs.length, Circ.F e.cs[i] = e.F := fun i => hFi i i.2
    have hCi' : ∀ i : Fin e.cs.length, Circ.C e.cs[i] = e.Cin := fun i => hC _ (List.getElem_mem i.2)
    simp only [hFi', hCi']
    rw [sum_comm (s := univ)]
    refine sum_congr rfl fun f hf => ?_
    rw [sum_comm (s := univ)]
    unfold ES.C
    rw [sum_range_mul]
    refine sum_congr rfl fun ci hci => ?_
    rw [sum_comm, sum_range]
    refine sum_congr rfl fun i _ => ?_
    rw [hig i n (mem_range.1 hn) f (mem_range.1 hf) ci (mem_range.1 hci) r (mem_range.1 hr), sum_mul]
    refine sum_congr rfl fun co hco => ?_
    congr 1
    simp only [u, u', (div_mod_flat (mem_range.1 hco)).1]
    rw [hin' i i.2, inAt_same hC i.2, real_eq, real_eq]
    rfl
  have hle : ∑ n ∈ range N, ∑ r ∈ range e.R, ∑ f ∈ range e.F, ∑ ch ∈ range e.C, ∑ i ∈ range e.cs.length,
      g n f ch r * (w f ch r i * u n f r ch i / v n f r ch) * (Real.log (u' n f r ch i) - Real.log (u n f r ch i)) ≤
      ∑ n ∈ range N, ∑ r ∈ range e.R, ∑ f ∈ range e.F, ∑ ch ∈ range e.C,
        g n f ch r * (real (e'.val f (X n) r ch) - real (e.val f (X n) r ch)) := by
    rw [sum_comm]
    rw [sum_comm (s := range N)]
    refine sum_le_sum fun r hr => ?_
    rw [sum_comm]
    rw [sum_comm (s := range N)]
    refine sum_le_sum fun f hf => ?_
    rw [sum_comm]
    rw [sum_comm (s := range N)]
    refine sum_le_sum fun ch hch => ?_
    refine (hunit f (mem_range.1 hf) ch (mem_range.1 hch) r (mem_range.1 hr)).2.trans (le_of_eq ?_)
    refine sum_congr rfl fun n _ => ?_
    rw [real_eq, real_eq]
  refine le_trans ?_ hle
  rw [hG]
  exact sum_nonneg fun i _ => (hmain i i.2).2

theorem sum_coe_of {ι : Type*} (s : Finset ι) {f : ι → LogV} {a : ι → ℝ} (h : ∀ i ∈ s, f i = ((a i : ℝ) : LogV)) :
    ∑ i ∈ s, f i = ((∑ i ∈ s, a i : ℝ) : LogV) := by
  rw [sum_congr rfl h, sum_coe_real _ _ fun _ _ => WithBot.coe_ne_bot]
  rfl

theorem accLL_real {T : ℕ} (h : ∀ n < N, ∀ r < T, ∀ f < e.F, ∀ ch < e.C, e.val f (X n) r ch ≠ ⊥) :
    accLL X N T e = ((∑ n ∈ range N, ∑ r ∈ range T, ∑ f ∈ range e.F, ∑ ch ∈ range e.C,
      real (e.val f (X n) r ch) : ℝ) : LogV) := by
  unfold accLL
  refine sum_coe_of _ fun n hn => sum_coe_of _ fun r hr => sum_coe_of _ fun f hf => sum_coe_of _ fun ch hch => ?_
  exact (coe_real (h n (mem_range.1 hn) r (mem_range.1 hr) f (mem_range.1 hf) ch (mem_range.1 hch))).symm

theorem step_shapes (hst : e.emStep X N upd g = .ok e') : e'.F = e.F ∧ e'.C = e.C ∧ e'.cs.length = e.cs.length ∧
    e'.Co = e.Co ∧ e'.R = e.R ∧ e'.Cin = e.Cin := by
  obtain ⟨-, rfl⟩ := emStep_ok hst
  have h1 : maxC (e.cs.mapIdx fun i c => Em.step X N upd c (e.inputGrad X g i)) = maxC e.cs :=
    maxC_step _ (fun i c => step_C _ _ _ _ _) _
  exact ⟨feats_step _ (fun i c => step_F _ _ _ _ _) _, congrArg (e.Co * ·) h1, by simp, rfl, rfl, h1⟩

/-- **C66 (EM).** For every accepted ElementwiseSum, every batch and every leaf update that does not decrease the weighted
likelihood of a leaf (in particular fixed leaves), an EM step from the root that produces no NaN does not decrease the
accumulated log-likelihood, and the new model again has positive likelihood on the batch. -/
theorem C66_em_monotone {T : ℕ} (hu : GoodUpd X N T upd) (h : Ready e) (hs : ∀ c ∈ e.cs, SameReps T c) (hR : e.R = T)
    (hok : EmOk X N e rootGrad) (hst : e.emStep X N upd rootGrad = .ok e') :
    accLL X N T e ≤ accLL X N T e' ∧
      ∀ n < N, ∀ r < T, ∀ f < e.F, ∀ ch < e.C, e'.val f (X n) r ch ≠ ⊥ := by
  obtain ⟨hA, hG⟩ := step_gain hu h hs hR (fun _ _ _ _ _ _ _ _ => zero_le_one) hok hst
  have hA' : ∀ n < N, ∀ r < T, ∀ f < e.F, ∀ ch < e.C, e'.val f (X n) r ch ≠ ⊥ :=
    fun n hn r hr f hf ch hch => hA n hn r hr f hf ch hch one_pos
  have hpos : ∀ n < N, ∀ r < T, ∀ f < e.F, ∀ ch < e.C, e.val f (X n) r ch ≠ ⊥ := by
    intro n hn r hr f hf ch hch
    have := (hok.own f hf _ (div_lt_Cin hch).1 _ (div_lt_Cin hch).2 r (by omega)).1 n hn
    rwa [Nat.div_add_mod'] at this
  refine ⟨?_, hA'⟩
  obtain ⟨hF', hC', -⟩ := step_shapes hst
  rw [accLL_real hpos, accLL_real (by rw [hF', hC']; exact hA'), WithBot.coe_le_coe, hF', hC']
  have h1 : ∀ n f ch r, rootGrad n f ch r = 1 := fun _ _ _ _ => rfl
  simp only [h1, one_mul, sum_sub_distrib] at hG
  linarith

/-- **C66 (EM, weights).** After the step the weights of every unit are the normalised expected counts; they sum to one. -/
theorem C66_em_weights (hok : EmOk X N e g) (hst : e.emStep X N upd g = .ok e')
    (hg : ∀ n < N, ∀ r < e.R, ∀ f < e.F, ∀ ch < e.C, 0 ≤ g n f ch r)
    {f ci co r : ℕ} (hf : f < e.F) (hci : ci < e.Cin) (hco : co < e.Co) (hr : r < e.R) :
    ∑ i ∈ range e'.cs.length, e'.weight f ci co i r = 1 ∧
    ∀ i < e.cs.length, e'.weight f ci co i r =
      (∑ n ∈ range N, g n f (ci * e.Co + co) r * (e.weight f ci co i r * expL (e.inAt f (X n) r i ci) /
        expL (e.val f (X n) r (ci * e.Co + co)))) /
      ∑ j ∈ range e.cs.length, ∑ n ∈ range N, g n f (ci * e.Co + co) r *
        (e.weight f ci co j r * expL (e.inAt f (X n) r j ci) / expL (e.val f (X n) r (ci * e.Co + co))) := by
  obtain ⟨-, -, hlen, -⟩ := step_shapes hst
  obtain ⟨hv, i0, hi0, hne⟩ := hok.own f hf ci hci co hco r hr
  have hw : ∀ i, e'.weight f ci co i r = softmax e.cs.length (logCount N
      (fun j => e.logWeight f ci co j r) (fun n => g n f (ci * e.Co + co) r)
      (fun n j => e.inAt f (X n) r j ci) (fun n => e.val f (X n) r (ci * e.Co + co))) i := by
    intro i
    unfold ES.weight
    rw [hlen]
    obtain ⟨-, rfl⟩ := emStep_ok hst
    exact softmax_logSoftmax _ _ _
  constructor
  · simp only [hw, hlen]
    exact sum_softmax ⟨i0, hi0, hne⟩
  · intro i hi
    have hc := fun j => expL_logCount N (fun j => e.logWeight f ci co j r) (fun n => g n f (ci * e.Co + co) r)
      (fun n j => e.inAt f (X n) r j ci) (fun n => e.val f (X n) r (ci * e.Co + co)) j
      (fun n hn => hg n hn r hr f hf _ (flat_lt hci hco)) hv
    rw [hw, softmax_eq]
    have hlw : ∀ j, expL (e.logWeight f ci co j r) = e.weight f ci co j r := fun j =>
      expL_logSoftmax_eq_softmax ..
    rw [hc i, sum_congr rfl fun j _ => hc j]
    simp only [hlw]

/-- **C66 (EM, violation).** A one-channel input beside multi-channel inputs is accepted by the constructor and by
`log_likelihood`, but the EM step raises. -/
theorem C66_em_mixed_channels_raises {c : Circ} (hc : c ∈ e.cs) (hne : Circ.C c ≠ e.Cin) :
    e.emStep X N upd g = .error .runtimeError := by
  unfold ES.emStep
  rw [if_pos]
  rw [Bool.not_eq_true', List.all_eq_false]
  exact ⟨c, hc, by simpa [ES.Cin] using hne⟩

theorem inputGrad_pos (h : Ready e) {T : ℕ} (hR : e.R = T)
    (hfin : ∀ f < e.F, ∀ ci < e.Cin, ∀ co < e.Co, ∀ i < e.cs.length, ∀ r < e.R, e.θ f ci co i r ≠ ⊥)
    (hg : ∀ n < N, ∀ r < T, ∀ f < e.F, ∀ ch < e.C, 0 < g n f ch r) {i n r f ci : ℕ} (hi : i < e.cs.length) (hn : n < N)
    (hr : r < T) (hf : f < e.F) (hci : ci < e.Cin) (hin : e.inAt f (X n) r i ci ≠ ⊥) :
    0 < e.inputGrad X g i n f ci r := by
  unfold ES.inputGrad
  refine sum_pos (fun co hco => mul_pos (hg n hn r hr f hf _ (flat_lt hci (mem_range.1 hco))) ?_)
    ⟨0, mem_range.2 h.co⟩
  rw [expL_pos_iff, ne_eq, WithBot.add_eq_bot, WithBot.add_eq_bot]
  push Not
  refine ⟨⟨hin, ?_⟩, WithBot.coe_ne_bot⟩
  have := hfin f hf ci hci co (mem_range.1 hco) i hi r (by omega)
  unfold ES.logWeight
  rw [← expL_pos_iff, expL_logSoftmax]
  exact div_pos ((expL_pos_iff _).2 this) (sum_expL_pos ⟨i, hi, this⟩)

/-- **C66 (EM, no NaN).** With finite logits and leaf densities that are positive on a non-empty batch no NaN arises. -/
theorem C66_em_no_nan (hN : 0 < N) (h : Ready e) {T : ℕ} (hs : ∀ c ∈ e.cs, SameReps T c) (hR : e.R = T)
    (hC : ∀ c ∈ e.cs, Circ.C c = e.Cin)
    (hfin : ∀ f < e.F, ∀ ci < e.Cin, ∀ co < e.Co, ∀ i < e.cs.length, ∀ r < e.R, e.θ f ci co i r ≠ ⊥)
    (hfc : ∀ c ∈ e.cs, FiniteLogits c) (hcp : ∀ c ∈ e.cs, ChannelsPositive c) (hl : ∀ c ∈ e.cs, LeavesPositive X N T c)
    (hg : ∀ n < N, ∀ r < T, ∀ f < e.F, ∀ ch < e.C, 0 < g n f ch r) : EmOk X N e g := by
  have hFi : ∀ i (hi : i < e.cs.length), Circ.F e.cs[i] = e.F := fun i hi =>
    (feats_eq h.fit.features (List.getElem_mem hi)).symm
  have hpos : ∀ i (hi : i < e.cs.length), ∀ n < N, ∀ r < T, ∀ f < e.F, ∀ ci < e.Cin, e.inAt f (X n) r i ci ≠ ⊥ := by
    intro i hi n hn r hr f hf ci hci
    have hm := List.getElem_mem hi
    rw [inAt_same hC hi]
    exact entries_positive (h.acc _ hm) (hs _ hm) (hfc _ hm) (hcp _ hm) (hl _ hm) n hn r hr f
      (by rw [hFi i hi]; exact hf) ci (by rw [hC _ hm]; exact hci)
  have hn0 : 0 < e.cs.length := List.length_pos_of_ne_nil h.ne
  have hlw : ∀ f < e.F, ∀ ci < e.Cin, ∀ co < e.Co, ∀ i < e.cs.length, ∀ r < e.R, e.logWeight f ci co i r ≠ ⊥ := by
    intro f hf ci hci co hco i hi r hr
    have := hfin f hf ci hci co hco i hi r hr
    unfold ES.logWeight
    rw [← expL_pos_iff, expL_logSoftmax]
    exact div_pos ((expL_pos_iff _).2 this) (sum_expL_pos ⟨i, hi, this⟩)
  refine ⟨fun i hi => ?_, fun f hf ci hci co hco r hr => ⟨fun n hn => ?_, 0, hn0, ?_⟩⟩
  · have hm := List.getElem_mem hi
    refine noNaN_of_positive hN _ (h.acc _ hm) (hs _ hm) (hfc _ hm) (hcp _ hm) (hl _ hm) fun n hn r hr f hf ci hci => ?_
    rw [hFi i hi] at hf
    rw [hC _ hm] at hci
    exact inputGrad_pos h hR hfin hg hi hn hr hf hci (hpos i hi n hn r hr f hf ci hci)
  · unfold ES.val
    rw [ne_eq, lse_eq_bot_iff]
    push Not
    refine ⟨0, hn0, ?_⟩
    rw [ne_eq, WithBot.add_eq_bot, (div_mod_flat hco).1, (div_mod_flat hco).2]
    push Not
    exact ⟨hpos 0 hn0 n hn r (by omega) f hf ci hci, by rw [bc_same hr]; exact hlw f hf ci hci co hco 0 hn0 r hr⟩
  · unfold logCount
    rw [ne_eq, lse_eq_bot_iff]
    push Not
    refine ⟨0, hN, ?_⟩
    rw [ne_eq, WithBot.add_eq_bot, WithBot.add_eq_bot, WithBot.add_eq_bot]
    push Not
    refine ⟨⟨⟨hlw f hf ci hci co hco 0 hn0 r hr, ?_⟩, hpos 0 hn0 0 hN r (by omega) f hf ci hci⟩, WithBot.coe_ne_bot⟩
    have := hg 0 hN r (by omega) f hf _ (flat_lt hci hco)
    rw [← expL_pos_iff, expL_logL this.le]
    exact this
end

end Verif.ESum

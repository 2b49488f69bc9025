import Verif.ElemSumProps

/-!
# C66: an `ElementwiseSum` is a `Sum` over the channel concatenation of its inputs

The embedding `emb` shows that every fact about circuits of leaves, `Cat`, `Product` and `Sum` (normalisation, missing
values, sampling) applies to circuits that contain ElementwiseSums.
-/

namespace Verif.ESum
open Verif Verif.Circ MeasureTheory

/-- (block, position in the block) of a flat index. -/
def locate : List ℕ → ℕ → ℕ × ℕ
  | [], k => (0, k)
  | n :: ns, k => if k < n then (0, k) else ((locate ns (k - n)).1 + 1, (locate ns (k - n)).2)

/-- Logits of the embedding. -/
noncomputable def embθ (e : ES) (f k ch r : ℕ) : LogV :=
  open Classical in
  if (e.cs.map C).getD (locate (e.cs.map C) k).1 0 = 1 ∨ (locate (e.cs.map C) k).2 = ch / e.Co then
    e.θ f (ch / e.Co) (ch % e.Co) (locate (e.cs.map C) k).1 r
  else ⊥

/-- The same module written with `Cat` and `Sum`. -/
noncomputable def emb (e : ES) : Circ := sum (cat2 e.cs.length e.cs.get) e.C e.R (embθ e)

theorem locate_offset (ns : List ℕ) (i k : ℕ) (hi : i < ns.length) (hk : k < ns[i]) :
    locate ns ((ns.take i).sum + k) = (i, k) := by
  induction ns generalizing i with
  | nil => simp at hi
  | cons n ns ih =>
    cases i with
    | zero =>
      have hk' : k < n := by simpa using hk
      simp [locate, hk']
    | succ i =>
      have := ih i (by simpa using hi) (by simpa using hk)
      rw [List.take_succ_cons, List.sum_cons, locate, if_neg (by omega),
        show n + (ns.take i).sum + k - n = (ns.take i).sum + k by omega, this]

theorem ofFn_C (cs : List Circ) : (List.ofFn fun i : Fin cs.length => C (cs.get i)) = cs.map C := by
  apply List.ext_getElem (by simp)
  intro i h1 h2
  simp

theorem offC_get (cs : List Circ) (i : ℕ) : offC cs.get i = ((cs.map C).take i).sum := by
  unfold offC; rw [ofFn_C]

theorem embθ_at (e : ES) (i : Fin e.cs.length) {k : ℕ} (hk : k < C e.cs[i]) (f ch r : ℕ) :
    embθ e f (offC e.cs.get i + k) ch r = open Classical in
      if C e.cs[i] = 1 ∨ k = ch / e.Co then e.θ f (ch / e.Co) (ch % e.Co) i r else ⊥ := by
  unfold embθ
  rw [offC_get, locate_offset _ _ _ (by simp) (by simpa using hk)]
  simp only []
  rw [List.getD_eq_getElem (e.cs.map C) _ (by simp)]
  simp

/-- sum over the flat input channels -/
theorem sum_emb (e : ES) (h : ℕ → ℝ) : ∑ k ∈ Finset.range (C (cat2 e.cs.length e.cs.get)), h k =
    ∑ i : Fin e.cs.length, ∑ k ∈ Finset.range (C e.cs[i]), h (offC e.cs.get i + k) :=
  Em.sum_blocks (fun i : Fin e.cs.length => C (e.cs.get i)) h

/-- one block of the embedding: a single live entry -/
theorem block_sum {e : ES} (h : Ready e) (i : Fin e.cs.length) {ch : ℕ} (hch : ch < e.C) (f r : ℕ) (g : ℕ → ℝ) :
    ∑ k ∈ Finset.range (C e.cs[i]), expL (embθ e f (offC e.cs.get i + k) ch r) * g k =
      expL (e.θ f (ch / e.Co) (ch % e.Co) i r) * g (inCh e.cs[i] (ch / e.Co)) := by
  have hlt : inCh e.cs[i] (ch / e.Co) < C e.cs[i] := inCh_lt h (List.getElem_mem i.2) (div_lt_Cin hch).1
  rw [Finset.sum_eq_single (inCh e.cs[i] (ch / e.Co))]
  · rw [embθ_at e i hlt, if_pos]
    unfold inCh
    by_cases h1 : C e.cs[i] = 1
    · exact .inl h1
    · right; rw [if_neg h1]
  · intro k hk hne
    have hk' := Finset.mem_range.1 hk
    rw [embθ_at e i hk', if_neg]
    · simp
    · rintro (h1 | h1)
      · apply hne; unfold inCh; rw [if_pos h1]; omega
      · apply hne
        unfold inCh
        split
        · omega
        · exact h1
  · intro hn; exact absurd (Finset.mem_range.2 hlt) hn

theorem den_emb {e : ES} (h : Ready e) {ch : ℕ} (hch : ch < e.C) (f r : ℕ) :
    ∑ k ∈ Finset.range (C (cat2 e.cs.length e.cs.get)), expL (embθ e f k ch r) =
      ∑ i ∈ Finset.range e.cs.length, expL (e.θ f (ch / e.Co) (ch % e.Co) i r) := by
  rw [sum_emb, Finset.sum_range]
  refine Finset.sum_congr rfl fun i _ => ?_
  have := block_sum h i hch f r fun _ => 1
  simpa using this

theorem emb_accepted {e : ES} (h : Ready e) (hC : 1 ≤ e.Cin) : Accepted (emb e) := by
  have hch2 : check2 (List.ofFn e.cs.get) = .ok () := by
    rw [List.ofFn_get]
    exact check2_of h.ne (K := e.F) (fun m hm => (feats_eq h.fit.features hm).symm)
      (fun m hm => (scope_facts (h.acc m hm)).2.1) h.fit.scopes
  refine ⟨⟨fun i => h.acc _ (List.get_mem _ i), hch2⟩, ?_, ?_⟩
  · exact Nat.mul_pos h.co hC
  · intro f hf ch hch r hr
    obtain ⟨h1, h2⟩ := div_lt_Cin hch
    have hf' : f < e.F := by
      have hn : 0 < e.cs.length := List.length_pos_of_ne_nil h.ne
      rw [← cat2_F hch2 ⟨0, hn⟩, ← feats_eq h.fit.features (List.get_mem _ _)] at hf
      exact hf
    obtain ⟨i, hi, hne⟩ := h.live f hf' _ h1 _ h2 r hr
    have hlt : inCh e.cs[i] (ch / e.Co) < C e.cs[i] := inCh_lt h (List.getElem_mem hi) h1
    refine ⟨offC e.cs.get i + inCh e.cs[i] (ch / e.Co), offC_lt (cs := e.cs.get) ⟨i, hi⟩ hlt, ?_⟩
    refine ne_of_eq_of_ne (embθ_at e ⟨i, hi⟩ hlt f ch r) ?_
    rw [if_pos]
    · exact hne
    · show C e.cs[i] = 1 ∨ _
      unfold inCh
      by_cases h1 : C e.cs[i] = 1
      · exact .inl h1
      · right; rw [if_neg h1]

theorem emb_check {e : ES} (h : Ready e) (hC : 1 ≤ e.Cin) : check2 (List.ofFn e.cs.get) = .ok () :=
  (emb_accepted h hC).1.2

theorem cat_F {e : ES} (h : Ready e) (hC : 1 ≤ e.Cin) : F (cat2 e.cs.length e.cs.get) = e.F := by
  have hn : 0 < e.cs.length := List.length_pos_of_ne_nil h.ne
  rw [← cat2_F (emb_check h hC) ⟨0, hn⟩, ES.F, feats_eq h.fit.features (List.get_mem _ _)]

theorem emb_F {e : ES} (h : Ready e) (hC : 1 ≤ e.Cin) : F (emb e) = e.F := cat_F h hC

theorem emb_C (e : ES) : C (emb e) = e.C := rfl

theorem emb_aligned {e : ES} (h : Ready e) (hR : 1 ≤ e.R) (hal : ∀ c ∈ e.cs, Aligned c) : Aligned (emb e) :=
  ⟨fun i => hal _ (List.get_mem _ i), fun i j => map_scope_ext.2
    ⟨h.fit.features _ (List.get_mem _ i) _ (List.get_mem _ j),
      h.fit.aligned hR _ (List.get_mem _ i) _ (List.get_mem _ j)⟩⟩

theorem emb_fscope {e : ES} (h : Ready e) (hR : 1 ≤ e.R) (hal : ∀ c ∈ e.cs, Aligned c) {c : Circ} (hc : c ∈ e.cs)
    (f : ℕ) : fscope (emb e) f = fscope c f := by
  obtain ⟨i, hi, rfl⟩ := List.getElem_of_mem hc
  rw [emb, fscope_sum, fscope_cat2 (emb_aligned h hR hal).2 ⟨i, hi⟩]
  rfl

/-- The embedding computes the same tensor. -/
theorem emb_val {e : ES} (h : Ready e) {f ch : ℕ} (hf : f < e.F) (hch : ch < e.C) (x : Row) (r : ℕ) :
    featAt (den (emb e)) f x r ch = e.val f x r ch := by
  have hC : 1 ≤ e.Cin := by exact Nat.lt_of_le_of_lt (Nat.zero_le _) (div_lt_Cin hch).1
  apply expL_injective
  rw [emb, expL_featAt_sum (by rw [cat_F h hC]; exact hf), expL_val hch, sum_emb]
  refine Finset.sum_congr rfl fun i _ => ?_
  simp only [weight, softmax_eq, den_emb h hch]
  have e1 : ∀ k ∈ Finset.range (C e.cs[i]),
      expL (embθ e f (offC e.cs.get i + k) ch (bc e.R r)) /
          (∑ j ∈ Finset.range e.cs.length, expL (e.θ f (ch / e.Co) (ch % e.Co) j (bc e.R r))) *
        expL (featAt (den (cat2 e.cs.length e.cs.get)) f x r (offC e.cs.get i + k)) =
      expL (embθ e f (offC e.cs.get i + k) ch (bc e.R r)) * ((expL (featAt (den e.cs[i]) f x r k)) /
          ∑ j ∈ Finset.range e.cs.length, expL (e.θ f (ch / e.Co) (ch % e.Co) j (bc e.R r))) := by
    intro k hk
    have := featAt_cat2 (cs := e.cs.get) i (by rw [cat_F h hC]; exact hf) (Finset.mem_range.1 hk) x r
    rw [this, div_mul_eq_mul_div, mul_div_assoc]
    rfl
  rw [Finset.sum_congr rfl e1, block_sum h i hch]
  rw [ES.weight, softmax_eq, div_mul_eq_mul_div, mul_div_assoc]

theorem emb_tensorR (e : ES) : tensorR (emb e) = e.tensorR := by
  unfold ES.tensorR emb
  generalize cat2 e.cs.length e.cs.get = c
  rfl

/-- **C66 (normalisation).** In every feature and every output channel an ElementwiseSum over aligned circuits with
normalised leaves is a normalised density of that feature's variables. -/
theorem C66_normalised {μ : Var → Measure ℝ} [∀ v, SigmaFinite (μ v)] {e : ES} (h : Ready e) (hR : 1 ≤ e.R)
    (hal : ∀ c ∈ e.cs, Aligned c) (hl : ∀ c ∈ e.cs, LeafOk μ c) {T : ℕ} (hT : e.tensorR = some T) {c : Circ}
    (hc : c ∈ e.cs) {f ch r : ℕ} (hf : f < e.F) (hch : ch < e.C) (hr : r < T) (x : Var → ℝ) :
    (∫⋯∫⁻_(fscope c f), (fun y => ENNReal.ofReal (expL (e.val f (fun v => some (y v)) r ch))) ∂μ) x = 1 := by
  have hC : 1 ≤ e.Cin := by exact Nat.lt_of_le_of_lt (Nat.zero_le _) (div_lt_Cin hch).1
  have := C10_normalised_partial (μ := μ) (emb_accepted h hC) (emb_aligned h hR hal)
    (fun i => hl _ (List.get_mem _ i)) ((emb_tensorR e).trans hT) (f := f) (ch := ch) (r := r)
    (by rw [emb_F h hC]; exact hf) hch hr x
  simp only [emb_val h hf hch] at this
  rw [emb_fscope h hR hal hc] at this
  exact this

/-- **C66 (missing values).** A missing cell is integrated out. -/
theorem C66_nan_is_integral {μ : Var → Measure ℝ} [∀ v, SigmaFinite (μ v)] {e : ES} (h : Ready e) (hR : 1 ≤ e.R)
    (hal : ∀ c ∈ e.cs, Aligned c) (hl : ∀ c ∈ e.cs, LeafOk μ c) {T : ℕ} (hT : e.tensorR = some T) {c : Circ}
    (hc : c ∈ e.cs) {f ch r : ℕ} (hf : f < e.F) (hch : ch < e.C) (hr : r < T) (S : Finset Var) (hS : S ⊆ fscope c f)
    (x : Var → ℝ) :
    ENNReal.ofReal (expL (e.val f (maskRow S x) r ch)) =
      (∫⋯∫⁻_S, (fun y => ENNReal.ofReal (expL (e.val f (fun v => some (y v)) r ch))) ∂μ) x := by
  have hC : 1 ≤ e.Cin := by exact Nat.lt_of_le_of_lt (Nat.zero_le _) (div_lt_Cin hch).1
  have := C11_nan_is_integral_partial (μ := μ) (emb_accepted h hC) (emb_aligned h hR hal)
    (fun i => hl _ (List.get_mem _ i)) ((emb_tensorR e).trans hT) (f := f) (ch := ch) (r := r)
    (by rw [emb_F h hC]; exact hf) hch hr S (by rw [emb_fscope h hR hal hc]; exact hS) x
  simp only [emb_val h hf hch] at this
  exact this

end Verif.ESum

import Verif.JEncNeg

/-!
C85: sampling ignores the latent permutation when the latent stream already has the fusion width.
-/

open MeasureTheory

namespace Verif.JEnc

open Finset Verif.Circ Verif.Conv Verif.Apc Verif.Simple
open Verif.Prog hiding bind

variable {μ : Var → Measure ℝ}

/-- **The permutation is ignored by `_sample`.** A permuting layer that adds no features: feature `f` has the log-likelihood of feature
`p[f]` of its input, but a request for feature `f` is passed on to feature `f`. -/
theorem C85_permutation_ignored {n : Net} (h : n.Good μ) (hC : 1 ≤ n.C) (p : List ℕ) (hp : p.Perm (List.range n.F)) :
    (∀ f < n.F, ∀ ch x, (Net.pack n n.F (some p)).val f x ch = n.val (p.getD f 0) x ch) ∧
    ∀ (ev : Option Row) (ch : ℕ → ℕ) (mask : ℕ → Bool), (∀ f < n.F, ch f < n.C) →
      Net.sample ev (.pack n n.F (some p)) ch mask = Net.sample ev n ch mask := by
  have hlen : p.length = n.F := by rw [hp.length_eq, List.length_range]
  refine ⟨fun f hf ch x => ?_, fun ev ch mask hch => ?_⟩
  · have hlt : p.getD f 0 < n.F := by
      rw [List.getD_eq_getElem _ _ (by omega)]
      exact List.mem_range.1 (hp.subset (List.getElem_mem _))
    rw [Net.val_pack h]
    exact if_pos hlt
  · funext y
    simp only [Net.sample, validCtx_of hC hch Nat.one_pos, Bool.not_true, Bool.false_eq_true, if_false, if_true]

/-! ### The network that is sampled -/

/-- The network without the permutations that `_sample` ignores. -/
def unperm : Net → Net
  | .base c => .base c
  | .sum n Co θ => .sum (unperm n) Co θ
  | .sumConv n Co K θ => .sumConv (unperm n) Co K θ
  | .prodConv n kh kw ph pw => .prodConv (unperm n) kh kw ph pw
  | .pair n => .pair (unperm n)
  | .pack n t perm => if t = n.F then unperm n else .pack (unperm n) t perm
  | .fuse a b => .fuse (unperm a) (unperm b)

theorem unperm_FC (n : Net) : (unperm n).F = n.F ∧ (unperm n).C = n.C := by
  induction n with
  | base c => exact ⟨rfl, rfl⟩
  | sum n Co θ ih => exact ⟨ih.1, rfl⟩
  | sumConv n Co K θ ih => exact ⟨ih.1, rfl⟩
  | prodConv n kh kw ph pw ih =>
    refine ⟨?_, ih.2⟩
    show (side (unperm n).F + 2 * ph) / kh * ((side (unperm n).F + 2 * pw) / kw) = _
    rw [ih.1]; rfl
  | pair n ih => exact ⟨by show (unperm n).F / 2 = _; rw [ih.1]; rfl, ih.2⟩
  | pack n t perm ih =>
    unfold unperm
    split_ifs with h
    · exact ⟨by rw [ih.1, ← h]; rfl, ih.2⟩
    · exact ⟨rfl, ih.2⟩
  | fuse a b iha _ => exact iha

theorem pickAll_E {C : ℕ} {l l' : ℕ → ℕ → LogV} : ∀ (F : ℕ) (k k' : (ℕ → ℕ) → ENNReal),
    (∀ f < F, ∀ ci < C, softmax C (l f) ci = softmax C (l' f) ci) →
    (∀ g, (∀ f < F, g f < C) → k g = k' g) → (pickAll C l F).E k = (pickAll C l' F).E k' := by
  intro F
  induction F with
  | zero => intro k k' _ hk; exact hk _ fun f hf => absurd hf (Nat.not_lt_zero _)
  | succ F ih =>
    intro k k' hl hk
    show ((pickAll C l F).bind _).E k = ((pickAll C l' F).bind _).E k'
    rw [E_bind, E_bind]
    refine ih _ _ (fun f hf => hl f (by omega)) fun g hg => ?_
    simp only [Prog.E]
    refine sum_congr rfl fun i hi => ?_
    rw [mem_range] at hi
    rw [hl F (by omega) i hi, hk]
    intro f hf
    by_cases h : f = F
    · subst h; rw [Function.update_self]; exact hi
    · rw [Function.update_of_ne h]; exact hg f (by omega)

/-- **What is sampled without evidence**: on a row of NaNs, `_sample` of a network has the law of `_sample` of the network without
the ignored permutations. -/
theorem C85_samples_without_permutation {n : Net} (h : n.Good μ) (hu : (unperm n).Good μ) (hs : (unperm n).Samp) {e : Row} (he : ∀ v, e v = none)
    {ev : Option Row} (hev : Net.Ev ev e) : ∀ (ch : ℕ → ℕ) (mask : ℕ → Bool), (∀ f < n.F, ch f < n.C) →
      ∀ y k, (Net.sample ev n ch mask y).E k = (Net.sample ev (unperm n) ch mask y).E k := by
  induction n with
  | base c => intro _ _ _ _ _; rfl
  | sum n Co θ ih =>
    intro ch mask hch y k
    obtain ⟨eF, eC⟩ := unperm_FC n
    have hF : ∀ f < (unperm n).F, ch f < Co := fun f hf => hch f (eF ▸ hf)
    rw [Net.sample_sum' h ev mask hch, show unperm (.sum n Co θ) = .sum (unperm n) Co θ from rfl, Net.sample_sum' hu ev mask hF,
      E_bind, E_bind]
    have one : ∀ (m : Net), (Net.sum m Co θ).Good μ → ∀ f < m.F, ∀ co < Co, (Net.sum m Co θ).val f e co ≠ ⊥ := fun m hm f hf co hco => by
      rw [Ne, ← expL_eq_zero_iff, (Net.good_fam hm).2.miss f hf co hco e fun v _ => he v]; exact one_ne_zero
    have key : ∀ (m : Net), (Net.sum m Co θ).Good μ → m.C = n.C → ∀ f < m.F, ∀ (hc : ch f < Co), ∀ ci < n.C,
        softmax n.C (Net.sumLogits m ev θ ch f) ci = softmax n.C (fun i => θ f i (ch f)) ci := fun m hm hmC f hf hc ci hci => by
      obtain ⟨h1, h2⟩ := Net.good_fam hm.1
      have hl : ∃ i < n.C, θ f i (ch f) ≠ ⊥ := hmC ▸ hm.2.2 f hf _ hc
      have hone : ∀ i < m.C, expL (m.val f e i) = 1 := fun i hi => h2.miss f hf i hi e fun v _ => he v
      have := (Conv.Net.mix_logits (n := m.C) (θ := fun i => θ f i (ch f)) (u := fun i => m.val f e i) (l := Net.sumLogits m ev θ ch f)
        hev (Net.val_sum hm.1 f (ch f) e) (by rw [Ne, expL_eq_zero_iff]; exact one m hm f hf _ hc) (fun _ => hone)
        (by
          rintro rfl
          obtain ⟨T, hT, hT0⟩ := Net.cached_some hm.1 e
          unfold Net.sumLogits
          rw [hT]
          simp only [hT0]) (by rintro rfl; exact .inl rfl)).1 ci (hmC.symm ▸ hci)
      rw [hmC] at this
      rw [this, hone ci (hmC.symm ▸ hci), (Net.good_fam hm).2.miss f hf _ hc e fun v _ => he v, mul_one, div_one]
    rw [eC, eF]
    refine pickAll_E _ _ _ (fun f hf ci hci => ?_) fun g hg => ih h.1 hu.1 hs g mask hg y k
    rw [key n h rfl f hf (hch f hf) ci hci, key (unperm n) hu eC f (eF.symm ▸ hf) (hch f hf) ci hci]
  | sumConv n Co K θ ih =>
    intro ch mask hch y k
    obtain ⟨eF, eC⟩ := unperm_FC n
    have hF : ∀ f < (unperm n).F, ch f < Co := fun f hf => hch f (eF ▸ hf)
    have hd : K ∣ side n.F := eF ▸ hs.2
    rw [Net.sample_sumConv h hd ev mask hch, show unperm (.sumConv n Co K θ) = .sumConv (unperm n) Co K θ from rfl,
      Net.sample_sumConv hu hs.2 ev mask hF, E_bind, E_bind]
    have one : ∀ (m : Net), (Net.sumConv m Co K θ).Good μ → ∀ f < m.F, ∀ co < Co, (Net.sumConv m Co K θ).val f e co ≠ ⊥ :=
      fun m hm f hf co hco => by
        rw [Ne, ← expL_eq_zero_iff, (Net.good_fam hm).2.miss f hf co hco e fun v _ => he v]; exact one_ne_zero
    have key : ∀ (m : Net), (Net.sumConv m Co K θ).Good μ → K ∣ side m.F → m.C = n.C → m.F = n.F → ∀ f < m.F, ∀ (hc : ch f < Co), ∀ ci < n.C,
        softmax n.C ((Net.layer m Co K θ).sampleLogits (side m.F) (Net.cachedLL m ev) ch 0 f) ci =
          softmax n.C (Net.pixLogits n K θ f (ch f)) ci := fun m hm hmd hmC hmF f hf hc ci hci => by
      obtain ⟨h1, h2⟩ := Net.good_fam hm.1
      have := (Net.sumConvLogits_spec hm hmd hev (one m hm) hf hc).1 ci (hmC.symm ▸ hci)
      rw [hmC] at this
      rw [this, h2.miss f hf ci (hmC.symm ▸ hci) e fun v _ => he v, (Net.good_fam hm).2.miss f hf _ hc e fun v _ => he v, mul_one, div_one]
      unfold Net.pixLogits
      rw [hmF]
    rw [eC, eF]
    refine pickAll_E _ _ _ (fun f hf ci hci => ?_) fun g hg => ih h.1 hu.1 hs.1 g mask hg y k
    rw [key n h hd rfl rfl f hf (hch f hf) ci hci]
    have := key (unperm n) hu hs.2 eC eF f (eF.symm ▸ hf) (hch f hf) ci hci
    rw [eF] at this
    exact this.symm
  | prodConv n kh kw ph pw ih =>
    intro ch mask hch y k
    obtain ⟨eF, eC⟩ := unperm_FC n
    have hch' : ∀ f < (Net.prodConv (unperm n) kh kw ph pw).F, ch f < (unperm n).C := fun f hf => by
      rw [eC]; exact hch f (by rw [← (unperm_FC (.prodConv n kh kw ph pw)).1]; exact hf)
    have hgeo : (unperm n).geo kh kw ph pw = n.geo kh kw ph pw := by unfold Net.geo; rw [eF]
    obtain ⟨ch', e1, h1⟩ := Net.route_owner hu hs ch
    obtain ⟨mask', e2, h2⟩ := Net.route_owner hu hs mask
    have hC : 1 ≤ (unperm n).C := Net.posC hu.1 hs.1
    have hv : validCtx ((unperm n).geo kh kw ph pw).outF (unperm n).C 1 ch mask 0 = true := validCtx_of hC hch' Nat.one_pos
    have hv' := hv
    rw [hgeo, eC] at hv'
    have e1' := e1
    have e2' := e2
    rw [hgeo] at e1' e2'
    rw [show unperm (.prodConv n kh kw ph pw) = .prodConv (unperm n) kh kw ph pw from rfl]
    simp only [Net.sample, hv, hv', e1, e2, e1', e2', Bool.not_true, Bool.false_eq_true, if_false]
    refine ih h.1 hu.1 hs.1 ch' mask' (fun f hf => ?_) y k
    rw [(h1 f (eF.symm ▸ hf)).2, ← eC]
    exact hch' _ (Net.owner_lt' (h1 f (eF.symm ▸ hf)).1)
  | pair n ih =>
    intro ch mask hch y k
    obtain ⟨eF, eC⟩ := unperm_FC n
    have hC : 1 ≤ (unperm n).C := Net.posC hu.1 hs
    have hch' : ∀ f < (unperm n).F / 2, ch f < (unperm n).C := fun f hf => by rw [eC]; exact hch f (show f < n.F / 2 by rw [← eF]; exact hf)
    rw [show unperm (.pair n) = .pair (unperm n) from rfl, Net.sample_pair hu.1 hs ev mask hch']
    have hv : validCtx (n.F / 2) n.C 1 ch mask 0 = true := validCtx_of (eC ▸ hC) hch Nat.one_pos
    simp only [Net.sample, hv, Bool.not_true, Bool.false_eq_true, if_false]
    exact ih h.1 hu.1 hs _ _ (fun f hf => hch _ (show f / 2 < n.F / 2 by have := h.2; omega)) y k
  | pack n t perm ih =>
    intro ch mask hch y k
    obtain ⟨eF, eC⟩ := unperm_FC n
    by_cases ht : t = n.F
    · have hun : unperm (.pack n t perm) = unperm n := by rw [unperm, if_pos ht]
      rw [hun] at hu hs ⊢
      have hC : 1 ≤ (unperm n).C := Net.posC hu hs
      have hv : validCtx t n.C 1 ch mask 0 = true := validCtx_of (eC ▸ hC) hch Nat.one_pos
      simp only [Net.sample, hv, Bool.not_true, Bool.false_eq_true, if_false, if_pos ht]
      exact ih h.1 hu hs ch mask (fun f hf => hch f (ht ▸ hf)) y k
    · have hun : unperm (.pack n t perm) = .pack (unperm n) t perm := by rw [unperm, if_neg ht]
      rw [hun] at hu hs ⊢
      have hC : 1 ≤ (unperm n).C := Net.posC hu.1 hs.1
      have hv : validCtx t n.C 1 ch mask 0 = true := validCtx_of (eC ▸ hC) hch Nat.one_pos
      rw [Net.sample_pack hu hs ev mask fun f hf => by rw [eC]; exact hch f hf]
      simp only [Net.sample, hv, Bool.not_true, Bool.false_eq_true, if_false, if_neg ht]
      exact ih h.1 hu.1 hs.1 _ _ (fun f hf => hch _ (permAt_permInv h.2.2 (by have := h.2.1; omega)).1) y k
  | fuse a b iha ihb =>
    intro ch mask hch y k
    obtain ⟨aF, aC⟩ := unperm_FC a
    have hC : 1 ≤ (unperm a).C := Net.posC hu.1 hs.1
    have hv : validCtx a.F a.C 1 ch mask 0 = true := validCtx_of (aC ▸ hC) hch Nat.one_pos
    rw [show unperm (.fuse a b) = .fuse (unperm a) (unperm b) from rfl,
      Net.sample_fuse hu.1 hs.1 ev mask fun f hf => by rw [aC]; exact hch f (aF ▸ hf)]
    simp only [Net.sample, hv, Bool.not_true, Bool.false_eq_true, if_false, seqAll, E_bind, Prog.E]
    rw [iha h.1 hu.1 hs.1 ch mask hch]
    refine E_congr fun z _ => ?_
    exact ihb h.2.1 hu.2.1 hs.2 ch mask (fun f hf => h.2.2.2.1 ▸ hch f (show f < a.F by have := h.2.2.1; omega)) z k

end Verif.JEnc

import Verif.RatNaN
import Verif.SamplingProps

/-!
Helper lemmas for C67 and C68: the distribution of `_sample` of a layered network.
-/

open MeasureTheory

namespace Verif.Rat

open Finset Verif.Circ Verif.Prog
open Verif.Conv (Fam ratiosU actU mix_law group_law)

variable {μ : Var → Measure ℝ}

theorem route_two {α : Type} (mode : Mode) {L j : ℕ} (hj : j < 2 * L) (req : ℕ → ℕ → α) (d : α) :
    (Net.routeSplit mode 2 L req).getD j d = req (own mode L j) (part mode L j) := by
  have hL : 0 < L := by omega
  cases mode with
  | consecutive =>
    show ((List.range 2).flatMap fun i => (List.range L).map fun f => req f i).getD j d = req (j % L) (j / L)
    have e : ((List.range 2).flatMap fun i => (List.range L).map fun f => req f i) =
        ((List.range L).map fun f => req f 0) ++ ((List.range L).map fun f => req f 1) := by
      rw [show List.range 2 = [0, 1] from rfl]; simp
    rw [e, List.getD_eq_getElem?_getD]
    by_cases h : j < L
    · rw [List.getElem?_append_left (by simpa using h), Nat.mod_eq_of_lt h, Nat.div_eq_of_lt h]
      simp [h]
    · have h1 : j / L = 1 := by
        rw [Nat.div_eq_iff hL]; omega
      have h2 : j % L = j - L := by
        rw [Nat.mod_eq_sub_mod (by omega), Nat.mod_eq_of_lt (by omega)]
      have h3 : j - L < L := by omega
      rw [List.getElem?_append_right (by simp; omega), h1, h2]
      simp [h3]
  | interleaved =>
    show ((List.range L).flatMap fun f => (List.range 2).map fun i => req f i).getD j d = req (j / 2) (j % 2)
    rw [List.getD_eq_getElem?_getD]
    have hlt : j / 2 < (List.range L).length := by rw [List.length_range]; omega
    have := Outer.flatMap_getElem (m := 2) (l := List.range L) (f := fun f => (List.range 2).map fun i => req f i) (i := j / 2)
      (j := j % 2) (hi := hlt) (by simp) (Nat.mod_lt _ (by omega))
    rw [Nat.div_add_mod'] at this
    rw [this]
    have h2 : j % 2 < 2 := Nat.mod_lt _ (by omega)
    simp [h2]

theorem partChannel_eq {outer : Bool} {C co i : ℕ} (h : co < prodC C outer) (hi : i < 2) :
    Net.partChannel outer C co i = chan outer C i co := by
  unfold Net.partChannel
  split_ifs with h1 h2
  · have := chan_lt (i := i) h
    omega
  · subst h2
    have h' : co < C * C := h
    rw [table_two h']
    rcases (by omega : i = 0 ∨ i = 1) with rfl | rfl <;> rfl
  · cases outer
    · rfl
    · exact absurd rfl h2

theorem pickNan_eq {m F : ℕ} {l : ℕ → Option (ℕ → LogV)} (h : ∀ f < F, (l f).isSome) :
    Net.pickNan m l F = pickAll m (fun f => (l f).getD fun _ => ⊥) F := by
  unfold Net.pickNan
  rw [if_pos]
  simpa using h

/-- The drawn component has the posterior probability. -/
theorem mixLogits_spec {m : ℕ} {ev : Option Row} {e : Row} (hev : Conv.Net.Ev ev e) {θ d : ℕ → LogV}
    {u : Option (ℕ → Option LogV)} {V : ℝ} (h1 : ev = some e → ∃ u', u = some u' ∧ ∀ i < m, u' i = some (d i))
    (h2 : ev = none → u = none) (hV : V = ∑ i ∈ range m, softmax m θ i * expL (d i)) (hV0 : V ≠ 0)
    (hn : (∀ v, e v = none) → ∀ i < m, expL (d i) = 1) :
    (Net.mixLogits m θ u).isSome ∧
    (∀ i < m, softmax m ((Net.mixLogits m θ u).getD fun _ => ⊥) i = softmax m θ i * expL (d i) / V) ∧
    ∑ i ∈ range m, softmax m ((Net.mixLogits m θ u).getD fun _ => ⊥) i = 1 := by
  rcases hev with hs | ⟨hs, hm⟩
  · obtain ⟨u', rfl, hu⟩ := h1 hs
    obtain ⟨v, hv, hvd⟩ := allSome_some hu
    have e1 : Net.mixLogits m θ (some u') = some (logSoftmax m fun i => θ i + v i) := by
      simp only [Net.mixLogits, hv, Option.map_some]
    rw [e1]
    have hV' : V = ∑ i ∈ range m, softmax m θ i * expL (v i) := by
      rw [hV]
      exact sum_congr rfl fun i hi => by rw [hvd i (mem_range.1 hi)]
    obtain ⟨a, b⟩ := Conv.Net.mix_logits (l := logSoftmax m fun i => θ i + v i) (.inl hs) hV' hV0
      (fun h i hi => by rw [hvd i hi]; exact hn h i hi) (fun _ => rfl) (fun h => by rw [hs] at h; cases h)
    exact ⟨rfl, fun i hi => by rw [← hvd i hi]; exact a i hi, b⟩
  · rw [h2 hs]
    obtain ⟨a, b⟩ := Conv.Net.mix_logits (l := θ) (.inr ⟨hs, hm⟩) hV hV0 hn (fun h => by rw [hs] at h; cases h)
      (fun _ => .inl rfl)
    exact ⟨rfl, a, b⟩

/-- No exception, the frame condition, and the law, in one. -/
structure Spec (S : Row → Prog Row) (A : Set Var) (e : Row) (ρ : Row → ENNReal) : Prop where
  noFail : NoFail S
  frames : Frames S A
  law : Law S A e ρ

theorem Spec.congr {S : Row → Prog Row} {A A' : Set Var} {e : Row} {ρ ρ' : Row → ENNReal} (h : Spec S A e ρ)
    (hA : A' = A ∧ ∀ z, ρ' z = ρ z) : Spec S A' e ρ' :=
  ⟨h.noFail, hA.1 ▸ h.frames, law_congr hA.1 hA.2 h.law⟩

theorem mix_spec {F C Co : ℕ} {s : ℕ → Finset Var} {u u' : ℕ → Row → ℕ → LogV} (hfam : Fam μ F C s u)
    {w : ℕ → ℕ → ℕ → ℝ}
    (he : ∀ f < F, ∀ co < Co, ∀ x, expL (u' f x co) = ∑ ci ∈ range C, w f co ci * expL (u f x ci))
    {l : ℕ → Option (ℕ → LogV)} {S : (ℕ → ℕ) → Row → Prog Row} {ch : ℕ → ℕ} {mask : ℕ → Bool} {e : Row}
    (hch : ∀ f < F, ch f < Co)
    (hl : ∀ f < F, (l f).isSome ∧
      (∀ ci < C, softmax C ((l f).getD fun _ => ⊥) ci = w f (ch f) ci * expL (u f e ci) / expL (u' f e (ch f))) ∧
      ∑ ci ∈ range C, softmax C ((l f).getD fun _ => ⊥) ci = 1)
    (ih : ∀ ch', (∀ f < F, ch' f < C) → Spec (S ch') (actU F s mask) e (ratiosU F u e ch' mask)) :
    Spec (fun y => (Net.pickNan C l F).bind fun ch' => S ch' y) (actU F s mask) e (ratiosU F u' e ch mask) := by
  rw [pickNan_eq fun f hf => (hl f hf).1]
  refine ⟨?_, ?_, mix_law hfam he hch (fun f hf => (hl f hf).2.1) (fun f hf => (hl f hf).2.2)
    fun ch' h1 _ => (ih ch' h1).law⟩
  · intro y
    refine not_fails_bind (pickAll_noFail fun f hf hd => ?_) fun ch' ho => (ih ch' (pickAll_outcome ho)).noFail y
    have := (hl f hf).2.2
    rw [sum_eq_zero fun ci _ => softmax_dead hd ci] at this
    exact one_ne_zero this.symm
  · intro y z ho
    rw [outcome_bind] at ho
    obtain ⟨ch', h1, h2⟩ := ho
    exact (ih ch' (pickAll_outcome h1)).frames y z h2

namespace Net

/-- The leaves can be sampled in every repetition. -/
def Samp : Net → Prop
  | fact c _ R _ => PosCh c ∧ ∀ r < R, RepS r c ∧ ∀ e, Circ.Live e r c
  | prod n _ _ _ => Samp n
  | sum n _ _ => Samp n
  | einsum n _ _ _ => Samp n
  | linsum n _ _ => Samp n
  | collapse n => Samp n

theorem cached_alive {n : Net} (h : n.Good μ) {e : Row} (ha : n.Alive e) : ∃ T, cachedLL n (some e) = some T ∧
    ∀ f < F n, ∀ ch < C n, ∀ r < R n, T f ch r = some (den r n f e ch) := by
  obtain ⟨T, hT, hv⟩ := logLik_alive h ha
  exact ⟨T, by simp only [cachedLL, hT], hv⟩

/-- A product over a split: the input is sampled with the requests of the owners. -/
theorem prod_spec {n : Net} (mode : Mode) (k : ℕ) (outer : Bool) (he : 2 ∣ F n ∧ 2 ≤ F n) {r : ℕ} {e : Row} {ch ch' : ℕ → ℕ}
    {mask mask' : ℕ → Bool} {S : Row → Prog Row}
    (hch' : ∀ j < F n, ch' j = chan outer (C n) (part mode (F n / 2) j) (ch (own mode (F n / 2) j)))
    (hmask : ∀ j < F n, mask' j = mask (own mode (F n / 2) j))
    (h : Spec S (actU (F n) (vars r n) mask') e (ratiosU (F n) (den r n) e ch' mask')) :
    Spec S (actU (F n / 2) (vars r (prod n mode k outer)) mask) e
      (ratiosU (F n / 2) (den r (prod n mode k outer)) e ch mask) := by
  refine h.congr (group_law (own := own mode (F n / 2)) (κ := fun co j => chan outer (C n) (part mode (F n / 2) j) co)
    (fun j hj => ?_) hch' hmask ?_ (fun o _ x => rfl) e)
  · rw [(even_F he).1] at hj
    exact (own_lt hj).1
  · intro o _ v
    simp only [vars, mem_biUnion, mem_filter, mem_range, and_assoc]

/-- `_sample`: no exception, exactly the active variables are filled, and the exact distribution - for every request. -/
theorem sample_spec {n : Net} (h : n.Good μ) (hs : n.Samp) {ev : Option Row} {e : Row} (hev : Conv.Net.Ev ev e)
    (ha : n.Alive e) {r : ℕ} (hr : r < R n) : ∀ (ch : ℕ → ℕ) (mask : ℕ → Bool), (∀ f < F n, ch f < C n) →
      Spec (sample ev r n ch mask) (actU (F n) (vars r n) mask) e (ratiosU (F n) (den r n) e ch mask) := by
  have hden := fun {m : Net} (hm : m.Good μ) (ham : m.Alive e) (hrm : r < R m) => den_alive hm ham hrm
  induction n with
  | fact c d R G =>
    intro ch mask hch
    obtain ⟨⟨hacc, hal, -⟩, hC, ht, hG⟩ := h
    obtain ⟨hpc, hrs⟩ := hs
    have hown : ∀ i < c.F, Fact.owner (G r) i < 2 ^ d := fun i hi => by
      rw [← (hG r hr).2]; exact (Fact.C20_owner c.F (G r) (hG r hr).1 i hi).1
    set ch' : ℕ → ℕ := fun i => (Fact.routeInt (G r) c.F ch).getD i 0 with hch'd
    set mask' : ℕ → Bool := fun i => (Fact.routeInt (G r) c.F mask).getD i false with hmask'd
    have hch' : ∀ i < c.F, ch' i = ch (Fact.owner (G r) i) := fun i hi => by simp [hch'd, Fact.routeInt, hi]
    have hmask' : ∀ i < c.F, mask' i = mask (Fact.owner (G r) i) := fun i hi => by simp [hmask'd, Fact.routeInt, hi]
    have hlt : ∀ i < c.F, ch' i < c.C := fun i hi => by rw [hch' i hi]; exact hch _ (hown i hi)
    have es : sample ev r (fact c d R G) ch mask = Circ.sample ev r c ch' mask' := by
      funext y
      have hv : validCtx (2 ^ d) c.C R ch mask r = true := validCtx_of hC hch hr
      simp only [sample, hv, Bool.not_true, Bool.false_eq_true, if_false]
      rfl
    rw [es]
    have hok := sample_ok (ev := ev) hacc hal hpc (hrs r hr).1 (fun e' _ => (hrs r hr).2 e') ch' mask' hlt
    have hlaw := Circ.sample_law hacc hal hpc (hrs r hr).1 ((hrs r hr).2 e) ch' mask' hlt
      (fun i hi _ => by rw [Ne, expL_eq_zero_iff]; exact ha r hr i hi _ (hlt i hi))
    have hlaw' : Law (Circ.sample ev r c ch' mask') (act c mask') e (ratios c r e ch' mask') := by
      rcases hev with rfl | ⟨rfl, hm⟩
      · exact hlaw
      · intro y z h1 h2 h3
        rw [← hlaw y z h1 h2 h3]
        unfold Prog.prob
        exact sample_none_E hacc hal hpc (hrs r hr).1 hm ch' mask' hlt _ _
    have hsp : Spec (Circ.sample ev r c ch' mask') (actU c.F (Circ.fscope c) mask') e
        (ratiosU c.F (fun f x ch => featAt (Circ.den c) f x r ch) e ch' mask') := ⟨hok.1, hok.2, hlaw'⟩
    refine hsp.congr (group_law (own := Fact.owner (G r)) (κ := fun ch _ => ch) hown hch' hmask' ?_ (fun o _ x => rfl) e)
    intro o _ v
    simp only [vars, mem_biUnion, mem_filter, mem_range, and_assoc]
  | prod n mode k outer ih =>
    intro ch mask hch
    obtain ⟨hn, rfl, he⟩ := h
    obtain ⟨e1, e2⟩ := even_F he
    have hF : F (prod n mode 2 outer) = F n / 2 := prodF_two e1 outer
    have hchC : ∀ f < F (prod n mode 2 outer), ch f < prodC (C n) outer := fun f hf => by
      rw [← C_prod n mode 2]; exact hch f hf
    set ch' : ℕ → ℕ := fun j => (routeSplit mode 2 (F (prod n mode 2 outer))
      fun f i => partChannel outer (C n) (ch f) i).getD j 0 with hch'd
    set mask' : ℕ → Bool := fun j => (routeSplit mode 2 (F (prod n mode 2 outer)) fun f _ => mask f).getD j false with hmask'd
    have hch' : ∀ j < F n, ch' j = chan outer (C n) (part mode (F n / 2) j) (ch (own mode (F n / 2) j)) := by
      intro j hj
      rw [e1] at hj
      obtain ⟨o1, o2, -⟩ := own_lt (mode := mode) hj
      simp only [hch'd]
      rw [hF, route_two mode hj, partChannel_eq (hchC _ (by rw [hF]; exact o1)) o2]
    have hmask' : ∀ j < F n, mask' j = mask (own mode (F n / 2) j) := by
      intro j hj
      rw [e1] at hj
      simp only [hmask'd]
      rw [hF, route_two mode hj]
    have hlt : ∀ j < F n, ch' j < C n := by
      intro j hj
      rw [hch' j hj]
      rw [e1] at hj
      exact chan_lt (hchC _ (by rw [hF]; exact (own_lt hj).1))
    have es : sample ev r (prod n mode 2 outer) ch mask = sample ev r n ch' mask' := by
      funext y
      have hall : ((List.range (F (prod n mode 2 outer))).all fun f => decide (ch f < C (prod n mode 2 outer))) = true := by
        simpa using hch
      have hCp : 1 ≤ C (prod n mode 2 outer) := posC (μ := μ) (n := prod n mode 2 outer) ⟨hn, rfl, he⟩
      have hpar : (if outer = true then 2 else 2) = 2 := by split_ifs <;> rfl
      have hdim : ¬ 2 * F (prod n mode 2 outer) ≠ F n := by rw [hF, ← e1]; simp
      have hv : validCtx (F (prod n mode 2 outer)) (C (prod n mode 2 outer)) (R n) ch mask r = true := validCtx_of hCp hch hr
      simp only [sample, hv, hall, Bool.not_true, Bool.false_eq_true, if_false,
        Bool.and_false, hpar, hdim]
      rfl
    have := prod_spec mode 2 outer he hch' hmask' (ih hn hs ha hr ch' mask' hlt)
    rw [es, hF]
    exact this
  | sum n Co θ ih =>
    intro ch mask hch
    replace hch : ∀ f < F n, ch f < Co := hch
    have hv : validCtx (F n) Co (R n) ch mask r = true := validCtx_of h.2.1 hch hr
    have hall : ((List.range (F n)).all fun f => decide (ch f < Co)) = true := by simpa using hch
    have es : sample ev r (sum n Co θ) ch mask = fun y => (pickNan (C n) (fun f => mixLogits (C n) (fun ci => θ f ci (ch f) r)
        ((cachedLL n ev).map fun T ci => T f ci r)) (F n)).bind fun ch' => sample ev r n ch' mask y := by
      funext y
      simp only [sample, hv, hall, Bool.not_true, Bool.false_eq_true, if_false]
    have hE : ∀ f < F n, ∀ co < Co, ∀ x, expL (den r (sum n Co θ) f x co) =
        ∑ ci ∈ range (C n), softmax (C n) (fun ci => θ f ci co r) ci * expL (den r n f x ci) := by
      intro f _ co _ x
      show expL (lse _ _) = _
      rw [expL_lse]
      exact sum_congr rfl fun ci _ => by rw [expL_add, expL_logSoftmax_eq_softmax, mul_comm]
    rw [es]
    refine mix_spec (fam h.1 hr) (w := fun f co ci => softmax (C n) (fun i => θ f i co r) ci) hE hch (fun f hf => ?_)
      fun ch' hch' => ih h.1 hs ha hr ch' mask hch'
    refine mixLogits_spec hev (d := fun ci => den r n f e ci) ?_ ?_ (hE f hf _ (hch f hf) e) ?_ ?_
    · rintro rfl
      obtain ⟨T, hT, hv⟩ := cached_alive h.1 ha
      exact ⟨fun ci => T f ci r, by rw [hT]; rfl, fun i hi => hv f hf i hi r hr⟩
    · rintro rfl; rfl
    · rw [Ne, expL_eq_zero_iff]
      exact hden h ha hr f hf _ (hch f hf)
    · intro hm ci hci
      exact (fam h.1 hr).miss f hf ci hci e fun v _ => hm v
  | einsum n Co p θ ih =>
    intro ch mask hch
    replace hch : ∀ f < F n / 2, ch f < Co := hch
    have hv : validCtx (F n / 2) Co (R n) ch mask r = true := validCtx_of h.2.2.1 hch hr
    have he := h.2.1
    obtain ⟨e1, e2⟩ := even_F he
    have hC := posC h.1
    have hall : ((List.range (F n / 2)).all fun f => decide (ch f < Co)) = true := by simpa using hch
    have es : sample ev r (einsum n Co p θ) ch mask = fun y =>
        (pickNan (C n * C n) (fun f => mixLogits (C n * C n) (fun i => θ f (ch f) r (i / C n) (i % C n))
          ((cachedLL n ev).map fun T i => pairLL T f r (i / C n) (i % C n))) (F n / 2)).bind fun k =>
          sample ev r n (fun j => if j % 2 = 0 then k (j / 2) / C n else k (j / 2) % C n) (fun j => mask (j / 2)) y := by
      funext y
      simp only [sample, hv, hall, Bool.not_true, Bool.false_eq_true,
        if_false]
    have hE : ∀ f < F n / 2, ∀ co < Co, ∀ x, expL (den r (einsum n Co p θ) f x co) =
        ∑ k ∈ range (C n * C n), softmax (C n * C n) (fun k => θ f co r (k / C n) (k % C n)) k *
          expL (den r (prod n .interleaved 2 true) f x k) := by
      intro f hf co _ x
      rw [den_einsum he r hf, expL_lse]
      exact sum_congr rfl fun ci _ => by rw [expL_add, expL_logSoftmax_eq_softmax, mul_comm]
    rw [es]
    refine mix_spec (fam_prod .interleaved 2 true he (fam h.1 hr))
      (w := fun f co k => softmax (C n * C n) (fun k => θ f co r (k / C n) (k % C n)) k) hE hch (fun f hf => ?_)
      fun k hk => ?_
    · refine mixLogits_spec hev (d := fun k => den r (prod n .interleaved 2 true) f e k) ?_ ?_ (hE f hf _ (hch f hf) e) ?_ ?_
      · rintro rfl
        obtain ⟨T, hT, hv⟩ := cached_alive h.1 ha
        refine ⟨fun i => pairLL T f r (i / C n) (i % C n), by rw [hT]; rfl, fun i hi => ?_⟩
        have hf' : f < F n / 2 := hf
        rw [den_prod he r hf']
        unfold pairLL
        beta_reduce
        rw [hv _ (by omega) _ ((Nat.div_lt_iff_lt_mul hC).2 hi) r hr, hv _ (by omega) _ (Nat.mod_lt _ hC) r hr, fsum_two_some]
        rfl
      · rintro rfl; rfl
      · rw [Ne, expL_eq_zero_iff]
        exact hden h ha hr f hf _ (hch f hf)
      · intro hm k hk
        exact (fam_prod .interleaved 2 true he (fam h.1 hr)).miss f hf k hk e fun v _ => hm v
    · refine prod_spec .interleaved 2 true he (ch := k) (mask := mask) (fun j _ => rfl) (fun j _ => rfl)
        (ih h.1 hs ha hr _ _ fun j hj => ?_)
      have hkj : k (j / 2) < C n * C n := hk _ (by omega)
      split_ifs
      · exact (Nat.div_lt_iff_lt_mul hC).2 hkj
      · exact Nat.mod_lt _ hC
  | linsum n Co θ ih =>
    intro ch mask hch
    replace hch : ∀ f < F n / 2, ch f < Co := hch
    have hv : validCtx (F n / 2) Co (R n) ch mask r = true := validCtx_of h.2.2.1 hch hr
    have he := h.2.1
    obtain ⟨e1, e2⟩ := even_F he
    have hall : ((List.range (F n / 2)).all fun f => decide (ch f < Co)) = true := by simpa using hch
    have es : sample ev r (linsum n Co θ) ch mask = fun y =>
        (pickNan (C n) (fun f => mixLogits (C n) (fun c => θ f (ch f) r c)
          ((cachedLL n ev).map fun T c => pairLL T f r c c)) (F n / 2)).bind fun k =>
          sample ev r n (fun j => k (j / 2)) (fun j => mask (j / 2)) y := by
      funext y
      simp only [sample, hv, hall, Bool.not_true, Bool.false_eq_true,
        if_false]
    have hE : ∀ f < F n / 2, ∀ co < Co, ∀ x, expL (den r (linsum n Co θ) f x co) =
        ∑ k ∈ range (C n), softmax (C n) (θ f co r) k * expL (den r (prod n .interleaved 2 false) f x k) := by
      intro f hf co _ x
      rw [den_linsum he r hf, expL_lse]
      exact sum_congr rfl fun ci _ => by rw [expL_add, expL_logSoftmax_eq_softmax, mul_comm]
    rw [es]
    refine mix_spec (fam_prod .interleaved 2 false he (fam h.1 hr))
      (w := fun f co k => softmax (C n) (θ f co r) k) hE hch (fun f hf => ?_)
      fun k hk => ?_
    · refine mixLogits_spec hev (d := fun k => den r (prod n .interleaved 2 false) f e k) ?_ ?_ (hE f hf _ (hch f hf) e) ?_ ?_
      · rintro rfl
        obtain ⟨T, hT, hv⟩ := cached_alive h.1 ha
        refine ⟨fun i => pairLL T f r i i, by rw [hT]; rfl, fun i hi => ?_⟩
        have hf' : f < F n / 2 := hf
        have hi' : i < C n := hi
        rw [den_prod he r hf']
        unfold pairLL
        beta_reduce
        rw [hv _ (by omega) _ hi' r hr, hv _ (by omega) _ hi' r hr, fsum_two_some]
        rfl
      · rintro rfl; rfl
      · rw [Ne, expL_eq_zero_iff]
        exact hden h ha hr f hf _ (hch f hf)
      · intro hm k hk
        exact (fam_prod .interleaved 2 false he (fam h.1 hr)).miss f hf k hk e fun v _ => hm v
    · refine prod_spec .interleaved 2 false he (ch := k) (mask := mask) (fun j _ => rfl) (fun j _ => rfl)
        (ih h.1 hs ha hr _ _ fun j hj => ?_)
      exact hk _ (by omega)
  | collapse n ih =>
    intro ch mask hch
    have hC := posC (n := n) h
    have hv : validCtx 1 (C n) (R n) ch mask r = true := validCtx_of hC hch hr
    have es : sample ev r (collapse n) ch mask = sample ev r n (fun _ => ch 0) (fun _ => mask 0) := by
      funext y
      simp only [sample, hv, Bool.not_true, Bool.false_eq_true, if_false]
    rw [es]
    refine (ih h hs ha hr (fun _ => ch 0) (fun _ => mask 0) fun _ _ => hch 0 Nat.one_pos).congr
      (group_law (n' := 1) (own := fun _ => 0) (κ := fun ch _ => ch) (fun _ _ => Nat.one_pos) (fun _ _ => rfl) (fun _ _ => rfl) ?_ ?_ e)
    · intro o ho v
      obtain rfl : o = 0 := by omega
      simp only [vars, mem_biUnion, mem_range, true_and]
    · intro o ho x
      obtain rfl : o = 0 := by omega
      simp only [filter_true]
      rfl

end Net

end Verif.Rat

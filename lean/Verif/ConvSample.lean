import Verif.ConvPcProps
import Verif.SamplingProps

/-!
Helper lemmas for C61: the distribution of `_sample` of a convolutional network.
-/

open MeasureTheory

namespace Verif.Conv

open Finset Verif.Circ Prog

variable {μ : Var → Measure ℝ}

/-- product over the active features of the ratios of likelihoods -/
noncomputable def ratiosU (F : ℕ) (u : ℕ → Row → ℕ → LogV) (e : Row) (ch : ℕ → ℕ) (mask : ℕ → Bool) (z : Row) : ENNReal :=
  ∏ f ∈ range F, if mask f then ENNReal.ofReal (expL (u f z (ch f)) / expL (u f e (ch f))) else 1

/-- variables of the active features -/
def actU (F : ℕ) (s : ℕ → Finset Var) (mask : ℕ → Bool) : Set Var := {v | ∃ f < F, mask f = true ∧ v ∈ s f}

/-- Sampling the input features with the requests of their owners. -/
theorem group_law {n n' : ℕ} {s s' : ℕ → Finset Var} {u u' : ℕ → Row → ℕ → LogV} {own : ℕ → ℕ} (hown : ∀ j < n, own j < n')
    {κ : ℕ → ℕ → ℕ} {ch ch' : ℕ → ℕ} {mask mask' : ℕ → Bool} (hch : ∀ j < n, ch' j = κ (ch (own j)) j)
    (hmask : ∀ j < n, mask' j = mask (own j)) (hs : ∀ o < n', ∀ v, v ∈ s' o ↔ ∃ f < n, own f = o ∧ v ∈ s f)
    (he : ∀ o < n', ∀ x, u' o x (ch o) = ∑ f ∈ (range n).filter (fun f => own f = o), u f x (κ (ch o) f)) (e : Row) :
    actU n' s' mask = actU n s mask' ∧ ∀ z, ratiosU n' u' e ch mask z = ratiosU n u e ch' mask' z := by
  constructor
  · ext v
    constructor
    · rintro ⟨o, ho, hmo, hv⟩
      obtain ⟨f, hf, rfl, hvf⟩ := (hs o ho v).1 hv
      exact ⟨f, hf, by rw [hmask f hf]; exact hmo, hvf⟩
    · rintro ⟨f, hf, hmf, hvf⟩
      exact ⟨own f, hown f hf, by rw [← hmask f hf]; exact hmf, (hs _ (hown f hf) v).2 ⟨f, hf, rfl, hvf⟩⟩
  · intro z
    unfold ratiosU
    rw [← prod_fiberwise_of_maps_to (s := range n) (t := range n') (g := own)
      (fun f hf => mem_range.2 (hown f (mem_range.1 hf)))]
    refine prod_congr rfl fun o ho => ?_
    rw [mem_range] at ho
    cases hm : mask o with
    | false =>
      symm
      refine prod_eq_one fun f hf => ?_
      rw [mem_filter, mem_range] at hf
      rw [hmask f hf.1, hf.2, hm]
      rfl
    | true =>
      simp only [if_true]
      rw [he o ho, he o ho, expL_sum, expL_sum, ← prod_div_distrib,
        ENNReal.ofReal_prod_of_nonneg fun f _ => div_nonneg (expL_nonneg _) (expL_nonneg _)]
      refine prod_congr rfl fun f hf => ?_
      rw [mem_filter, mem_range] at hf
      rw [hmask f hf.1, hch f hf.1, hf.2, hm, if_pos rfl]

theorem ratiosU_local {F C : ℕ} {s : ℕ → Finset Var} {u : ℕ → Row → ℕ → LogV} (h : Fam μ F C s u) {e : Row} {ch : ℕ → ℕ}
    {mask : ℕ → Bool} (hch : ∀ f < F, ch f < C) : LocalOn (actU F s mask) (ratiosU F u e ch mask) := by
  intro z z' hz
  unfold ratiosU
  refine prod_congr rfl fun f hf => ?_
  rw [mem_range] at hf
  split
  · rename_i hm
    rw [h.loc f hf _ (hch f hf) z z' fun v hv => hz v ⟨f, hf, hm, hv⟩]
  · rfl

theorem softmax_posterior {n : ℕ} {θ u : ℕ → LogV} (h : ∃ i < n, θ i + u i ≠ ⊥) (ci : ℕ) :
    softmax n (logSoftmax n fun i => θ i + u i) ci =
      softmax n θ ci * expL (u ci) / ∑ i ∈ range n, softmax n θ i * expL (u i) := by
  obtain ⟨c0, hc0, hl0⟩ := h
  have hS : 0 < ∑ j ∈ range n, expL (θ j) :=
    sum_expL_pos ⟨c0, hc0, fun h => hl0 (by rw [h, WithBot.bot_add])⟩
  rw [softmax_logSoftmax ⟨c0, hc0, hl0⟩]
  simp only [softmax_eq, expL_add]
  set S := ∑ j ∈ range n, expL (θ j)
  have e2 : ∀ i, expL (θ i) / S * expL (u i) = expL (θ i) * expL (u i) / S := fun i => by ring
  simp only [e2]
  rw [← sum_div, div_div_div_cancel_right₀ hS.ne']

/-- A mixture layer: choosing the input channel with the posterior weights and then sampling the input. -/
theorem mix_law {F C : ℕ} {Co : ℕ} {s : ℕ → Finset Var} {u u' : ℕ → Row → ℕ → LogV} (hfam : Fam μ F C s u)
    {w : ℕ → ℕ → ℕ → ℝ}
    (he : ∀ f < F, ∀ co < Co, ∀ x, expL (u' f x co) = ∑ ci ∈ range C, w f co ci * expL (u f x ci))
    {l : ℕ → ℕ → LogV} {S : (ℕ → ℕ) → Row → Prog Row} {ch : ℕ → ℕ} {mask : ℕ → Bool} {e : Row} (hch : ∀ f < F, ch f < Co)
    (hl : ∀ f < F, ∀ ci < C, softmax C (l f) ci = w f (ch f) ci * expL (u f e ci) / expL (u' f e (ch f)))
    (hone : ∀ f < F, ∑ ci ∈ range C, softmax C (l f) ci = 1)
    (ih : ∀ ch', (∀ f < F, ch' f < C) → (∀ f < F, mask f = true → expL (u f e (ch' f)) ≠ 0) →
      Law (S ch') (actU F s mask) e (ratiosU F u e ch' mask)) :
    Law (fun y => (pickAll C l F).bind fun ch' => S ch' y) (actU F s mask) e (ratiosU F u' e ch mask) := by
  intro y z hy hz hzy
  have hez : ∀ v ∈ actU F s mask, e v ≠ none → z v = e v := by
    intro v hv hne
    rw [← hy v hv] at hne ⊢
    exact hzy v fun hh => hne hh.2
  set z' : Row := fun v => open Classical in if v ∈ actU F s mask then z v else e v with hz'
  have hz'e : ∀ v, e v ≠ none → z' v = e v := by
    intro v hne
    simp only [hz']
    split
    · rename_i hv; exact hez v hv hne
    · rfl
  have hzz' : ∀ f < F, mask f = true → ∀ ci < C, u f z ci = u f z' ci := by
    intro f hf hm ci hci
    refine hfam.loc f hf ci hci _ _ fun v hv => ?_
    have : v ∈ actU F s mask := ⟨f, hf, hm, hv⟩
    simp [hz', this]
  have step : ((fun y => (pickAll C l F).bind fun ch' => S ch' y) y).prob z =
      (pickAll C l F).E fun ch' => (S ch' y).prob z := by
    unfold prob; rw [E_bind]
  rw [step]
  have key : (pickAll C l F).E (fun ch' => (S ch' y).prob z) = (pickAll C l F).E fun ch' =>
      ∏ f ∈ range F, (fun f i => if mask f then ENNReal.ofReal (expL (u f z i) / expL (u f e i)) else 1) f (ch' f) := by
    apply pickAll_congr
    intro ch' hch'
    refine ih ch' (fun f hf => (hch' f hf).1) ?_ y z hy hz hzy
    intro f hf _
    have := (hch' f hf).2
    rw [hl f hf _ (hch' f hf).1] at this
    intro h0
    rw [h0] at this
    simp at this
  rw [key, pickAll_E (fun f i => if mask f then ENNReal.ofReal (expL (u f z i) / expL (u f e i)) else 1)]
  unfold ratiosU
  refine prod_congr rfl fun f hf => ?_
  rw [mem_range] at hf
  cases hm : mask f with
  | false =>
    simp only [Bool.false_eq_true, if_false, mul_one]
    rw [← ENNReal.ofReal_sum_of_nonneg fun i _ => softmax_nonneg _ _ _, hone f hf, ENNReal.ofReal_one]
  | true =>
    simp only [if_true]
    rw [he f hf _ (hch f hf) z, ← sum_congr rfl fun ci _ => ENNReal.ofReal_mul (softmax_nonneg _ _ _),
      ← ENNReal.ofReal_sum_of_nonneg fun i _ => mul_nonneg (softmax_nonneg _ _ _)
        (div_nonneg (expL_nonneg _) (expL_nonneg _)), sum_div]
    congr 1
    refine sum_congr rfl fun ci hci => ?_
    rw [hl f hf ci (mem_range.1 hci)]
    by_cases h0 : expL (u f e ci) = 0
    · have : expL (u f z ci) = 0 := by
        rw [hzz' f hf hm ci (mem_range.1 hci)]
        exact hfam.mono f hf ci (mem_range.1 hci) e z' hz'e h0
      rw [h0, this]; simp
    · field_simp

namespace Net

/-- The shapes on which `_sample` works and routes correctly. -/
def Samp : Net → Prop
  | base c => PosCh c ∧ RepS 0 c
  | sum n _ _ => Samp n
  | sumConv n _ K _ => Samp n ∧ K ∣ side (F n)
  | prodConv n kh kw ph pw => Samp n ∧ (ph = 0 ∧ pw = 0) ∧ kh ∣ side (F n) ∧ kw ∣ side (F n)
  | pair n => Samp n
  | pack n t perm => Samp n ∧ (perm = none ∨ F n ≠ t)
  | fuse a b => Samp a ∧ Samp b

/-- No mixture unit has probability zero on row `e`. -/
def Live (e : Row) : Net → Prop
  | base c => Circ.Live e 0 c
  | sum n Co θ => Live e n ∧ ∀ f < F n, ∀ co < Co, val (sum n Co θ) f e co ≠ ⊥
  | sumConv n Co K θ => Live e n ∧ ∀ f < F n, ∀ co < Co, val (sumConv n Co K θ) f e co ≠ ⊥
  | prodConv n _ _ _ _ => Live e n
  | pair n => Live e n
  | pack n _ _ => Live e n
  | fuse a b => Live e a ∧ Live e b

theorem posC {n : Net} (h : n.Good μ) (hs : n.Samp) : 1 ≤ C n := by
  induction n with
  | base c => exact Circ.posC h.1 hs.1
  | sum n Co θ _ => exact h.2.1
  | sumConv n Co K θ _ => exact h.2.1
  | prodConv n kh kw ph pw ih => exact ih h.1 hs.1
  | pair n ih => exact ih h.1 hs
  | pack n t perm ih => exact ih h.1 hs.1
  | fuse a b iha _ => exact iha h.1 hs.1

theorem live_missing {n : Net} (h : n.Good μ) (hs : n.Samp) {e : Row} (he : ∀ v, e v = none) : n.Live e := by
  have key : ∀ m : Net, m.Good μ → ∀ f < F m, ∀ co < C m, val m f e co ≠ ⊥ := by
    intro m hm f hf co hco
    rw [Ne, ← expL_eq_zero_iff, (good_fam hm).2.miss f hf co hco e fun v _ => he v]
    exact one_ne_zero
  induction n with
  | base c => exact Circ.live_missing h.1 h.2.1 hs.2 he
  | sum n Co θ ih => exact ⟨ih h.1 hs, key _ h⟩
  | sumConv n Co K θ ih => exact ⟨ih h.1 hs.1, key _ h⟩
  | prodConv n kh kw ph pw ih => exact ih h.1 hs.1
  | pair n ih => exact ih h.1 hs
  | pack n t perm ih => exact ih h.1 hs.1
  | fuse a b iha ihb => exact ⟨iha h.1 hs.1, ihb h.2.1 hs.2⟩

theorem cached_some {n : Net} (h : n.Good μ) (e : Row) : ∃ T, cachedLL n (some e) = some T ∧ ∀ f ci, T f ci 0 = val n f e ci := by
  obtain ⟨T, hT⟩ := (good_fam h).1 e
  refine ⟨T, ?_, fun f ci => (val_of hT f ci).symm⟩
  simp only [cachedLL, hT]

theorem val_sum {n : Net} {Co : ℕ} {θ : ℕ → ℕ → ℕ → LogV} (h : n.Good μ) (f co : ℕ) (x : Row) :
    expL (val (sum n Co θ) f x co) = ∑ ci ∈ range (C n), softmax (C n) (fun i => θ f i co) ci * expL (val n f x ci) := by
  obtain ⟨T, hT⟩ := (good_fam h).1 x
  have h2 : logLik (sum n Co θ) x = .ok fun f co r => lse (C n) fun ci => T f ci r +
      logSoftmax (C n) (fun i => θ f i co) ci := by
    simp only [logLik, hT]; rfl
  rw [val_of h2, expL_lse]
  refine sum_congr rfl fun ci _ => ?_
  rw [expL_add, val_of hT, expL_logSoftmax_eq_softmax, mul_comm]

theorem val_sumConv {n : Net} {Co K : ℕ} {θ : ℕ → ℕ → ℕ → ℕ → LogV} (h : (sumConv n Co K θ).Good μ) (f co : ℕ) (x : Row) :
    expL (val (sumConv n Co K θ) f x co) = ∑ ci ∈ range (C n), softmax (C n) (pixLogits n K θ f co) ci * expL (val n f x ci) := by
  obtain ⟨T, hT⟩ := (good_fam h.1).1 x
  obtain ⟨T', hT'⟩ := (good_fam h).1 x
  have h2 : (layer n Co K θ).logLik (F n) 1 T = .ok T' := by
    simp only [logLik, hT] at hT'
    exact hT'
  rw [val_of hT', C50_pixel_mixture (L := layer n Co K θ) h.2.2.1 h2]
  refine sum_congr rfl fun ci _ => ?_
  rw [val_of hT]
  congr 1
  show (if side (F n) < K then _ else _) = _
  unfold pixLogits
  split_ifs <;> rfl

/-- Which evidence row the cached likelihoods belong to; without cache nothing is observed. -/
def Ev (ev : Option Row) (e : Row) : Prop := ev = some e ∨ (ev = none ∧ ∀ v, e v = none)

/-- Softmax of mixture logits = posterior weights. -/
theorem mix_logits {n : ℕ} {ev : Option Row} {e : Row} (hev : Ev ev e) {θ u l : ℕ → LogV} {V : ℝ}
    (hV : V = ∑ ci ∈ range n, softmax n θ ci * expL (u ci)) (hV0 : V ≠ 0)
    (hn : (∀ v, e v = none) → ∀ ci < n, expL (u ci) = 1)
    (h1 : ev = some e → l = logSoftmax n fun ci => θ ci + u ci) (h2 : ev = none → l = θ ∨ l = logSoftmax n θ) :
    (∀ ci < n, softmax n l ci = softmax n θ ci * expL (u ci) / V) ∧ ∑ ci ∈ range n, softmax n l ci = 1 := by
  have hex : ∃ i < n, θ i + u i ≠ ⊥ := by
    by_contra hcon
    push Not at hcon
    apply hV0
    rw [hV]
    refine sum_eq_zero fun i hi => ?_
    rcases WithBot.add_eq_bot.1 (hcon i (mem_range.1 hi)) with h | h
    · rw [softmax_eq, h]; simp
    · rw [h]; simp
  have key : ∀ ci < n, softmax n l ci = softmax n θ ci * expL (u ci) / V := by
    intro ci hci
    rcases hev with hs | ⟨hs, hm⟩
    · rw [h1 hs, softmax_posterior hex, hV]
    · have hone := hn hm
      obtain ⟨i0, hi0, hne⟩ := hex
      have hθ : ∃ i < n, θ i ≠ ⊥ := ⟨i0, hi0, fun h => hne (by rw [h, WithBot.bot_add])⟩
      have hV1 : V = 1 := by
        rw [hV, sum_congr rfl fun i hi => by rw [hone i (mem_range.1 hi), mul_one], sum_softmax hθ]
      rw [hV1, hone ci hci, div_one, mul_one]
      rcases h2 hs with h | h
      · rw [h]
      · rw [h, softmax_logSoftmax hθ]
  refine ⟨key, ?_⟩
  rw [sum_congr rfl fun ci hci => key ci (mem_range.1 hci), ← sum_div, ← hV, div_self hV0]

theorem sumLogits_spec {n : Net} {Co : ℕ} {θ : ℕ → ℕ → ℕ → LogV} (h : (sum n Co θ).Good μ) {ev : Option Row} {e : Row}
    (hev : Ev ev e) (hl : (sum n Co θ).Live e) {ch : ℕ → ℕ} {f : ℕ} (hf : f < F n) (hch : ch f < Co) :
    (∀ ci < C n, softmax (C n) (sumLogits n ev θ ch f) ci =
      softmax (C n) (fun i => θ f i (ch f)) ci * expL (val n f e ci) / expL (val (sum n Co θ) f e (ch f))) ∧
    ∑ ci ∈ range (C n), softmax (C n) (sumLogits n ev θ ch f) ci = 1 := by
  refine mix_logits hev (val_sum h.1 f (ch f) e) ?_ ?_ ?_ ?_
  · rw [Ne, expL_eq_zero_iff]; exact hl.2 f hf _ hch
  · intro hm ci hci
    exact (good_fam h.1).2.miss f hf ci hci e fun v _ => hm v
  · rintro rfl
    obtain ⟨T, hT, hT0⟩ := cached_some h.1 e
    unfold sumLogits
    rw [hT]
    simp only [hT0]
  · rintro rfl
    exact .inl rfl

theorem sumConvLogits_spec {n : Net} {Co K : ℕ} {θ : ℕ → ℕ → ℕ → ℕ → LogV} (h : (sumConv n Co K θ).Good μ)
    (hd : K ∣ side (F n)) {ev : Option Row} {e : Row}
    (hev : Ev ev e) (hl : ∀ f < F n, ∀ co < Co, val (sumConv n Co K θ) f e co ≠ ⊥) {ch : ℕ → ℕ} {f : ℕ} (hf : f < F n) (hch : ch f < Co) :
    (∀ ci < C n, softmax (C n) ((layer n Co K θ).sampleLogits (side (F n)) (cachedLL n ev) ch 0 f) ci =
      softmax (C n) (pixLogits n K θ f (ch f)) ci * expL (val n f e ci) / expL (val (sumConv n Co K θ) f e (ch f))) ∧
    ∑ ci ∈ range (C n), softmax (C n) ((layer n Co K θ).sampleLogits (side (F n)) (cachedLL n ev) ch 0 f) ci = 1 := by
  have hK : 1 ≤ K := h.2.2.1
  have hb : f % side (F n) % K < K := Nat.mod_lt _ hK
  have ek := kFlat (a := f / side (F n) % K) hb
  have hside : 0 < side (F n) := by
    rcases Nat.eq_zero_or_pos (side (F n)) with h0 | h0
    · have := h.2.2.2.1; unfold Square at this; rw [h0] at this; omega
    · exact h0
  have hns : ¬ side (F n) < K := not_lt.2 (Nat.le_of_dvd hside hd)
  have hpix : ∀ ci, pixLogits n K θ f (ch f) ci = θ (ch f) ci (f / side (F n) % K) (f % side (F n) % K) := by
    intro ci
    unfold pixLogits
    rw [if_neg hns]
    rfl
  refine mix_logits hev (val_sumConv h f (ch f) e) ?_ ?_ ?_ ?_
  · rw [Ne, expL_eq_zero_iff]; exact hl f hf _ hch
  · intro hm ci hci
    exact (good_fam h.1).2.miss f hf ci hci e fun v _ => hm v
  · rintro rfl
    obtain ⟨T, hT, hT0⟩ := cached_some h.1 e
    rw [hT]
    unfold SumConv.sampleLogits
    show logSoftmax (C n) (fun ci => θ (ch f) ci ((f / side (F n) % K * K + f % side (F n) % K) / K)
      ((f / side (F n) % K * K + f % side (F n) % K) % K) + T f ci 0) = _
    rw [ek.1, ek.2]
    simp only [hT0, hpix]
  · rintro rfl
    right
    unfold SumConv.sampleLogits
    show logSoftmax (C n) (fun ci => θ (ch f) ci ((f / side (F n) % K * K + f % side (F n) % K) / K)
      ((f / side (F n) % K * K + f % side (F n) % K) % K)) = _
    rw [ek.1, ek.2]
    congr 1
    funext ci
    rw [hpix]

theorem sample_sum' {n : Net} {Co : ℕ} {θ} (h : (sum n Co θ).Good μ) (ev : Option Row) {ch : ℕ → ℕ} (mask : ℕ → Bool)
    (hch : ∀ f < F n, ch f < Co) : sample ev (sum n Co θ) ch mask =
      fun y => (pickAll (C n) (sumLogits n ev θ ch) (F n)).bind fun ch' => sample ev n ch' mask y := by
  funext y
  have hall : ((List.range (F n)).all fun f => decide (ch f < Co)) = true := by simpa using hch
  simp only [sample, validCtx_of h.2.1 hch Nat.one_pos, hall, Bool.not_true, Bool.false_eq_true, if_false]

theorem sample_sumConv {n : Net} {Co K : ℕ} {θ} (h : (sumConv n Co K θ).Good μ) (hd : K ∣ side (F n)) (ev : Option Row)
    {ch : ℕ → ℕ} (mask : ℕ → Bool) (hch : ∀ f < F n, ch f < Co) : sample ev (sumConv n Co K θ) ch mask =
      fun y => (pickAll (C n) ((layer n Co K θ).sampleLogits (side (F n)) (cachedLL n ev) ch 0) (F n)).bind fun ch' =>
        sample ev n ch' mask y := by
  funext y
  have hall : ((List.range (F n)).all fun f => decide (ch f < Co)) = true := by simpa using hch
  have hok : (layer n Co K θ).sampleOk (F n) = .ok () := C50_sampling_ok h.2.2.2.1 hd
  simp only [sample, hok, validCtx_of h.2.1 hch Nat.one_pos, hall, Bool.not_true, Bool.false_eq_true, if_false]

/-- The routed context of a product layer: every pixel gets the entry of its owner. -/
theorem route_owner {n : Net} {kh kw ph pw : ℕ} (h : (prodConv n kh kw ph pw).Good μ) (hs : (prodConv n kh kw ph pw).Samp)
    {α : Type} (g : ℕ → α) : ∃ g', (geo n kh kw ph pw).route g = .ok g' ∧
      ∀ f < F n, (geo n kh kw ph pw).Covered f ∧ g' f = g ((geo n kh kw ph pw).owner f) := by
  have hv : (geo n kh kw ph pw).Valid := ⟨h.2.1, h.2.2.1⟩
  have hin : (geo n kh kw ph pw).inF = F n := h.2.2.2.1
  obtain ⟨g', h1, h2⟩ := ProdConv.C43_routing_unpadded_partial (P := geo n kh kw ph pw) hv hs.2.1 hs.2.2 g
  refine ⟨g', h1, fun f hf => ?_⟩
  have hH : 0 < (geo n kh kw ph pw).H := by
    rcases Nat.eq_zero_or_pos (geo n kh kw ph pw).H with h0 | h0
    · unfold ProdConv.inF at hin; rw [h0] at hin; omega
    · exact h0
  have hz1 : ((geo n kh kw ph pw).H + 2 * (geo n kh kw ph pw).ph) % (geo n kh kw ph pw).kh ≤ (geo n kh kw ph pw).ph := by
    show (side (F n) + 2 * ph) % kh ≤ ph
    rw [hs.2.1.1]
    exact (Nat.mod_eq_zero_of_dvd hs.2.2.1).le
  have hz2 : ((geo n kh kw ph pw).H + 2 * (geo n kh kw ph pw).pw) % (geo n kh kw ph pw).kw ≤ (geo n kh kw ph pw).pw := by
    show (side (F n) + 2 * pw) % kw ≤ pw
    rw [hs.2.1.2]
    exact (Nat.mod_eq_zero_of_dvd hs.2.2.2).le
  obtain ⟨o, ⟨ho, hp⟩, -⟩ := ((ProdConv.C43_each_pixel_once hv).2 hH).2 ⟨hz1, hz2⟩ f (by rwa [hin])
  have hc := (ProdConv.inPatch_owner hv ho f).1 hp
  refine ⟨hc.1, ?_⟩
  rw [h2 f (by rwa [hin]) o ho hp, hc.2]

theorem sample_prodConv {n : Net} {kh kw ph pw : ℕ} (h : (prodConv n kh kw ph pw).Good μ) (hs : (prodConv n kh kw ph pw).Samp)
    (ev : Option Row) {ch : ℕ → ℕ} (mask : ℕ → Bool) (hch : ∀ f < F (prodConv n kh kw ph pw), ch f < C n) :
    ∃ (ch' : ℕ → ℕ) (mask' : ℕ → Bool), (∀ f < F n, (geo n kh kw ph pw).Covered f ∧
        ch' f = ch ((geo n kh kw ph pw).owner f) ∧ mask' f = mask ((geo n kh kw ph pw).owner f)) ∧
      sample ev (prodConv n kh kw ph pw) ch mask = sample ev n ch' mask' := by
  obtain ⟨ch', e1, h1⟩ := route_owner h hs ch
  obtain ⟨mask', e2, h2⟩ := route_owner h hs mask
  refine ⟨ch', mask', fun f hf => ⟨(h1 f hf).1, (h1 f hf).2, (h2 f hf).2⟩, ?_⟩
  funext y
  have hC : 1 ≤ C n := posC h.1 hs.1
  have hv : validCtx (geo n kh kw ph pw).outF (C n) 1 ch mask 0 = true := validCtx_of hC hch Nat.one_pos
  simp only [sample, hv, e1, e2, Bool.not_true, Bool.false_eq_true, if_false]

theorem owner_lt' {n : Net} {kh kw ph pw : ℕ} {f : ℕ} (h : (geo n kh kw ph pw).Covered f) :
    (geo n kh kw ph pw).owner f < F (prodConv n kh kw ph pw) := ProdConv.owner_lt h

theorem mem_scope_owner {n : Net} {kh kw ph pw : ℕ} (h : (prodConv n kh kw ph pw).Good μ) {o : ℕ}
    (ho : o < F (prodConv n kh kw ph pw)) (v : Var) : v ∈ fscope (prodConv n kh kw ph pw) o ↔
      ∃ f < F n, ((geo n kh kw ph pw).Covered f ∧ o = (geo n kh kw ph pw).owner f) ∧ v ∈ fscope n f := by
  have hv : (geo n kh kw ph pw).Valid := ⟨h.2.1, h.2.2.1⟩
  have hin : (geo n kh kw ph pw).inF = F n := h.2.2.2.1
  rw [fscope, ProdConv.C43_scope, hin]
  constructor
  · rintro ⟨f, hf, hp, hvf⟩; exact ⟨f, hf, (ProdConv.inPatch_owner hv ho f).1 hp, hvf⟩
  · rintro ⟨f, hf, hp, hvf⟩; exact ⟨f, hf, (ProdConv.inPatch_owner hv ho f).2 hp, hvf⟩

theorem act_prodConv {n : Net} {kh kw ph pw : ℕ} (h : (prodConv n kh kw ph pw).Good μ) {mask mask' : ℕ → Bool}
    (hm : ∀ f < F n, (geo n kh kw ph pw).Covered f ∧ mask' f = mask ((geo n kh kw ph pw).owner f)) :
    actU (F (prodConv n kh kw ph pw)) (fscope (prodConv n kh kw ph pw)) mask = actU (F n) (fscope n) mask' := by
  ext v
  constructor
  · rintro ⟨o, ho, hmo, hv⟩
    obtain ⟨f, hf, ⟨-, rfl⟩, hvf⟩ := (mem_scope_owner h ho v).1 hv
    exact ⟨f, hf, by rw [(hm f hf).2]; exact hmo, hvf⟩
  · rintro ⟨f, hf, hmf, hvf⟩
    have ho := owner_lt' (hm f hf).1
    exact ⟨_, ho, by rw [← (hm f hf).2]; exact hmf, (mem_scope_owner h ho v).2 ⟨f, hf, ⟨(hm f hf).1, rfl⟩, hvf⟩⟩

theorem val_prodConv {n : Net} {kh kw ph pw : ℕ} (h : (prodConv n kh kw ph pw).Good μ) {o : ℕ}
    (ho : o < F (prodConv n kh kw ph pw)) (hcov : ∀ f < F n, (geo n kh kw ph pw).Covered f) (ch : ℕ) (x : Row) :
    expL (val (prodConv n kh kw ph pw) o x ch) =
      ∏ f ∈ (range (F n)).filter (fun f => (geo n kh kw ph pw).owner f = o), expL (val n f x ch) := by
  have hv : (geo n kh kw ph pw).Valid := ⟨h.2.1, h.2.2.1⟩
  have hin : (geo n kh kw ph pw).inF = F n := h.2.2.2.1
  obtain ⟨T, hT⟩ := (good_fam h.1).1 x
  obtain ⟨T', hT'⟩ := (good_fam h).1 x
  have h2 : (geo n kh kw ph pw).logLik T = .ok T' := by
    simp only [logLik, hT] at hT'
    exact hT'
  rw [val_of hT', (ProdConv.C43_likelihood (geo n kh kw ph pw) T).1 T' h2, expL_sum, hin]
  have : (range (F n)).filter ((geo n kh kw ph pw).InPatch o) =
      (range (F n)).filter (fun f => (geo n kh kw ph pw).owner f = o) := by
    refine filter_congr fun f hf => ?_
    rw [ProdConv.inPatch_owner hv ho f]
    exact ⟨fun h => h.2.symm, fun h => ⟨hcov f (mem_range.1 hf), h.symm⟩⟩
  rw [this]
  exact prod_congr rfl fun f _ => by rw [val_of hT]

/-! ### The latent layers -/

theorem val_pair {n : Net} (h : n.Good μ) (f ch : ℕ) (x : Row) : val (pair n) f x ch = val n (2 * f) x ch + val n (2 * f + 1) x ch := by
  obtain ⟨T, hT⟩ := (good_fam h).1 x
  have h2 : logLik (pair n) x = .ok fun f ch r => T (2 * f) ch r + T (2 * f + 1) ch r := by
    simp only [logLik, hT]; rfl
  rw [val_of h2, val_of hT, val_of hT]

theorem val_pack {n : Net} (h : n.Good μ) (t : ℕ) (perm : Option (List ℕ)) (f ch : ℕ) (x : Row) :
    val (pack n t perm) f x ch = if permAt perm f < F n then val n (permAt perm f) x ch else 0 := by
  obtain ⟨T, hT⟩ := (good_fam h).1 x
  have h2 : logLik (pack n t perm) x = .ok fun f ch r => if permAt perm f < F n then T (permAt perm f) ch r else 0 := by
    simp only [logLik, hT]; rfl
  rw [val_of h2, val_of hT]

theorem val_fuse {a b : Net} (ha : a.Good μ) (hb : b.Good μ) (f ch : ℕ) (x : Row) :
    val (fuse a b) f x ch = val a f x ch + val b f x ch := by
  obtain ⟨T, hT⟩ := (good_fam ha).1 x
  obtain ⟨U, hU⟩ := (good_fam hb).1 x
  have h2 : logLik (fuse a b) x = .ok fun f ch r => T f ch r + U f ch r := by
    simp only [logLik, hT, hU]; rfl
  rw [val_of h2, val_of hT, val_of hU]

theorem sample_pair {n : Net} (h : n.Good μ) (hs : n.Samp) (ev : Option Row) {ch : ℕ → ℕ} (mask : ℕ → Bool)
    (hch : ∀ f < F n / 2, ch f < C n) : sample ev (pair n) ch mask = sample ev n (fun f => ch (f / 2)) fun f => mask (f / 2) := by
  funext y
  simp only [sample, validCtx_of (posC h hs) hch Nat.one_pos, Bool.not_true, Bool.false_eq_true, if_false]

theorem sample_pack {n : Net} {t : ℕ} {perm : Option (List ℕ)} (h : (pack n t perm).Good μ) (hs : (pack n t perm).Samp)
    (ev : Option Row) {ch : ℕ → ℕ} (mask : ℕ → Bool) (hch : ∀ f < t, ch f < C n) :
    sample ev (pack n t perm) ch mask = sample ev n (fun f => ch (permInv perm f)) fun f => mask (permInv perm f) := by
  funext y
  simp only [sample, validCtx_of (posC h.1 hs.1) hch Nat.one_pos, Bool.not_true, Bool.false_eq_true, if_false]
  split_ifs with hF
  · rcases hs.2 with rfl | h1
    · rfl
    · exact absurd hF.symm h1
  · rfl

theorem sample_fuse {a b : Net} (h : a.Good μ) (hs : a.Samp) (ev : Option Row) {ch : ℕ → ℕ} (mask : ℕ → Bool)
    (hch : ∀ f < F a, ch f < C a) : sample ev (fuse a b) ch mask = seqAll [sample ev a ch mask, sample ev b ch mask] := by
  funext y
  simp only [sample, validCtx_of (posC h hs) hch Nat.one_pos, Bool.not_true, Bool.false_eq_true, if_false]

theorem route_pair {n : Net} (h : (pair n).Good μ) (ch : ℕ → ℕ) (mask : ℕ → Bool) (e : Row) :
    actU (F (pair n)) (fscope (pair n)) mask = actU (F n) (fscope n) (fun f => mask (f / 2)) ∧
      ∀ z, ratiosU (F (pair n)) (val (pair n)) e ch mask z =
        ratiosU (F n) (val n) e (fun f => ch (f / 2)) (fun f => mask (f / 2)) z := by
  have h2 := h.2
  have hfil : ∀ o < F (pair n), (range (F n)).filter (fun f => f / 2 = o) = {2 * o, 2 * o + 1} := by
    intro o ho
    have ho' : o < F n / 2 := ho
    ext f
    simp only [mem_filter, mem_range, Finset.mem_insert, Finset.mem_singleton]
    omega
  refine group_law (own := fun f => f / 2) (κ := fun c _ => c) ?_ (fun _ _ => rfl) (fun _ _ => rfl) ?_ ?_ e
  · intro j hj; show j / 2 < F n / 2; omega
  · intro o ho v
    have ho' : o < F n / 2 := ho
    rw [fscope, Finset.mem_union]
    constructor
    · rintro (hv | hv)
      · exact ⟨2 * o, by omega, by omega, hv⟩
      · exact ⟨2 * o + 1, by omega, by omega, hv⟩
    · rintro ⟨f, hf, hfo, hv⟩
      have : f = 2 * o ∨ f = 2 * o + 1 := by omega
      rcases this with rfl | rfl
      · exact .inl hv
      · exact .inr hv
  · intro o ho x
    rw [val_pair h.1, hfil o ho, Finset.sum_pair (by omega)]

theorem route_pack {n : Net} {t : ℕ} {perm : Option (List ℕ)} (h : (pack n t perm).Good μ) (ch : ℕ → ℕ) (mask : ℕ → Bool)
    (e : Row) : actU (F (pack n t perm)) (fscope (pack n t perm)) mask = actU (F n) (fscope n) (fun f => mask (permInv perm f)) ∧
      ∀ z, ratiosU (F (pack n t perm)) (val (pack n t perm)) e ch mask z =
        ratiosU (F n) (val n) e (fun f => ch (permInv perm f)) (fun f => mask (permInv perm f)) z := by
  obtain ⟨hg, hle, hp⟩ := h
  have hown : ∀ o < t, ∀ f < F n, permInv perm f = o ↔ f = permAt perm o := by
    intro o ho f hf
    constructor
    · rintro rfl; exact (permAt_permInv hp (by omega)).2.symm
    · rintro rfl; exact permInv_permAt hp ho
  have hfil : ∀ o < t, (range (F n)).filter (fun f => permInv perm f = o) = if permAt perm o < F n then {permAt perm o} else ∅ := by
    intro o ho
    ext f
    simp only [mem_filter, mem_range]
    constructor
    · rintro ⟨hf, h1⟩
      have := (hown o ho f hf).1 h1
      subst this
      simp [hf]
    · intro hf
      split_ifs at hf with h1
      · rw [Finset.mem_singleton] at hf
        subst hf
        exact ⟨h1, permInv_permAt hp ho⟩
      · simp at hf
  refine group_law (own := permInv perm) (κ := fun c _ => c) ?_ (fun _ _ => rfl) (fun _ _ => rfl) ?_ ?_ e
  · intro j hj; exact (permAt_permInv hp (by omega)).1
  · intro o ho v
    have ho' : o < t := ho
    show v ∈ (if permAt perm o < F n then fscope n (permAt perm o) else ∅) ↔ _
    constructor
    · intro hv
      split_ifs at hv with h1
      · exact ⟨permAt perm o, h1, permInv_permAt hp ho', hv⟩
      · simp at hv
    · rintro ⟨f, hf, hfo, hv⟩
      have := (hown o ho' f hf).1 hfo
      subst this
      rw [if_pos hf]; exact hv
  · intro o ho x
    have ho' : o < t := ho
    rw [val_pack hg, hfil o ho']
    split_ifs with h1 <;> simp

theorem act_fuse {a b : Net} (hF : F a = F b) (mask : ℕ → Bool) (v : Var) :
    v ∈ actU (F (fuse a b)) (fscope (fuse a b)) mask ↔ v ∈ actU (F a) (fscope a) mask ∨ v ∈ actU (F b) (fscope b) mask := by
  constructor
  · rintro ⟨f, hf, hm, hv⟩
    have hf' : f < F a := hf
    rw [fscope, Finset.mem_union] at hv
    rcases hv with hv | hv
    · exact .inl ⟨f, hf', hm, hv⟩
    · exact .inr ⟨f, hF ▸ hf', hm, hv⟩
  · rintro (⟨f, hf, hm, hv⟩ | ⟨f, hf, hm, hv⟩)
    · exact ⟨f, hf, hm, by rw [fscope, Finset.mem_union]; exact .inl hv⟩
    · exact ⟨f, show f < F a by omega, hm, by rw [fscope, Finset.mem_union]; exact .inr hv⟩

/-- Sampling never raises, fills the active variables and leaves everything else alone. -/
theorem sample_frames {n : Net} (h : n.Good μ) (hs : n.Samp) {ev : Option Row} {e : Row} (hev : Ev ev e) (hl : n.Live e) :
    ∀ (ch : ℕ → ℕ) (mask : ℕ → Bool), (∀ f < F n, ch f < C n) →
      NoFail (sample ev n ch mask) ∧ Frames (sample ev n ch mask) (actU (F n) (fscope n) mask) := by
  have mix : ∀ {N Cn : ℕ} {l : ℕ → ℕ → LogV} {S : (ℕ → ℕ) → Row → Prog Row} {A : Set Var},
      (∀ f < N, ∑ ci ∈ range Cn, softmax Cn (l f) ci = 1) →
      (∀ ch', (∀ f < N, ch' f < Cn) → NoFail (S ch') ∧ Frames (S ch') A) →
      NoFail (fun y => (pickAll Cn l N).bind fun ch' => S ch' y) ∧
        Frames (fun y => (pickAll Cn l N).bind fun ch' => S ch' y) A := by
    intro N Cn l S A hone hS
    constructor
    · intro y
      refine not_fails_bind (pickAll_noFail fun f hf hd => ?_) fun ch' ho => (hS ch' (pickAll_outcome ho)).1 y
      have := hone f hf
      rw [sum_eq_zero fun ci _ => softmax_dead hd ci] at this
      exact one_ne_zero this.symm
    · intro y z ho
      rw [outcome_bind] at ho
      obtain ⟨ch', h1, h2⟩ := ho
      exact (hS ch' (pickAll_outcome h1)).2 y z h2
  induction n with
  | base c =>
    intro ch mask hch
    exact sample_ok h.1 h.2.1 hs.1 hs.2 (fun e' he' => by
      rcases hev with h' | ⟨h', _⟩
      · rw [h'] at he'; cases he'; exact hl
      · rw [h'] at he'; cases he') ch mask hch
  | sum n Co θ ih =>
    intro ch mask hch
    rw [sample_sum' h ev mask hch]
    exact mix (fun f hf => (sumLogits_spec h hev hl hf (hch f hf)).2) fun ch' hch' => ih h.1 hs hl.1 ch' mask hch'
  | sumConv n Co K θ ih =>
    intro ch mask hch
    rw [sample_sumConv h hs.2 ev mask hch]
    exact mix (fun f hf => (sumConvLogits_spec h hs.2 hev hl.2 hf (hch f hf)).2) fun ch' hch' => ih h.1 hs.1 hl.1 ch' mask hch'
  | prodConv n kh kw ph pw ih =>
    intro ch mask hch
    obtain ⟨ch', mask', hr, hes⟩ := sample_prodConv h hs ev mask hch
    rw [hes, act_prodConv h fun f hf => ⟨(hr f hf).1, (hr f hf).2.2⟩]
    exact ih h.1 hs.1 hl ch' mask' fun f hf => by rw [(hr f hf).2.1]; exact hch _ (owner_lt' (hr f hf).1)
  | pair n ih =>
    intro ch mask hch
    rw [sample_pair h.1 hs ev mask hch, (route_pair h ch mask e).1]
    exact ih h.1 hs hl _ _ fun f hf => hch _ (show f / 2 < F n / 2 by have := h.2; omega)
  | pack n t perm ih =>
    intro ch mask hch
    rw [sample_pack h hs ev mask hch, (route_pack h ch mask e).1]
    exact ih h.1 hs.1 hl _ _ fun f hf => hch _ (permAt_permInv h.2.2 (show f < t by have := h.2.1; omega)).1
  | fuse a b iha ihb =>
    intro ch mask hch
    obtain ⟨ha, hb, hF, hC, hd⟩ := h
    obtain ⟨na, fa⟩ := iha ha hs.1 hl.1 ch mask hch
    obtain ⟨nb, fb⟩ := ihb hb hs.2 hl.2 ch mask fun f hf => hC ▸ hch f (show f < F a by omega)
    rw [sample_fuse ha hs.1 ev mask hch]
    refine ⟨seqAll_noFail fun s hs' => ?_, ?_⟩
    · simp only [List.mem_cons, List.not_mem_nil, or_false] at hs'
      rcases hs' with rfl | rfl
      · exact na
      · exact nb
    · have hset : actU (F (fuse a b)) (fscope (fuse a b)) mask =
          {v | ∃ A ∈ [actU (F a) (fscope a) mask, actU (F b) (fscope b) mask], v ∈ A} := by
        ext v
        rw [act_fuse hF, Set.mem_ofPred_eq]
        simp
      rw [hset]
      exact seqAll_frames (.cons fa (.cons fb .nil))

/-- The exact distribution of `_sample`. -/
theorem sample_law {n : Net} (h : n.Good μ) (hs : n.Samp) {ev : Option Row} {e : Row} (hev : Ev ev e) (hl : n.Live e) :
    ∀ (ch : ℕ → ℕ) (mask : ℕ → Bool), (∀ f < F n, ch f < C n) →
      (∀ f < F n, mask f = true → expL (val n f e (ch f)) ≠ 0) →
      Law (sample ev n ch mask) (actU (F n) (fscope n) mask) e (ratiosU (F n) (val n) e ch mask) := by
  induction n with
  | base c =>
    intro ch mask hch hpos
    obtain ⟨ha, hal, -, hR⟩ := h
    have hval : ∀ f ch x, val (base c) f x ch = featAt (den c) f x 0 ch := by
      intro f ch x
      have hok : logLik (base c) x = .ok fun f ch r => featAt (den c) f x r ch := by
        show Circ.logLik c x = _
        unfold Circ.logLik; rw [hR]
      rw [val_of hok]
    have hlaw := Circ.sample_law ha hal hs.1 hs.2 hl ch mask hch (fun f hf hm => by rw [← hval]; exact hpos f hf hm)
    have hr : ∀ z, ratiosU (F (base c)) (val (base c)) e ch mask z = ratios c 0 e ch mask z := by
      intro z
      unfold ratiosU ratios ratio
      exact prod_congr rfl fun f _ => by rw [hval, hval]
    refine law_congr rfl hr ?_
    rcases hev with rfl | ⟨rfl, hm⟩
    · exact hlaw
    · intro y z h1 h2 h3
      rw [← hlaw y z h1 h2 h3]
      unfold prob
      exact sample_none_E ha hal hs.1 hs.2 hm ch mask hch _ _
  | sum n Co θ ih =>
    intro ch mask hch _
    rw [sample_sum' h ev mask hch]
    exact mix_law (good_fam h.1).2 (w := fun f co ci => softmax (C n) (fun i => θ f i co) ci)
      (fun f _ co _ x => val_sum h.1 f co x) hch (fun f hf => (sumLogits_spec h hev hl hf (hch f hf)).1)
      (fun f hf => (sumLogits_spec h hev hl hf (hch f hf)).2) fun ch' h1 h2 => ih h.1 hs hl.1 ch' mask h1 h2
  | sumConv n Co K θ ih =>
    intro ch mask hch _
    rw [sample_sumConv h hs.2 ev mask hch]
    exact mix_law (good_fam h.1).2 (w := fun f co ci => softmax (C n) (pixLogits n K θ f co) ci)
      (fun f _ co _ x => val_sumConv h f co x) hch (fun f hf => (sumConvLogits_spec h hs.2 hev hl.2 hf (hch f hf)).1)
      (fun f hf => (sumConvLogits_spec h hs.2 hev hl.2 hf (hch f hf)).2) fun ch' h1 h2 => ih h.1 hs.1 hl.1 ch' mask h1 h2
  | prodConv n kh kw ph pw ih =>
    intro ch mask hch hpos
    obtain ⟨ch', mask', hr, hes⟩ := sample_prodConv h hs ev mask hch
    have hcov : ∀ f < F n, (geo n kh kw ph pw).Covered f := fun f hf => (hr f hf).1
    rw [hes]
    refine law_congr (act_prodConv h fun f hf => ⟨(hr f hf).1, (hr f hf).2.2⟩) ?_
      (ih h.1 hs.1 hl ch' mask' (fun f hf => by rw [(hr f hf).2.1]; exact hch _ (owner_lt' (hr f hf).1)) ?_)
    · intro z
      unfold ratiosU
      rw [← prod_fiberwise_of_maps_to (s := range (F n)) (t := range (F (prodConv n kh kw ph pw)))
        (g := (geo n kh kw ph pw).owner) (fun f hf => mem_range.2 (owner_lt' (hcov f (mem_range.1 hf))))]
      refine prod_congr rfl fun o ho => ?_
      rw [mem_range] at ho
      cases hm : mask o with
      | false =>
        symm
        refine prod_eq_one fun f hf => ?_
        rw [mem_filter, mem_range] at hf
        rw [(hr f hf.1).2.2, hf.2, hm]
        rfl
      | true =>
        simp only [if_true]
        rw [val_prodConv h ho hcov, val_prodConv h ho hcov, ← prod_div_distrib,
          ENNReal.ofReal_prod_of_nonneg fun f _ => div_nonneg (expL_nonneg _) (expL_nonneg _)]
        refine prod_congr rfl fun f hf => ?_
        rw [mem_filter, mem_range] at hf
        rw [(hr f hf.1).2.2, (hr f hf.1).2.1, hf.2, hm, if_pos rfl]
    · intro f hf hm
      have ho := owner_lt' (hcov f hf)
      have := hpos _ ho (by rw [← (hr f hf).2.2]; exact hm)
      rw [val_prodConv h ho hcov, prod_ne_zero_iff] at this
      rw [(hr f hf).2.1]
      exact this f (mem_filter.2 ⟨mem_range.2 hf, rfl⟩)
  | pair n ih =>
    intro ch mask hch hpos
    have hr := route_pair h ch mask e
    rw [sample_pair h.1 hs ev mask hch]
    refine law_congr hr.1 hr.2 (ih h.1 hs hl _ _ (fun f hf => hch _ (show f / 2 < F n / 2 by have := h.2; omega)) ?_)
    intro f hf hm
    have := hpos (f / 2) (show f / 2 < F n / 2 by have := h.2; omega) hm
    rw [val_pair h.1, expL_add] at this
    rcases Nat.mod_two_eq_zero_or_one f with h0 | h0
    · rw [show f = 2 * (f / 2) by omega, show 2 * (f / 2) / 2 = f / 2 by omega]
      exact left_ne_zero_of_mul this
    · have e1 : f = 2 * (f / 2) + 1 := by omega
      have := right_ne_zero_of_mul this
      rwa [← e1] at this
  | pack n t perm ih =>
    intro ch mask hch hpos
    have hr := route_pack h ch mask e
    rw [sample_pack h hs ev mask hch]
    have hb : ∀ f < F n, permInv perm f < t ∧ permAt perm (permInv perm f) = f := fun f hf =>
      permAt_permInv h.2.2 (by have := h.2.1; omega)
    refine law_congr hr.1 hr.2 (ih h.1 hs.1 hl _ _ (fun f hf => hch _ (hb f hf).1) ?_)
    intro f hf hm
    have := hpos _ (hb f hf).1 hm
    rwa [val_pack h.1, (hb f hf).2, if_pos hf] at this
  | fuse a b iha ihb =>
    intro ch mask hch hpos
    obtain ⟨ha, hb, hF, hC, hd⟩ := h
    have hchb : ∀ f < F b, ch f < C b := fun f hf => hC ▸ hch f (show f < F a by omega)
    have hpa : ∀ f < F a, mask f = true → expL (val a f e (ch f)) ≠ 0 := by
      intro f hf hm
      have := hpos f hf hm
      rw [val_fuse ha hb, expL_add] at this
      exact left_ne_zero_of_mul this
    have hpb : ∀ f < F b, mask f = true → expL (val b f e (ch f)) ≠ 0 := by
      intro f hf hm
      have := hpos f (show f < F a by omega) hm
      rw [val_fuse ha hb, expL_add] at this
      exact right_ne_zero_of_mul this
    have hla := iha ha hs.1 hl.1 ch mask hch hpa
    have hlb := ihb hb hs.2 hl.2 ch mask hchb hpb
    rw [sample_fuse ha hs.1 ev mask hch]
    have hloc := fun {c : Net} (hc : c.Good μ) (hcc : ∀ f < F c, ch f < C c) =>
      ratiosU_local (good_fam hc).2 (e := e) (mask := mask) hcc
    have hlaw := seqAll_law (e := e) [⟨sample ev a ch mask, actU (F a) (fscope a) mask, ratiosU (F a) (val a) e ch mask⟩,
        ⟨sample ev b ch mask, actU (F b) (fscope b) mask, ratiosU (F b) (val b) e ch mask⟩]
      (fun x hx => by
        simp only [List.mem_cons, List.not_mem_nil, or_false] at hx
        rcases hx with rfl | rfl
        · exact (sample_frames ha hs.1 hev hl.1 ch mask hch).2
        · exact (sample_frames hb hs.2 hev hl.2 ch mask hchb).2)
      (fun x hx => by
        simp only [List.mem_cons, List.not_mem_nil, or_false] at hx
        rcases hx with rfl | rfl
        · exact hla
        · exact hlb)
      (fun x hx => by
        simp only [List.mem_cons, List.not_mem_nil, or_false] at hx
        rcases hx with rfl | rfl
        · exact hloc ha hch
        · exact hloc hb hchb)
      (by
        simp only [List.pairwise_cons, List.mem_cons, List.not_mem_nil, or_false, forall_eq, false_imp_iff, implies_true,
          List.Pairwise.nil, and_true]
        rw [Set.disjoint_left]
        rintro v ⟨f, hf, _, hv⟩ ⟨g, hg, _, hv'⟩
        exact Finset.disjoint_left.1 (hd f hf g hg) hv hv')
    refine law_congr ?_ ?_ hlaw
    · ext v
      rw [act_fuse hF, Set.mem_ofPred_eq]
      simp
    · intro z
      show ratiosU (F a) _ e ch mask z = _
      simp only [List.map_cons, List.map_nil, List.prod_cons, List.prod_nil, mul_one]
      unfold ratiosU
      rw [← hF, ← prod_mul_distrib]
      refine prod_congr rfl fun f _ => ?_
      split_ifs
      · rw [val_fuse ha hb, val_fuse ha hb, expL_add, expL_add, mul_div_mul_comm,
          ENNReal.ofReal_mul (div_nonneg (expL_nonneg _) (expL_nonneg _))]
      · rw [mul_one]

end Net

/-! ### ConvPc -/

/-- An image leaf that can be sampled: at least one channel everywhere and one repetition. -/
structure SampleImage (μ : Var → Measure ℝ) (leaf : Circ) (H : ℕ) : Prop extends Image μ leaf H where
  pos : PosCh leaf
  reps : RepS 0 leaf

theorem stack_samp {conv : Bool} {channels k : ℕ} {W : ℕ → ℕ → ℕ → ℕ → ℕ → LogV} (hc : 1 ≤ channels) (hk : 1 ≤ k) :
    ∀ (d : ℕ) (n m : Net), n.Samp → n.F = k ^ d * k ^ d → stack conv channels k W d n = .ok m → m.Samp := by
  intro d
  induction d with
  | zero => intro n m hs _ h; cases h; exact hs
  | succ d ih =>
    intro n m hs hF h
    have hsq := square_mul (k ^ (d + 1))
    rw [← hF] at hsq
    rw [stack_succ hc hk hsq.1] at h
    have hdvd : k ∣ k ^ (d + 1) := Dvd.intro_left (k ^ d) (pow_succ k d).symm
    have hdiv : k ^ (d + 1) / k = k ^ d := by rw [pow_succ]; exact Nat.mul_div_cancel _ hk
    have hside : side (sumLayer conv channels k (W d) n).F = k ^ (d + 1) := by rw [sumLayer_F]; exact hsq.2
    have hss : (sumLayer conv channels k (W d) n).Samp := by
      cases conv
      · exact hs
      · exact ⟨hs, by rw [hsq.2]; exact hdvd⟩
    refine ih (.prodConv (sumLayer conv channels k (W d) n) k k 0 0) m
      ⟨hss, ⟨rfl, rfl⟩, by rw [hside]; exact hdvd, by rw [hside]; exact hdvd⟩ ?_ h
    · show (side (sumLayer conv channels k (W d) n).F + 2 * 0) / k * ((side (sumLayer conv channels k (W d) n).F + 2 * 0) / k) = _
      rw [hside, mul_zero, add_zero, hdiv]

/-- `ConvPc.sample(data=e)` with (`some e`) or without cached likelihoods: context of channel 0, mask True. -/
noncomputable def sampleConvPc (n : Net) (ev : Option Row) (y : Row) : Prog Row := n.sample ev (fun _ => 0) (fun _ => true) y

/-- C61, sampling, when `kernel_size ** depth` divides the image side (no padding): the call never raises, returns the
evidence unchanged and fills every pixel; and for discrete leaves `sample()` draws the image `x` with exactly the
probability `exp(log_likelihood(x))`, `sample_with_evidence(e)` draws the completion `x` with probability
`p(x) / p(e)` - provided no mixture unit has probability zero on `e` (see `C14_dead_branch_raises` for that case).
With padding it is false: `C61_sampling_padded_wrong`. -/
theorem C61_sampling_partial {leaf : Circ} {H channels depth k : ℕ} {conv : Bool} {W w0} (hi : SampleImage μ leaf H)
    (hH : 1 ≤ H) (hd : 1 ≤ depth) (hc : 1 ≤ channels) (hk : 1 ≤ k) (hW : Finite W w0) (hdvd : k ^ depth ∣ H) {n : Net}
    (hn : build leaf H H channels depth k 1 conv W w0 = .ok n) :
    (∀ y, ¬ Fails (sampleConvPc n none y) ∧ ∀ z, Outcome (sampleConvPc n none y) z →
      (∀ v ∈ (Circ.scope leaf).query, z v ≠ none) ∧ (∀ v t, y v = some t → z v = some t) ∧
        ∀ v, v ∉ (Circ.scope leaf).query → z v = y v) ∧
    (∀ x, Completes leaf (fun _ => none) x →
      (sampleConvPc n none fun _ => none).prob x = ENNReal.ofReal (expL (n.val 0 x 0))) ∧
    ∀ e, n.Live e → ¬ Fails (sampleConvPc n (some e) e) ∧ ∀ x, Completes leaf e x →
      (sampleConvPc n (some e) e).prob x = ENNReal.ofReal (expL (n.val 0 x 0) / expL (n.val 0 e 0)) := by
  have ht : 1 ≤ k ^ depth := Nat.one_le_pow _ _ hk
  set t := k ^ depth with htd
  obtain ⟨q, rfl⟩ := hdvd
  have hq : 1 ≤ q := by
    rcases Nat.eq_zero_or_pos q with h | h
    · subst h; omega
    · exact h
  have hkb : (t * q + t - 1) / t = q := by
    rw [Nat.div_eq_iff (by omega)]
    have : q * t = t * q := mul_comm _ _
    omega
  have hmis : missing (t * q) t = 0 := by
    unfold missing
    rw [hkb, mul_comm, Nat.sub_self]
  have hside : side leaf.F = t * q := by rw [hi.size]; exact (square_mul _).2
  have hsq : Square leaf.F := by rw [hi.size]; exact (square_mul _).1
  have hdv : q ∣ t * q := Dvd.intro_left t rfl
  set b : Net := .prodConv (.base leaf) q q 0 0 with hb
  have hbg : b.Good μ := by
    refine ⟨⟨hi.acc, hi.al, hi.lf, hi.rep⟩, hq, hq, hsq, ?_, ?_⟩ <;>
    · show q ≤ side leaf.F + 2 * 0
      rw [hside]
      exact Nat.le_mul_of_pos_left _ ht
  have hbs : b.Samp := by
    refine ⟨⟨hi.pos, hi.reps⟩, ⟨rfl, rfl⟩, ?_, ?_⟩ <;>
    · show q ∣ side leaf.F
      rw [hside]; exact hdv
  have hbF : b.F = t * t := by
    show (side leaf.F + 2 * 0) / q * ((side leaf.F + 2 * 0) / q) = _
    rw [hside, mul_zero, add_zero, Nat.mul_div_cancel _ hq]
  have hbv : b.vars = (Net.base leaf).vars := by
    refine prod_vars hq hq hsq ?_ ?_ <;>
    · show (side leaf.F + 2 * 0) % q ≤ 0
      rw [hside, mul_zero, add_zero, Nat.mul_mod_left]
  obtain ⟨m, h1, h2, h3, h4, h5⟩ := stack_good (conv := conv) hc hk hW.1 depth b hbg hi.ch hbF
  have hms := stack_samp hc hk depth b m hbs hbF h1
  rw [build_eq hH hd hc hk hi.size, ← htd, hkb, hmis, Nat.zero_div, h1] at hn
  cases hn
  set n : Net := .sum m 1 w0 with hnd
  have hg : n.Good μ := ⟨h2, le_refl _, fun f _ co _ => ⟨0, h3, hW.2 _ _ _⟩⟩
  have hsn : n.Samp := hms
  have hF1 : n.F = 1 := h4
  have hact : actU n.F n.fscope (fun _ => true) = {v | v ∈ (Circ.scope leaf).query} := by
    ext v
    show (∃ f < n.F, true = true ∧ v ∈ n.fscope f) ↔ v ∈ (Circ.scope leaf).query
    rw [mem_scope_iff hi.acc]
    have : v ∈ n.vars ↔ v ∈ (Net.base leaf).vars := by
      show v ∈ m.vars ↔ _
      rw [h5, hbv]
    simp only [true_and]
    exact this
  have hch : ∀ f < n.F, (fun _ : ℕ => (0 : ℕ)) f < n.C := fun _ _ => Nat.one_pos
  have hlaw : ∀ ev e, Net.Ev ev e → n.Live e → ∀ x, Completes leaf e x →
      (sampleConvPc n ev e).prob x = ENNReal.ofReal (expL (n.val 0 x 0) / expL (n.val 0 e 0)) := by
    intro ev e hev hl x hx
    have hv0 : expL (n.val 0 e 0) ≠ 0 := by
      rw [Ne, expL_eq_zero_iff]; exact hl.2 0 (by rw [h4]; exact Nat.one_pos) 0 Nat.one_pos
    have := Net.sample_law hg hsn hev hl (fun _ => 0) (fun _ => true) hch
      (fun f hf _ => by
        rw [hF1] at hf
        obtain rfl : f = 0 := by omega
        exact hv0) e x (fun _ _ => rfl)
      (fun v hv => hx.1 v (by rw [hact] at hv; exact hv))
      (fun v hv => by
        rw [hact] at hv
        by_cases hs : v ∈ (Circ.scope leaf).query
        · rcases hev' : e v with _ | t
          · exact absurd ⟨hs, hev'⟩ hv
          · exact hx.2.1 v t hev'
        · exact hx.2.2 v hs)
    unfold sampleConvPc
    rw [this]
    unfold ratiosU
    rw [hF1, prod_range_one, if_pos rfl]
  refine ⟨fun y => ?_, fun x hx => ?_, fun e hl => ⟨?_, hlaw _ e (.inl rfl) hl⟩⟩
  · obtain ⟨hf, hfr⟩ := Net.sample_frames hg hsn (ev := none) (e := fun _ => none) (.inr ⟨rfl, fun _ => rfl⟩)
      (Net.live_missing hg hsn fun _ => rfl) (fun _ => 0) (fun _ => true) hch
    refine ⟨hf y, fun z hz => ?_⟩
    obtain ⟨a1, a2⟩ := hfr y z hz
    rw [hact] at a1 a2
    refine ⟨a1, fun v t hv => ?_, fun v hv => a2 v fun h' => hv h'.1⟩
    rw [a2 v fun h' => by rw [hv] at h'; exact absurd h'.2 (by simp), hv]
  · have := hlaw none (fun _ => none) (.inr ⟨rfl, fun _ => rfl⟩) (Net.live_missing hg hsn fun _ => rfl) x hx
    rw [this, (Net.good_fam hg).2.miss 0 (by rw [hF1]; exact Nat.one_pos) 0 Nat.one_pos (fun _ => none) fun _ _ => rfl,
      div_one]
  · exact (Net.sample_frames hg hsn (.inl rfl) hl (fun _ => 0) (fun _ => true) hch).1 e

end Verif.Conv

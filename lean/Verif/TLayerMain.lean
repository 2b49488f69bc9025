import Verif.TLayerProps
/-
C84: values, shapes and constructors of the tensorized layers.
-/
namespace Verif.TL

open Finset (range)

theorem ite_iff {α : Type} {P Q : Prop} {dP : Decidable P} {dQ : Decidable Q} {a b c d : α} (h : P ↔ Q) (h1 : a = c)
    (h2 : b = d) : @ite α P dP a b = @ite α Q dQ c d := by
  subst h1 h2
  by_cases hp : P
  · rw [if_pos hp, if_pos (h.1 hp)]
  · rw [if_neg hp, if_neg fun hq => hp (h.2 hq)]

/-! ### Values on inputs of the documented shape -/

theorem inner_exact {F H I O : ℕ} {x : T3} {W : ℕ → ℕ → ℕ → ℕ → ℝ} {wF : ℕ} (hw : wF = F ∨ wF = 1) (ha : x.a = F) (hb : x.b = H)
    (hc : x.c = I) (hI : 0 < I) : ∃ y, inner x wF H I O W = .ok y ∧ y.a = F ∧ y.b = H ∧ y.c = O ∧
      ∀ f < F, ∀ h < H, ∀ o, y.v f h o = open Classical in if Good I (x.v f h) then
        logOf (∑ k ∈ range I, W (at1 wF f) h k o * prob (x.v f h k)) else none := by
  subst ha hb hc
  have e1 : bc wF x.a = .ok x.a := bc_ok.2 (by
    rcases hw with rfl | rfl
    · exact ⟨.inl rfl, by split <;> omega⟩
    · exact ⟨.inr (.inl rfl), by simp⟩)
  unfold inner
  rw [if_neg hI.ne', e1, bc_self, bc_self]
  refine ⟨_, rfl, rfl, rfl, rfl, fun f hf h hh o => ?_⟩
  dsimp only
  rw [at1_lt hf, at1_lt hh]
  have := lfe (x.v f h) (at1 x.c) (fun k hk => by rw [at1_lt hk]; exact hk) hI fun k => W (at1 wF f) h (at1 x.c k) o
  rw [show (fun k => x.v f h k) = x.v f h from rfl]
  rw [this]
  congr 2
  refine Finset.sum_congr rfl fun k hk => ?_
  rw [at1_lt (Finset.mem_range.1 hk)]

theorem withMask_exact {F H : ℕ} {m : Mask} {y : T3} (g : Bool → Num → Num) (hm : m.a = F ∧ m.b = H) (ha : y.a = F)
    (hb : y.b = H) : ∃ z, withMask g y m = .ok z ∧ z.a = F ∧ z.b = H ∧ z.c = y.c ∧
      ∀ f < F, ∀ h < H, ∀ o, z.v f h o = g (m.v f h) (y.v f h o) := by
  obtain ⟨h1, h2⟩ := hm
  unfold withMask
  rw [h1, h2, ha, hb, bc_self, bc_self]
  refine ⟨_, rfl, rfl, rfl, rfl, fun f hf h hh o => ?_⟩
  dsimp only
  rw [at1_lt hf, at1_lt hh]

/-- **C84, Tucker.** On an input `(F, H, I)` with at least two children, output unit `o` of fold `f` is the logarithm of
`∑ᵢⱼ W[f,i,j,o] · exp L[f,i] · exp R[f,j]`, where `L` and `R` are the first two children; it is NaN if one of the two children
contains a NaN or has probability zero in all of its units, or if the sum is negative. -/
theorem C84_tucker {F I O : ℕ} (hI : 0 < I) (W : ℕ → ℕ → ℕ → ℕ → ℝ) {x : T3} (ha : x.a = F) (hb : 2 ≤ x.b) (hc : x.c = I) :
    ∃ y, forward (.tucker F I O W) x = .ok y ∧ y.a = F ∧ y.b = O ∧ ∀ f < F, ∀ o,
      y.v f o = open Classical in if Good I (x.v f 0) ∧ Good I (x.v f 1) then
        logOf (∑ i ∈ range I, ∑ j ∈ range I, W f i j o * (prob (x.v f 0 i) * prob (x.v f 1 j))) else none := by
  subst ha hc
  unfold forward evalTucker child
  dsimp only
  rw [if_neg (by omega), if_neg (by omega)]
  simp only [bc_self]
  refine ⟨_, rfl, rfl, rfl, fun f hf o => ?_⟩
  dsimp only
  rw [at1_lt hf]
  have := lfe2 (x.v f 0) (x.v f 1) (at1 x.c) (at1 x.c) (fun k hk => by rw [at1_lt hk]; exact hk)
    (fun k hk => by rw [at1_lt hk]; exact hk) hI hI fun i j => W f (at1 x.c i) (at1 x.c j) o
  rw [show (fun k => x.v f 0 k) = x.v f 0 from rfl, show (fun k => x.v f 1 k) = x.v f 1 from rfl]
  rw [this]
  congr 2
  refine Finset.sum_congr rfl fun i hi => Finset.sum_congr rfl fun j hj => ?_
  rw [at1_lt (Finset.mem_range.1 hi), at1_lt (Finset.mem_range.1 hj)]

/-- The weighted sum of child `h`: `∑ₖ W[f,h,k,o] · exp x[f,h,k]`. -/
noncomputable def childSum (I : ℕ) (W : ℕ → ℕ → ℕ → ℕ → ℝ) (x : T3) (f h o : ℕ) : ℝ :=
  ∑ k ∈ range I, W f h k o * prob (x.v f h k)

theorem sumH_exact {F H O : ℕ} {y : T3} (ha : y.a = F) (hb : y.b = H) (hc : y.c = O) {G : ℕ → ℕ → ℕ → Prop} {c : ℕ → ℕ → ℕ → ℝ}
    (hy : ∀ f < F, ∀ h < H, ∀ o, y.v f h o = open Classical in if G f h o then logOf (c f h o) else none) :
    (sumH y).a = F ∧ (sumH y).b = O ∧ ∀ f < F, ∀ o, (sumH y).v f o = open Classical in
      if ∀ h < H, G f h o ∧ 0 ≤ c f h o then logOf (∏ h ∈ range H, c f h o) else none := by
  subst ha hb hc
  exact ⟨rfl, rfl, fun f hf o => vsum_logOf y.b _ (fun h => c f h o) (fun h => G f h o) fun h hh => hy f hf h hh o⟩

/-- **C84, collapsed CP.** On an input `(F, H, I)`, with or without a fold mask `(F, H)`, output unit `o` of fold `f` is the
logarithm of the product over the children that are not masked of `∑ₖ W[f,h,k,o] · exp x[f,h,k]`; masked children do not matter,
whatever they contain. It is NaN if an unmasked child contains a NaN, has probability zero in all of its units, or has a negative
weighted sum. -/
theorem C84_collapsed {F H I O : ℕ} (hI : 0 < I) (mask : Option Mask) (hm : MaskFits mask F H) (W : ℕ → ℕ → ℕ → ℕ → ℝ) {x : T3}
    (ha : x.a = F) (hb : x.b = H) (hc : x.c = I) :
    ∃ y, forward (.collapsed F H I O mask W) x = .ok y ∧ y.a = F ∧ y.b = O ∧ ∀ f < F, ∀ o,
      y.v f o = open Classical in
        if ∀ h < H, kept mask f h = true → Good I (x.v f h) ∧ 0 ≤ childSum I W x f h o then
          logOf (∏ h ∈ range H, if kept mask f h = true then childSum I W x f h o else 1) else none := by
  obtain ⟨y, e, h1, h2, h3, hy⟩ := inner_exact (O := O) (W := W) (.inl rfl) ha hb hc hI
  have hy : ∀ f < F, ∀ h < H, ∀ o, y.v f h o = open Classical in if Good I (x.v f h) then
      logOf (childSum I W x f h o) else none := by
    intro f hf h hh o
    rw [hy f hf h hh o, at1_lt hf]
    rfl
  unfold forward evalCollapsed
  dsimp only
  rw [e]
  cases mask with
  | none =>
    obtain ⟨h4, h5, h6⟩ := sumH_exact h1 h2 h3 hy
    refine ⟨_, rfl, h4, h5, fun f hf o => ?_⟩
    rw [h6 f hf o]
    exact ite_iff (by simp only [kept, forall_true_left]) (by simp only [kept, if_true]) rfl
  | some m =>
    obtain ⟨z, e', k1, k2, k3, hz⟩ := withMask_exact whereMask (hm m rfl) h1 h2
    dsimp only
    rw [e']
    have hz' : ∀ f < F, ∀ h < H, ∀ o, z.v f h o =
        @ite _ (kept (some m) f h = true → Good I (x.v f h)) (Classical.propDecidable _)
          (logOf (if kept (some m) f h = true then childSum I W x f h o else 1)) none := by
      intro f hf h hh o
      rw [hz f hf h hh o, hy f hf h hh o]
      show whereMask (kept (some m) f h) _ = _
      cases kept (some m) f h
      · rw [if_pos fun h => absurd h Bool.false_ne_true]
        simp only [whereMask, Bool.false_eq_true, if_false]
        rw [logOf_pos one_pos, Real.log_one]
      · by_cases hg : Good I (x.v f h)
        · rw [if_pos hg, if_pos fun _ => hg]
          rfl
        · rw [if_neg hg, if_neg fun hp => hg (hp rfl)]
          rfl
    obtain ⟨h4, h5, h6⟩ := sumH_exact k1 k2 (k3.trans h3) hz'
    refine ⟨_, rfl, h4, h5, fun f hf o => ?_⟩
    rw [h6 f hf o]
    refine ite_iff (forall_congr' fun h => forall_congr' fun hh => ?_) rfl rfl
    cases kept (some m) f h <;> simp

/-- **C84, shared CP.** The same without a mask, with the weights of one fold used in every fold. -/
theorem C84_shared {F F' H I O : ℕ} (hI : 0 < I) (W : ℕ → ℕ → ℕ → ℝ) {x : T3} (ha : x.a = F) (hb : x.b = H) (hc : x.c = I) :
    ∃ y, forward (.shared F' H I O W) x = .ok y ∧ y.a = F ∧ y.b = O ∧ ∀ f < F, ∀ o,
      y.v f o = open Classical in
        if ∀ h < H, Good I (x.v f h) ∧ 0 ≤ childSum I (fun _ => W) x f h o then
          logOf (∏ h ∈ range H, childSum I (fun _ => W) x f h o) else none := by
  obtain ⟨y, e, h1, h2, h3, hy⟩ := inner_exact (O := O) (W := fun _ => W) (wF := 1) (.inr rfl) ha hb hc hI
  unfold forward
  dsimp only
  rw [e]
  obtain ⟨h4, h5, h6⟩ := sumH_exact h1 h2 h3 hy
  exact ⟨_, rfl, h4, h5, h6⟩

theorem outStep_exact {F R O : ℕ} {x : T2} {W : ℕ → ℕ → ℕ → ℝ} (ha : x.a = F) (hb : x.b = R) (hR : 0 < R) :
    ∃ y, outStep x F R O W = .ok y ∧ y.a = F ∧ y.b = O ∧ ∀ f < F, ∀ o,
      y.v f o = open Classical in if Good R (x.v f) then logOf (∑ r ∈ range R, W f r o * prob (x.v f r)) else none := by
  subst ha hb
  unfold outStep
  rw [if_neg hR.ne', bc_self, bc_self]
  refine ⟨_, rfl, rfl, rfl, fun f hf o => ?_⟩
  dsimp only
  rw [at1_lt hf]
  have := lfe (x.v f) (at1 x.b) (fun k hk => by rw [at1_lt hk]; exact hk) hR fun r => W f (at1 x.b r) o
  rw [show (fun r => x.v f r) = x.v f from rfl]
  rw [this]
  congr 2
  refine Finset.sum_congr rfl fun k hk => ?_
  rw [at1_lt (Finset.mem_range.1 hk)]

theorem Good.congr {n : ℕ} {x y : ℕ → Num} (h : ∀ k < n, x k = y k) : Good n x ↔ Good n y := by
  unfold Good
  constructor
  · rintro ⟨a, k, hk, b⟩
    exact ⟨fun k hk => h k hk ▸ a k hk, k, hk, h k hk ▸ b⟩
  · rintro ⟨a, k, hk, b⟩
    exact ⟨fun k hk => (h k hk).symm ▸ a k hk, k, hk, (h k hk).symm ▸ b⟩

/-- Entries of the form `log p`, some of them NaN: they are good iff none is NaN and one probability is positive. -/
theorem good_if {n : ℕ} {x : ℕ → Num} {G : ℕ → Prop} {p : ℕ → ℝ} (hp : ∀ k < n, G k → 0 ≤ p k)
    (hx : ∀ k < n, x k = open Classical in if G k then logOf (p k) else none) :
    Good n x ↔ (∀ k < n, G k) ∧ ∃ k < n, 0 < p k := by
  by_cases hG : ∀ k < n, G k
  · rw [Good.congr (y := fun k => logOf (p k)) fun k hk => by rw [hx k hk, if_pos (hG k hk)],
      good_logOf fun k hk => hp k hk (hG k hk)]
    exact ⟨fun h => ⟨hG, h⟩, fun h => h.2⟩
  · constructor
    · rintro ⟨h, _⟩
      refine absurd (fun k hk => ?_) hG
      by_contra hg
      exact h k hk (by rw [hx k hk, if_neg hg])
    · rintro ⟨h, _⟩
      exact absurd h hG

/-- **C84, uncollapsed CP.** On an input `(F, H, I)` the output unit `o` of fold `f` is the logarithm of
`∑ᵣ Wout[f,r,o] · ∏ₕ ∑ₖ Win[f,h,k,r] · exp x[f,h,k]`, the product over the children that are not masked. It is NaN unless: no child
contains a NaN and every child has a unit of positive probability, also the masked ones; the weighted sums are non-negative, those of
masked children even positive; one of the products is positive; and the sum is non-negative. -/
theorem C84_uncollapsed {F H I R O : ℕ} (hI : 0 < I) (hR : 0 < R) (mask : Option Mask) (hm : MaskFits mask F H)
    (Win : ℕ → ℕ → ℕ → ℕ → ℝ) (Wout : ℕ → ℕ → ℕ → ℝ) {x : T3} (ha : x.a = F) (hb : x.b = H) (hc : x.c = I) :
    ∃ y, forward (.uncollapsed F H I R O mask Win Wout) x = .ok y ∧ y.a = F ∧ y.b = O ∧ ∀ f < F, ∀ o,
      y.v f o = open Classical in
        if (∀ r < R, ∀ h < H, Good I (x.v f h) ∧ 0 ≤ childSum I Win x f h r ∧
              (kept mask f h = false → 0 < childSum I Win x f h r)) ∧
            ∃ r < R, 0 < ∏ h ∈ range H, if kept mask f h = true then childSum I Win x f h r else 1 then
          logOf (∑ r ∈ range R, Wout f r o * ∏ h ∈ range H, if kept mask f h = true then childSum I Win x f h r else 1)
        else none := by
  obtain ⟨y, e, h1, h2, h3, hy⟩ := inner_exact (O := R) (W := Win) (.inl rfl) ha hb hc hI
  have hy : ∀ f < F, ∀ h < H, ∀ o, y.v f h o = open Classical in if Good I (x.v f h) then
      logOf (childSum I Win x f h o) else none := by
    intro f hf h hh o
    rw [hy f hf h hh o, at1_lt hf]
    rfl
  -- the tensor before the output step
  have key : ∃ z : T2, z.a = F ∧ z.b = R ∧ (forward (.uncollapsed F H I R O mask Win Wout) x = outStep z F R O Wout) ∧
      ∀ f < F, ∀ r, z.v f r = open Classical in
        if ∀ h < H, Good I (x.v f h) ∧ 0 ≤ childSum I Win x f h r ∧ (kept mask f h = false → 0 < childSum I Win x f h r) then
          logOf (∏ h ∈ range H, if kept mask f h = true then childSum I Win x f h r else 1) else none := by
    unfold forward
    dsimp only
    rw [e]
    cases mask with
    | none =>
      obtain ⟨h4, h5, h6⟩ := sumH_exact h1 h2 h3 hy
      refine ⟨_, h4, h5, rfl, fun f hf o => ?_⟩
      rw [h6 f hf o]
      exact ite_iff (by simp only [kept, Bool.true_eq_false, false_imp_iff, and_true]) (by simp only [kept, if_true]) rfl
    | some m =>
      obtain ⟨z, e', k1, k2, k3, hz⟩ := withMask_exact timesMask (hm m rfl) h1 h2
      dsimp only
      rw [e']
      have hz' : ∀ f < F, ∀ h < H, ∀ o, z.v f h o =
          @ite _ (Good I (x.v f h) ∧ (kept (some m) f h = false → 0 < childSum I Win x f h o)) (Classical.propDecidable _)
            (logOf (if kept (some m) f h = true then childSum I Win x f h o else 1)) none := by
        intro f hf h hh o
        rw [hz f hf h hh o, hy f hf h hh o]
        show timesMask (kept (some m) f h) _ = _
        cases kept (some m) f h
        · simp only [timesMask, Bool.false_eq_true, if_false]
          by_cases hg : Good I (x.v f h)
          · rw [if_pos hg]
            rcases lt_trichotomy (childSum I Win x f h o) 0 with hl | hl | hl
            · rw [logOf_neg hl, if_neg fun hp => absurd (hp.2 rfl) (not_lt.2 hl.le)]
            · rw [hl, logOf_zero, if_neg fun hp => absurd (hp.2 rfl) (lt_irrefl _)]
            · rw [logOf_pos hl, if_pos ⟨hg, fun _ => hl⟩, logOf_pos one_pos, Real.log_one]
          · rw [if_neg hg, if_neg fun hp => hg hp.1]
        · by_cases hg : Good I (x.v f h)
          · rw [if_pos hg, if_pos ⟨hg, fun h => absurd h (by decide)⟩]
            rfl
          · rw [if_neg hg, if_neg fun hp => hg hp.1]
            rfl
      obtain ⟨h4, h5, h6⟩ := sumH_exact k1 k2 (k3.trans h3) hz'
      refine ⟨_, h4, h5, rfl, fun f hf o => ?_⟩
      rw [h6 f hf o]
      refine ite_iff (forall_congr' fun h => forall_congr' fun hh => ?_) rfl rfl
      cases kept (some m) f h
      · simp only [forall_true_left, Bool.false_eq_true, if_false, zero_le_one, and_true]
        exact ⟨fun hp => ⟨hp.1, hp.2.le, hp.2⟩, fun hp => ⟨hp.1, hp.2.2⟩⟩
      · simp
  obtain ⟨z, z1, z2, ez, hz⟩ := key
  rw [ez]
  obtain ⟨w, e', w1, w2, hw⟩ := outStep_exact (O := O) (W := Wout) z1 z2 hR
  refine ⟨w, e', w1, w2, fun f hf o => ?_⟩
  rw [hw f hf o]
  have hnn : ∀ r < R, (∀ h < H, Good I (x.v f h) ∧ 0 ≤ childSum I Win x f h r ∧
      (kept mask f h = false → 0 < childSum I Win x f h r)) →
        0 ≤ ∏ h ∈ range H, if kept mask f h = true then childSum I Win x f h r else 1 := by
    intro r _ hg
    refine Finset.prod_nonneg fun h hh => ?_
    split
    · exact (hg h (Finset.mem_range.1 hh)).2.1
    · exact zero_le_one
  have hgood := good_if hnn fun r _ => (hz f hf r).trans (ite_iff Iff.rfl rfl rfl)
  by_cases hg : Good R (z.v f)
  · have hg' := hgood.1 hg
    rw [if_pos hg, if_pos hg']
    congr 1
    refine Finset.sum_congr rfl fun r hr => ?_
    have hr := Finset.mem_range.1 hr
    rw [hz f hf r, if_pos (hg'.1 r hr), prob_logOf (hnn r hr (hg'.1 r hr))]
  · rw [if_neg hg, if_neg fun h => hg (hgood.2 h)]

/-- **C84, mixing.** On an input `(F, H, K)`, with or without a fold mask `(F, H)`, output unit `k` of fold `f` is the logarithm of
`∑ₕ W[f,h,k] · exp x[f,h,k]`, the sum over the children that are not masked; it is NaN if the entries of the unit, also those of masked
children, contain a NaN or are all `-inf`, or if the sum is negative. -/
theorem C84_mixing {F H K : ℕ} (hH : 0 < H) (mask : Option Mask) (hm : MaskFits mask F H) (W : ℕ → ℕ → ℕ → ℝ) {x : T3}
    (ha : x.a = F) (hb : x.b = H) (hc : x.c = K) :
    ∃ y, forward (.mixing F H K mask W) x = .ok y ∧ y.a = F ∧ y.b = K ∧ ∀ f < F, ∀ k < K,
      y.v f k = open Classical in if Good H (fun h => x.v f h k) then
        logOf (∑ h ∈ range H, if kept mask f h = true then W f h k * prob (x.v f h k) else 0) else none := by
  subst ha hb hc
  unfold forward evalMixing
  dsimp only
  rw [if_neg hH.ne']
  cases mask with
  | none =>
    simp only [bc_self]
    refine ⟨_, rfl, rfl, rfl, fun f hf k hk => ?_⟩
    dsimp only
    rw [at1_lt hf, at1_lt hk]
    have := lfe (fun h => x.v f h k) (at1 x.b) (fun k hk => by rw [at1_lt hk]; exact hk) hH fun h => W f (at1 x.b h) k
    rw [this]
    congr 2
    refine Finset.sum_congr rfl fun h hh => ?_
    rw [at1_lt (Finset.mem_range.1 hh)]
    rfl
  | some m =>
    obtain ⟨h1, h2⟩ := hm m rfl
    simp only [h1, h2, bc_self]
    refine ⟨_, rfl, rfl, rfl, fun f hf k hk => ?_⟩
    dsimp only
    rw [at1_lt hf, at1_lt hk]
    have := lfe (fun h => x.v f h k) (at1 x.b) (fun k hk => by rw [at1_lt hk]; exact hk) hH
      fun h => W f (at1 x.b h) k * (if m.v f (at1 x.b h) = true then 1 else 0)
    have hs : ∀ (a b : ℝ) (c : Option ℝ), scale a (scale b c) = scale (a * b) c := by
      intro a b c
      cases c with
      | none => rfl
      | some c => simp only [scale, Option.map_some, mul_assoc]
    simp only [hs]
    rw [this]
    congr 2
    refine Finset.sum_congr rfl fun h hh => ?_
    rw [at1_lt (Finset.mem_range.1 hh)]
    show _ = if m.v f h = true then _ else _
    split <;> simp

end Verif.TL

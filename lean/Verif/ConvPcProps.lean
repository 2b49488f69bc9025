import Verif.ConvNet

/-!
# C61: ConvPc
-/

open MeasureTheory

namespace Verif.Conv

open Finset Verif.Circ

variable {μ : Var → Measure ℝ}

/-! ### Specification -/

/-- The leaf of a ConvPc over an `H` x `H` image: an accepted, normalised module with one feature per pixel and one
repetition. -/
structure Image (μ : Var → Measure ℝ) (leaf : Circ) (H : ℕ) : Prop where
  acc : Accepted leaf
  al : Aligned leaf
  lf : LeafOk μ leaf
  rep : tensorR leaf = some 1
  ch : 1 ≤ leaf.C
  size : leaf.F = H * H

/-- Rows (or columns) missing for `⌈H / t⌉` pixels per block of a `t` x `t` grid: `⌈H / t⌉ * t - H`. -/
def missing (H t : ℕ) : ℕ := (H + t - 1) / t * t - H

/-- All logits are finite numbers (as drawn by the constructor and after gradient steps). -/
def Finite (W : ℕ → ℕ → ℕ → ℕ → ℕ → LogV) (w0 : ℕ → ℕ → ℕ → LogV) : Prop :=
  (∀ l a b c d, W l a b c d ≠ ⊥) ∧ ∀ f i o, w0 f i o ≠ ⊥

/-- The variables of a module: those of its features. -/
def Net.vars (n : Net) : Set Var := {v | ∃ f < n.F, v ∈ n.fscope f}

/-! ### The layers -/

theorem ceil_mul {H t : ℕ} (ht : 1 ≤ t) : H ≤ (H + t - 1) / t * t ∧ (H + t - 1) / t * t < H + t := by
  have h := Nat.div_add_mod' (H + t - 1) t
  have := Nat.mod_lt (H + t - 1) ht
  omega

theorem ceil_pos {H t : ℕ} (hH : 1 ≤ H) (ht : 1 ≤ t) : 1 ≤ (H + t - 1) / t :=
  (Nat.one_le_div_iff ht).2 (by omega)

theorem addProd_ok {n : Net} {kh kw ph pw : ℕ} (h1 : 1 ≤ kh) (h2 : 1 ≤ kw) (hs : Square n.F) :
    addProd n kh kw ph pw = .ok (.prodConv n kh kw ph pw) := by
  unfold addProd ProdConv.mk?
  rw [if_neg (by omega), if_neg (by omega), if_neg (not_not.2 (show side n.F * side n.F = n.F from hs))]
  rfl

theorem addSumConv_ok {n : Net} {Co K : ℕ} (θ) (h1 : 1 ≤ Co) (h2 : 1 ≤ K) : addSumConv n Co K θ = .ok (.sumConv n Co K θ) := by
  unfold addSumConv SumConv.mk?
  rw [if_neg (by omega), if_neg (by omega)]
  rfl

theorem addSum_ok {n : Net} {Co : ℕ} (θ) (h1 : 1 ≤ Co) : addSum n Co θ = .ok (.sum n Co θ) := by
  unfold addSum
  rw [if_neg (by omega)]

/-- One level: the sum layer. -/
def sumLayer (conv : Bool) (channels k : ℕ) (θ : ℕ → ℕ → ℕ → ℕ → LogV) (n : Net) : Net :=
  if conv then .sumConv n channels k θ else .sum n channels (fun f ci co => θ f ci co 0)

theorem sumLayer_F (conv : Bool) (channels k : ℕ) (θ) (n : Net) : (sumLayer conv channels k θ n).F = n.F := by
  cases conv <;> rfl

theorem sumLayer_C (conv : Bool) (channels k : ℕ) (θ) (n : Net) : (sumLayer conv channels k θ n).C = channels := by
  cases conv <;> rfl

theorem sumLayer_vars (conv : Bool) (channels k : ℕ) (θ) (n : Net) : (sumLayer conv channels k θ n).vars = n.vars := by
  cases conv <;> rfl

theorem stack_succ {conv : Bool} {channels k : ℕ} {W} {d : ℕ} {n : Net} (hc : 1 ≤ channels) (hk : 1 ≤ k) (hs : Square n.F) :
    stack conv channels k W (d + 1) n = stack conv channels k W d (.prodConv (sumLayer conv channels k (W d) n) k k 0 0) := by
  rw [stack]
  cases conv
  · simp only [Bool.false_eq_true, if_false, addSum_ok _ hc]
    show (addProd _ k k 0 0 >>= _) = _
    rw [addProd_ok hk hk (by exact hs)]
    rfl
  · simp only [if_true, addSumConv_ok _ hc hk]
    show (addProd _ k k 0 0 >>= _) = _
    rw [addProd_ok hk hk (by exact hs)]
    rfl

/-- Variables of a product layer that covers every pixel. -/
theorem prod_vars {n : Net} {kh kw ph pw : ℕ} (h1 : 1 ≤ kh) (h2 : 1 ≤ kw) (hs : Square n.F)
    (c1 : (side n.F + 2 * ph) % kh ≤ ph) (c2 : (side n.F + 2 * pw) % kw ≤ pw) :
    (Net.prodConv n kh kw ph pw).vars = n.vars := by
  have hin : (Net.geo n kh kw ph pw).inF = n.F := hs
  have hv : (Net.geo n kh kw ph pw).Valid := ⟨h1, h2⟩
  ext v
  constructor
  · rintro ⟨o, ho, hvo⟩
    rw [Net.fscope, ProdConv.C43_scope] at hvo
    obtain ⟨f, hf, -, hvf⟩ := hvo
    exact ⟨f, by rwa [hin] at hf, hvf⟩
  · rintro ⟨f, hf, hvf⟩
    have hH : 0 < (Net.geo n kh kw ph pw).H := by
      rcases Nat.eq_zero_or_pos (side n.F) with h | h
      · unfold Square at hs; rw [h] at hs; omega
      · exact h
    obtain ⟨o, ⟨ho, hp⟩, -⟩ := ((ProdConv.C43_each_pixel_once hv).2 hH).2 ⟨c1, c2⟩ f (by rwa [hin])
    exact ⟨o, ho, by rw [Net.fscope, ProdConv.C43_scope]; exact ⟨f, by rwa [hin], hp, hvf⟩⟩

theorem sumLayer_good {conv : Bool} {channels k s : ℕ} {θ : ℕ → ℕ → ℕ → ℕ → LogV} {n : Net} (hg : n.Good μ)
    (hc : 1 ≤ channels) (hk : 1 ≤ k) (hC : 1 ≤ n.C) (hF : n.F = s * s) (hd : k ∣ s) (hθ : ∀ a b c d, θ a b c d ≠ ⊥) :
    (sumLayer conv channels k θ n).Good μ := by
  cases conv
  · exact ⟨hg, hc, fun f _ co _ => ⟨0, hC, hθ _ _ _ _⟩⟩
  · have hsq := square_mul s
    rw [← hF] at hsq
    exact ⟨hg, hc, hk, hsq.1, .inr (hsq.2 ▸ hd), fun co _ a _ b _ => ⟨0, hC, hθ _ _ _ _⟩⟩

theorem stack_good {conv : Bool} {channels k : ℕ} {W : ℕ → ℕ → ℕ → ℕ → ℕ → LogV} (hc : 1 ≤ channels) (hk : 1 ≤ k)
    (hW : ∀ l a b c d, W l a b c d ≠ ⊥) : ∀ (d : ℕ) (n : Net), n.Good μ → 1 ≤ n.C → n.F = k ^ d * k ^ d →
      ∃ m, stack conv channels k W d n = .ok m ∧ m.Good μ ∧ 1 ≤ m.C ∧ m.F = 1 ∧ m.vars = n.vars := by
  intro d
  induction d with
  | zero => intro n hg hC hF; exact ⟨n, rfl, hg, hC, by simpa using hF, rfl⟩
  | succ d ih =>
    intro n hg hC hF
    have hsq := square_mul (k ^ (d + 1))
    rw [← hF] at hsq
    set s := sumLayer conv channels k (W d) n with hs
    have hsF : s.F = n.F := sumLayer_F ..
    have hdiv : k ^ (d + 1) / k = k ^ d := by rw [pow_succ]; exact Nat.mul_div_cancel _ hk
    have hside : side s.F = k ^ (d + 1) := by rw [hsF]; exact hsq.2
    have hgs : s.Good μ := sumLayer_good hg hc hk hC hF (Dvd.intro_left (k ^ d) (pow_succ k d).symm) (hW d)
    have hp : (Net.prodConv s k k 0 0).Good μ := by
      refine ⟨hgs, hk, hk, by rw [hsF]; exact hsq.1, ?_, ?_⟩ <;>
      · rw [hside]
        calc k = 1 * k := (one_mul k).symm
          _ ≤ k ^ d * k := Nat.mul_le_mul_right _ (Nat.one_le_pow _ _ hk)
          _ = k ^ (d + 1) := (pow_succ k d).symm
    have hpF : (Net.prodConv s k k 0 0).F = k ^ d * k ^ d := by
      show (side s.F + 2 * 0) / k * ((side s.F + 2 * 0) / k) = _
      rw [hside, mul_zero, add_zero, hdiv]
    obtain ⟨m, h1, h2, h3, h4, h5⟩ := ih (.prodConv s k k 0 0) hp
      (by show 1 ≤ s.C; rw [hs, sumLayer_C]; exact hc) hpF
    refine ⟨m, ?_, h2, h3, h4, ?_⟩
    · rw [stack_succ hc hk hsq.1]; exact h1
    · rw [h5, prod_vars hk hk (by rw [hsF]; exact hsq.1) _ _, hs, sumLayer_vars]
      all_goals
        rw [hside, mul_zero, add_zero, pow_succ, Nat.mul_mod_left]

/-- The constructor when the checks pass. -/
theorem build_eq {leaf : Circ} {H channels depth k : ℕ} {conv : Bool} {W w0} (hH : 1 ≤ H) (hd : 1 ≤ depth) (hc : 1 ≤ channels)
    (hk : 1 ≤ k) (hF : leaf.F = H * H) :
    build leaf H H channels depth k 1 conv W w0 =
      (stack conv channels k W depth (.prodConv (.base leaf) ((H + k ^ depth - 1) / k ^ depth)
        ((H + k ^ depth - 1) / k ^ depth) (missing H (k ^ depth) / 2) (missing H (k ^ depth) / 2)) >>= fun m =>
        .ok (.sum m 1 w0)) := by
  have ht : 1 ≤ k ^ depth := Nat.one_le_pow _ _ hk
  have hkp : kernelPadding H (k ^ depth) = .ok ((H + k ^ depth - 1) / k ^ depth, missing H (k ^ depth) / 2) := by
    unfold kernelPadding
    rw [if_neg (by omega)]
    rfl
  unfold build
  rw [if_neg (by simp), if_neg (by omega), if_neg (by omega), hkp]
  have hp := addProd_ok (n := .base leaf) (ph := missing H (k ^ depth) / 2) (pw := missing H (k ^ depth) / 2)
    (ceil_pos hH ht) (ceil_pos hH ht) (show Square leaf.F by rw [hF]; exact (square_mul H).1)
  show (addProd _ _ _ _ _ >>= _) = _
  rw [hp]
  rfl

/-- C61: a ConvPc over an `H` x `H` image, whenever the padding is symmetric, is a model whose `log_likelihood` never raises,
has one output, contains every pixel variable, and is a normalised density: missing values are integrated out exactly and
the total mass is one - for both kinds of sum layers, all depths, kernels, channel numbers and weights. -/
theorem C61_density_partial [∀ v, SigmaFinite (μ v)] {leaf : Circ} {H channels depth k : ℕ} {conv : Bool} {W w0}
    (hi : Image μ leaf H) (hH : 1 ≤ H) (hd : 1 ≤ depth) (hc : 1 ≤ channels) (hk : 1 ≤ k) (hW : Finite W w0)
    (heven : Even (missing H (k ^ depth))) :
    ∃ n, build leaf H H channels depth k 1 conv W w0 = .ok n ∧ n.F = 1 ∧ n.C = 1 ∧
      (∀ v, v ∈ n.fscope 0 ↔ v ∈ (Circ.scope leaf).query) ∧ (∀ x, ∃ T, n.logLik x = .ok T) ∧
      (∀ S ⊆ n.fscope 0, ∀ x : Var → ℝ,
        (∫⋯∫⁻_S, (fun y => ENNReal.ofReal (expL (n.val 0 (fun v => some (y v)) 0))) ∂μ) x =
          ENNReal.ofReal (expL (n.val 0 (maskRow S x) 0))) ∧
      ∀ x : Var → ℝ, (∫⋯∫⁻_(n.fscope 0), (fun y => ENNReal.ofReal (expL (n.val 0 (fun v => some (y v)) 0))) ∂μ) x = 1 := by
  have ht : 1 ≤ k ^ depth := Nat.one_le_pow _ _ hk
  set t := k ^ depth with htd
  set kb := (H + t - 1) / t with hkb
  obtain ⟨c1, c2⟩ := ceil_mul (H := H) ht
  have hkb1 : 1 ≤ kb := ceil_pos hH ht
  obtain ⟨q, hq⟩ := heven
  have hmq : missing H t / 2 = q := by omega
  have hpad : H + 2 * q = kb * t := by unfold missing at hq; rw [← hkb] at hq c1; omega
  set b : Net := .prodConv (.base leaf) kb kb q q with hb
  have hside : side leaf.F = H := by rw [hi.size]; exact (square_mul H).2
  have hsq : Square leaf.F := by rw [hi.size]; exact (square_mul H).1
  have hbg : b.Good μ := by
    refine ⟨⟨hi.acc, hi.al, hi.lf, hi.rep⟩, hkb1, hkb1, hsq, ?_, ?_⟩ <;>
    · show kb ≤ side leaf.F + 2 * q
      rw [hside, hpad]
      exact Nat.le_mul_of_pos_right _ ht
  have hbF : b.F = t * t := by
    show (side leaf.F + 2 * q) / kb * ((side leaf.F + 2 * q) / kb) = _
    rw [hside, hpad, Nat.mul_div_cancel_left _ hkb1]
  have hbv : b.vars = (Net.base leaf).vars := by
    refine prod_vars hkb1 hkb1 hsq ?_ ?_ <;>
    · show (side leaf.F + 2 * q) % kb ≤ q
      rw [hside, hpad, Nat.mul_mod_right]; omega
  obtain ⟨m, h1, h2, h3, h4, h5⟩ := stack_good (conv := conv) hc hk hW.1 depth b hbg hi.ch hbF
  have hbuild : build leaf H H channels depth k 1 conv W w0 = .ok (.sum m 1 w0) := by
    rw [build_eq hH hd hc hk hi.size, hmq, h1]
    rfl
  have hg : (Net.sum m 1 w0).Good μ := ⟨h2, le_refl _, fun f _ co _ => ⟨0, h3, hW.2 _ _ _⟩⟩
  obtain ⟨hok, hfam⟩ := Net.good_fam hg
  have hF1 : (Net.sum m 1 w0).F = 1 := h4
  refine ⟨_, hbuild, hF1, rfl, ?_, hok, ?_, ?_⟩
  · intro v
    rw [mem_scope_iff hi.acc]
    have : v ∈ (Net.sum m 1 w0).vars ↔ v ∈ (Net.base leaf).vars := by
      show v ∈ m.vars ↔ _
      rw [h5, hbv]
    constructor
    · intro hv
      exact this.1 ⟨0, by rw [hF1]; exact Nat.one_pos, hv⟩
    · intro hv
      obtain ⟨f, hf, hv'⟩ := this.2 hv
      rw [hF1] at hf
      obtain rfl : f = 0 := by omega
      exact hv'
  · intro S hS x
    exact hfam.marginal (by rw [hF1]; exact Nat.one_pos) Nat.one_pos S hS x
  · intro x
    rw [hfam.marginal (by rw [hF1]; exact Nat.one_pos) Nat.one_pos _ (Finset.Subset.refl _) x,
      hfam.miss 0 (by rw [hF1]; exact Nat.one_pos) 0 Nat.one_pos _ (fun v hv => by simp [maskRow, hv]), ENNReal.ofReal_one]

/-- C61, the constructor's rejections: more than one repetition is unsupported; depth 0, zero channels, an image side or a
kernel of zero, and a leaf layer whose features do not form a square all raise ValueError - for every other argument. -/
theorem C61_rejects (leaf : Circ) (height width channels depth k reps : ℕ) (conv : Bool) (W w0) :
    (reps ≠ 1 → build leaf height width channels depth k reps conv W w0 = .error .unsupported) ∧
    (reps = 1 → (depth = 0 ∨ channels = 0 ∨ height = 0 ∨ width = 0 ∨ k = 0 ∨ side leaf.F * side leaf.F ≠ leaf.F) →
      build leaf height width channels depth k reps conv W w0 = .error .valueError) := by
  constructor
  · intro h
    simp [build, bind, Except.bind, throw, throwThe, MonadExceptOf.throw, h]
  · rintro rfl h
    by_cases hd : depth < 1
    · simp [build, bind, Except.bind, throw, throwThe, MonadExceptOf.throw, hd]
    by_cases hc : channels < 1
    · simp [build, bind, Except.bind, throw, throwThe, MonadExceptOf.throw, hd, hc]
    by_cases h1 : height = 0 ∨ k ^ depth = 0
    · have e0 : kernelPadding height (k ^ depth) = .error .valueError := by unfold kernelPadding; rw [if_pos h1]
      simp [build, bind, Except.bind, throw, throwThe, MonadExceptOf.throw, hd, hc, e0]
    by_cases h2 : width = 0 ∨ k ^ depth = 0
    · have e0 : kernelPadding width (k ^ depth) = .error .valueError := by unfold kernelPadding; rw [if_pos h2]
      cases e1 : kernelPadding height (k ^ depth) with
      | error ex =>
        unfold kernelPadding at e1
        rw [if_neg h1] at e1
        cases e1
      | ok v => simp [build, bind, Except.bind, throw, throwThe, MonadExceptOf.throw, hd, hc, e0, e1]
    have hk : k ≠ 0 := by
      rintro rfl
      exact h1 (.inr (zero_pow (by omega)))
    have hsq : side leaf.F * side leaf.F ≠ leaf.F := by
      rcases h with h | h | h | h | h | h
      · omega
      · omega
      · exact absurd (.inl h) h1
      · exact absurd (.inl h) h2
      · exact absurd h hk
      · exact h
    push Not at h1 h2
    have e : ∀ m, ∃ kk p, kernelPadding m (k ^ depth) = .error .valueError ∨ kernelPadding m (k ^ depth) = .ok (kk, p) := by
      intro m
      unfold kernelPadding
      split_ifs
      · exact ⟨0, 0, .inl rfl⟩
      · exact ⟨_, _, .inr rfl⟩
    obtain ⟨a, b, hab⟩ := e height
    obtain ⟨a', b', hab'⟩ := e width
    rcases hab with hab | hab
    · simp [build, bind, Except.bind, throw, throwThe, MonadExceptOf.throw, hd, hc, hab]
    rcases hab' with hab' | hab'
    · simp [build, bind, Except.bind, throw, throwThe, MonadExceptOf.throw, hd, hc, hab, hab']
    have hp : addProd (.base leaf) a a' b b' = .error .valueError := by
      have : ProdConv.mk? leaf.F a a' b b' = .error .valueError := by
        unfold ProdConv.mk?
        split_ifs <;> first | rfl | contradiction
      simp only [addProd, Net.F, this, bind, Except.bind]
    simp [build, bind, Except.bind, throw, throwThe, MonadExceptOf.throw, hd, hc, hab, hab', hp]

end Verif.Conv

import Verif.ConvSample
import Verif.BuildKit

/-!
# C61: what fails, and witnesses
-/

open MeasureTheory

namespace Verif.Conv

open Finset Verif.Circ Prog

variable {μ : Var → Measure ℝ}

/-! ### Odd padding -/

theorem prod_too_large {n : Net} {k : ℕ} (h : side n.F < k) (x : Row) :
    ∃ e, (Net.prodConv n k k 0 0).logLik x = .error e := by
  simp only [Net.logLik]
  rcases n.logLik x with e | T
  · exact ⟨e, rfl⟩
  · refine ⟨.runtimeError, ?_⟩
    show (Net.geo n k k 0 0).logLik T = _
    unfold ProdConv.logLik
    rw [if_pos (.inl (show side n.F + 2 * 0 < k by omega))]

theorem stack_broken {conv : Bool} {channels k : ℕ} {W : ℕ → ℕ → ℕ → ℕ → ℕ → LogV} (hc : 1 ≤ channels) (hk : 2 ≤ k) :
    ∀ (d : ℕ) (n : Net), n.F = (k ^ (d + 1) - 1) * (k ^ (d + 1) - 1) →
      ∃ m, stack conv channels k W (d + 1) n = .ok m ∧ m.F = 0 ∧ ∀ x, ∃ e, m.logLik x = .error e := by
  intro d
  induction d with
  | zero =>
    intro n hF
    have hsq := square_mul (k ^ (0 + 1) - 1)
    rw [← hF] at hsq
    rw [stack_succ hc (by omega) hsq.1]
    have hside : side (sumLayer conv channels k (W 0) n).F = k - 1 := by rw [sumLayer_F, hsq.2]; simp
    refine ⟨_, rfl, ?_, prod_too_large (by omega)⟩
    show (side (sumLayer conv channels k (W 0) n).F + 2 * 0) / k * ((side (sumLayer conv channels k (W 0) n).F + 2 * 0) / k) = 0
    rw [hside, Nat.div_eq_of_lt (by omega), zero_mul]
  | succ d ih =>
    intro n hF
    have hsq := square_mul (k ^ (d + 1 + 1) - 1)
    rw [← hF] at hsq
    rw [stack_succ hc (by omega) hsq.1]
    have hside : side (sumLayer conv channels k (W (d + 1)) n).F = k ^ (d + 1 + 1) - 1 := by rw [sumLayer_F, hsq.2]
    refine ih _ ?_
    show (side (sumLayer conv channels k (W (d + 1)) n).F + 2 * 0) / k *
      ((side (sumLayer conv channels k (W (d + 1)) n).F + 2 * 0) / k) = _
    rw [hside, mul_zero, add_zero]
    have : (k ^ (d + 1 + 1) - 1) / k = k ^ (d + 1) - 1 := by
      have hp : 1 ≤ k ^ (d + 1) := Nat.one_le_pow _ _ (by omega)
      rw [Nat.div_eq_iff (by omega), pow_succ k (d + 1)]
      have : (k ^ (d + 1) - 1) * k = k ^ (d + 1) * k - k := by rw [Nat.sub_mul, one_mul]
      have : k ≤ k ^ (d + 1) * k := Nat.le_mul_of_pos_left _ hp
      omega
    rw [this]

/-- C61 is FALSE when the number of missing rows `⌈H / k^depth⌉ * k^depth - H` is odd: the constructor accepts, but pads one
row and column too few, the grid shrinks to `k^depth - 1` and finally to nothing, and `log_likelihood` raises for
every row. -/
theorem C61_odd_padding_unusable {leaf : Circ} {H channels depth k : ℕ} {conv : Bool} {W w0} (hF : leaf.F = H * H)
    (hH : 1 ≤ H) (hd : 1 ≤ depth) (hc : 1 ≤ channels) (hk : 1 ≤ k) (hodd : Odd (missing H (k ^ depth))) :
    ∃ n, build leaf H H channels depth k 1 conv W w0 = .ok n ∧ n.F = 0 ∧ ∀ x, ∃ e, n.logLik x = .error e := by
  have hk2 : 2 ≤ k := by
    by_contra hcon
    obtain rfl : k = 1 := by omega
    rw [one_pow] at hodd
    unfold missing at hodd
    simp at hodd
  have ht : 1 ≤ k ^ depth := Nat.one_le_pow _ _ hk
  rw [build_eq hH hd hc hk hF]
  set t := k ^ depth with htd
  set kb := (H + t - 1) / t with hkb
  obtain ⟨c1, c2⟩ := ceil_mul (H := H) ht
  rw [← hkb] at c1 c2
  have hkb1 : 1 ≤ kb := ceil_pos hH ht
  obtain ⟨q, hq⟩ := hodd
  have hmq : missing H t / 2 = q := by omega
  have hpad : H + 2 * q = kb * t - 1 := by unfold missing at hq; rw [← hkb] at hq; omega
  have hside : side leaf.F = H := by rw [hF]; exact (square_mul H).2
  obtain ⟨d, rfl⟩ : ∃ d, depth = d + 1 := ⟨depth - 1, by omega⟩
  obtain ⟨m, h1, h2, h3⟩ := stack_broken (conv := conv) (W := W) hc hk2 d (.prodConv (.base leaf) kb kb q q) (by
    show (side leaf.F + 2 * q) / kb * ((side leaf.F + 2 * q) / kb) = _
    rw [hside, hpad, ← htd]
    have : (kb * t - 1) / kb = t - 1 := by
      rw [Nat.div_eq_iff (by omega), mul_comm, Nat.mul_sub, mul_one]
      have : kb ≤ kb * t := Nat.le_mul_of_pos_right _ ht
      omega
    rw [this])
  refine ⟨.sum m 1 w0, by rw [hmq, h1]; rfl, h2, fun x => ?_⟩
  obtain ⟨e, he⟩ := h3 x
  refine ⟨e, ?_⟩
  simp only [Net.logLik, he]
  rfl

/-- Witness: 7 x 7 pixels, kernel 2, depth 2 (4 x 4 grid, blocks of 2): one row is missing. -/
example : Odd (missing 7 (2 ^ 2)) ∧ Even (missing 6 (2 ^ 2)) ∧ missing 6 (2 ^ 2) = 2 ∧ missing 28 (2 ^ 2) = 0 := by decide

/-! ### Even padding: sampling -/

/-- Four pixels, two channels: channel 0 is constantly 0, channel 1 constantly 1. -/
noncomputable def exLeaf : Circ := .leaf [0, 1, 2, 3] 2 1 fun _ ch _ => Leaves.bernoulliLL (if ch = 0 then 0 else 1)

theorem exLeaf_ok : SampleImage (fun _ => Leaves.countBelow 2) exLeaf 2 := by
  have hp := (Build.leaf_pre (μ := fun _ => Leaves.countBelow 2) (q := [0, 1, 2, 3]) (C := 2)
    (d := fun _ ch _ => Leaves.bernoulliLL (if ch = 0 then 0 else 1)) (by decide) (by decide) (by decide)
    (fun i hi ch r => ⟨Leaves.bernoulli_measurable _, by
      apply Leaves.bernoulli_normalised <;> split_ifs <;> norm_num⟩)).2
  exact ⟨⟨hp.acc, hp.al, hp.lf, hp.rep, hp.ch, rfl⟩, by show 1 ≤ 2; decide, by show 0 < 1; decide⟩

/-- The density theorem's hypotheses are met by a 2 x 2 image with kernel 2 (no padding) and with kernel 4 (padding 1). -/
example : Image (fun _ => Leaves.countBelow 2) exLeaf 2 ∧ missing 2 (2 ^ 1) = 0 ∧ 2 ^ 1 ∣ 2 ∧ Even (missing 2 (4 ^ 1)) :=
  ⟨exLeaf_ok.toImage, by decide, by decide, by decide⟩

/-- Weights: the cells of the 4 x 4 grid that contain a pixel prefer channel 1, the others channel 0. -/
noncomputable def exW (f ci : ℕ) : LogV :=
  logL (if (f = 5 ∨ f = 6 ∨ f = 9 ∨ f = 10) = (ci = 0) then 1/4 else 3/4)

theorem exW_ne (f ci : ℕ) : exW f ci ≠ ⊥ := by
  rw [Ne, ← expL_eq_zero_iff]
  unfold exW
  split_ifs <;> (rw [expL_logL (by norm_num)]; norm_num)

theorem exW_softmax (f ci : ℕ) (hci : ci < 2) : softmax 2 (fun i => exW f i) ci =
    if (f = 5 ∨ f = 6 ∨ f = 9 ∨ f = 10) = (ci = 0) then 1/4 else 3/4 := by
  rw [softmax_eq]
  have he : ∀ i, expL (exW f i) = if (f = 5 ∨ f = 6 ∨ f = 9 ∨ f = 10) = (i = 0) then 1/4 else 3/4 := by
    intro i; unfold exW; rw [expL_logL (by split_ifs <;> norm_num)]
  simp only [he, sum_range_succ, range_zero, sum_empty, zero_add]
  by_cases hf : f = 5 ∨ f = 6 ∨ f = 9 ∨ f = 10
  · rcases Nat.lt_succ_iff_lt_or_eq.1 hci with h | h
    · obtain rfl : ci = 0 := by omega
      simp [hf]; norm_num
    · obtain rfl : ci = 1 := h
      simp [hf]; norm_num
  · rcases Nat.lt_succ_iff_lt_or_eq.1 hci with h | h
    · obtain rfl : ci = 0 := by omega
      simp [hf]; norm_num
    · obtain rfl : ci = 1 := h
      simp [hf]; norm_num

/-- The bottom of the network: the padded product layer. -/
noncomputable def exB : Net := .prodConv (.base exLeaf) 1 1 1 1

/-- The mixture layer on the 4 x 4 grid. -/
noncomputable def exS : Net := .sum exB 1 fun f ci _ => exW f ci

/-- The whole ConvPc: kernel 4, depth 1. -/
noncomputable def exN : Net := .sum (.prodConv exS 4 4 0 0) 1 fun _ _ _ => 0

theorem side4 : side 4 = 2 := (square_mul 2).2

theorem side16 : side 16 = 4 := (square_mul 4).2

theorem exB_F : exB.F = 16 := by
  show (side 4 + 2 * 1) / 1 * ((side 4 + 2 * 1) / 1) = 16
  rw [side4]

theorem exN_build : build exLeaf 2 2 1 1 4 1 false (fun _ f ci _ _ => exW f ci) (fun _ _ _ => 0) = .ok exN := by
  rw [build_eq (by decide) (by decide) (by decide) (by decide) rfl]
  have e : (Net.base exLeaf).prodConv ((2 + 4 ^ 1 - 1) / 4 ^ 1) ((2 + 4 ^ 1 - 1) / 4 ^ 1) (missing 2 (4 ^ 1) / 2)
    (missing 2 (4 ^ 1) / 2) = exB := rfl
  rw [e, stack_succ (by decide) (by decide) (by rw [exB_F]; exact (square_mul 4).1)]
  rfl

theorem exB_good : exB.Good fun _ => Leaves.countBelow 2 := by
  have h := exLeaf_ok
  refine ⟨⟨h.acc, h.al, h.lf, h.rep⟩, by decide, by decide, (square_mul 2).1, ?_, ?_⟩ <;>
  · show 1 ≤ side 4 + 2 * 1
    omega

theorem exS_good : exS.Good fun _ => Leaves.countBelow 2 := ⟨exB_good, by decide, fun f _ co _ => ⟨0, by decide, exW_ne _ _⟩⟩

theorem exP_good : (Net.prodConv exS 4 4 0 0).Good fun _ => Leaves.countBelow 2 := by
  have hF : exS.F = 4 * 4 := exB_F
  refine ⟨exS_good, by decide, by decide, by rw [hF]; exact (square_mul 4).1, ?_, ?_⟩ <;>
  · rw [hF, (square_mul 4).2]

/-- The black image. -/
def black : Row := fun v => if v ∈ [(0 : Var), 1, 2, 3] then some 0 else none

theorem exLeaf_black (f ci : ℕ) (hf : f < 4) : expL (featAt (den exLeaf) f black 0 ci) = if ci = 0 then 1 else 0 := by
  have hq : [(0 : Var), 1, 2, 3][f]? = some (f : ℤ) := by
    interval_cases f <;> rfl
  have hb : black (f : ℤ) = some 0 := by
    interval_cases f <;> rfl
  unfold exLeaf
  rw [featAt_leaf hq, hb]
  show expL (Leaves.bernoulliLL _ 0) = _
  unfold Leaves.bernoulliLL
  rw [if_neg (by norm_num), if_pos rfl, expL_logL (by split_ifs <;> norm_num)]
  split_ifs <;> norm_num

theorem exBase_val (f ci : ℕ) (x : Row) : (Net.base exLeaf).val f x ci = featAt (den exLeaf) f x 0 ci := rfl

theorem val_prod_gen {n : Net} {kh kw ph pw : ℕ} (h : (Net.prodConv n kh kw ph pw).Good μ) (o ch : ℕ) (x : Row) :
    expL ((Net.prodConv n kh kw ph pw).val o x ch) =
      ∏ f ∈ (range n.F).filter ((Net.geo n kh kw ph pw).InPatch o), expL (n.val f x ch) := by
  have hin : (Net.geo n kh kw ph pw).inF = n.F := h.2.2.2.1
  obtain ⟨T, hT⟩ := (Net.good_fam h.1).1 x
  obtain ⟨T', hT'⟩ := (Net.good_fam h).1 x
  have h2 : (Net.geo n kh kw ph pw).logLik T = .ok T' := by
    simp only [Net.logLik, hT] at hT'
    exact hT'
  rw [Net.val_of hT', (ProdConv.C43_likelihood (Net.geo n kh kw ph pw) T).1 T' h2, expL_sum, hin]
  exact prod_congr rfl fun f _ => by rw [Net.val_of hT]

theorem exB_black (o ci : ℕ) (ho : o < 16) : expL (exB.val o black ci) =
    if (o = 5 ∨ o = 6 ∨ o = 9 ∨ o = 10) ∧ ci ≠ 0 then 0 else 1 := by
  unfold exB
  rw [val_prod_gen exB_good]
  have hg : Net.geo (.base exLeaf) 1 1 1 1 = ⟨2, 1, 1, 1, 1⟩ := by
    unfold Net.geo; rw [show (Net.base exLeaf).F = 4 from rfl, side4]
  rw [hg]
  have hv : ∀ f ∈ (range (Net.base exLeaf).F).filter ((ProdConv.mk 2 1 1 1 1).InPatch o),
      expL ((Net.base exLeaf).val f black ci) = if ci = 0 then 1 else 0 := by
    intro f hf
    rw [exBase_val, exLeaf_black f ci (mem_range.1 (mem_filter.1 hf).1)]
  rw [prod_congr rfl hv, prod_const]
  have hcard : ((range (Net.base exLeaf).F).filter ((ProdConv.mk 2 1 1 1 1).InPatch o)).card =
      if o = 5 ∨ o = 6 ∨ o = 9 ∨ o = 10 then 1 else 0 := by
    show ((range 4).filter ((ProdConv.mk 2 1 1 1 1).InPatch o)).card = _
    interval_cases o <;> decide
  rw [hcard]
  by_cases h1 : o = 5 ∨ o = 6 ∨ o = 9 ∨ o = 10 <;> by_cases h2 : ci = 0 <;> simp [h1, h2]

theorem exS_black (o : ℕ) (ho : o < 16) : expL (exS.val o black 0) =
    if o = 5 ∨ o = 6 ∨ o = 9 ∨ o = 10 then 1/4 else 1 := by
  unfold exS
  rw [Net.val_sum exB_good]
  show ∑ ci ∈ range 2, softmax 2 (fun i => exW o i) ci * expL (exB.val o black ci) = _
  rw [sum_range_succ, sum_range_one, exW_softmax o 0 (by decide), exW_softmax o 1 (by decide), exB_black o 0 ho,
    exB_black o 1 ho]
  by_cases h1 : o = 5 ∨ o = 6 ∨ o = 9 ∨ o = 10
  · simp [h1]
  · simp [h1]; norm_num

/-- `exp(log_likelihood)` of the black image. -/
theorem exN_black : expL (exN.val 0 black 0) = (1/4) ^ 4 := by
  unfold exN
  rw [Net.val_sum exP_good]
  show ∑ ci ∈ range 1, softmax 1 (fun _ => 0) ci * expL ((Net.prodConv exS 4 4 0 0).val 0 black ci) = _
  rw [sum_range_one, val_prod_gen exP_good]
  have hg : Net.geo exS 4 4 0 0 = ⟨4, 4, 4, 0, 0⟩ := by
    unfold Net.geo; rw [show exS.F = 16 from exB_F, side16]
  rw [hg, show exS.F = 16 from exB_F]
  have hall : (range 16).filter ((ProdConv.mk 4 4 4 0 0).InPatch 0) = range 16 := by decide
  rw [hall, prod_congr rfl fun o ho => exS_black o (mem_range.1 ho)]
  have : softmax 1 (fun _ => (0 : LogV)) 0 = 1 := by rw [softmax_eq]; simp
  rw [this]
  simp only [prod_range_succ, range_zero, prod_empty]
  norm_num

/-- The probability with which `sample()` draws the black image. -/
theorem exN_sample : (sampleConvPc exN none fun _ => none).prob black = ENNReal.ofReal ((3/4) ^ 4) := by
  have hleaf : ∀ ch' : ℕ → ℕ, (∀ f < 16, ch' f < 2) →
      (Circ.sample none 0 exLeaf ch' (fun _ => true) fun _ => none).prob black =
        ∏ f ∈ range 16, (fun f i => if f < 4 then (if i = 0 then (1 : ENNReal) else 0) else 1) f (ch' f) := by
    intro ch' hch'
    have h := exLeaf_ok
    have hmiss : ∀ v, (fun _ : Var => (none : Option ℝ)) v = none := fun _ => rfl
    have hc4 : ∀ f < Circ.F exLeaf, ch' f < Circ.C exLeaf := fun f hf => hch' f (by have : f < 4 := hf; omega)
    have h1 : ∀ f < 4, ∀ ci < 2, expL (featAt (den exLeaf) f (fun _ => none) 0 ci) = 1 := fun f hf ci hci =>
      expL_featAt_missing h.acc h.al (repIn_of_tensorR h.rep (.inl rfl)) hf hci fun _ _ => rfl
    have hlaw := Circ.sample_law h.acc h.al h.pos h.reps (Circ.live_missing h.acc h.al h.reps hmiss) ch' (fun _ => true) hc4
      (fun f hf _ => by rw [h1 f hf _ (hc4 f hf)]; exact one_ne_zero) (fun _ => none) black (fun _ _ => rfl)
      (by
        rintro v ⟨f, hf, -, hv⟩
        have hf4 : f < 4 := hf
        have hq : [(0 : Var), 1, 2, 3][f]? = some (f : ℤ) := by interval_cases f <;> rfl
        unfold exLeaf at hv
        rw [fscope_leaf hq, mem_singleton] at hv
        rw [hv]
        interval_cases f <;> simp [black])
      (by
        intro v hv
        by_contra hcon
        apply hv
        refine ⟨?_, rfl⟩
        have hmem : v ∈ [(0 : Var), 1, 2, 3] := by
          by_contra h'
          exact hcon (if_neg h')
        have key : ∀ f : ℕ, f < 4 → v = (f : ℤ) → v ∈ act exLeaf fun _ => true := by
          intro f hf hv
          have hq : [(0 : Var), 1, 2, 3][f]? = some (f : ℤ) := by interval_cases f <;> rfl
          exact ⟨f, hf, rfl, by unfold exLeaf; rw [fscope_leaf hq, mem_singleton]; exact hv⟩
        simp only [List.mem_cons, List.not_mem_nil, or_false] at hmem
        rcases hmem with h | h | h | h
        · exact key 0 (by decide) h
        · exact key 1 (by decide) h
        · exact key 2 (by decide) h
        · exact key 3 (by decide) h)
    have hnone : (Circ.sample none 0 exLeaf ch' (fun _ => true) fun _ => none).prob black =
        (Circ.sample (some fun _ => none) 0 exLeaf ch' (fun _ => true) fun _ => none).prob black := by
      unfold prob
      exact sample_none_E h.acc h.al h.pos h.reps hmiss ch' _ hc4 _ _
    rw [hnone, hlaw]
    unfold ratios ratio
    show ∏ f ∈ range 4, _ = _
    rw [show (16 : ℕ) = 4 + 12 from rfl, prod_range_add]
    rw [show (∏ x ∈ range 12, (fun f i => if f < 4 then (if i = 0 then (1 : ENNReal) else 0) else 1) (4 + x) (ch' (4 + x))) = 1
      from prod_eq_one fun x _ => by simp, mul_one]
    refine prod_congr rfl fun f hf => ?_
    have hf4 := mem_range.1 hf
    simp only [if_true, if_pos hf4]
    rw [h1 f hf4 _ (hch' f (by omega)), exLeaf_black f _ hf4, div_one]
    split_ifs <;> simp
  have hB : ∀ ch' : ℕ → ℕ, (∀ f < 16, ch' f < 2) → exB.sample none ch' (fun _ => true) =
      Circ.sample none 0 exLeaf ch' fun _ => true := by
    intro ch' hch'
    funext y
    have hg : Net.geo (.base exLeaf) 1 1 1 1 = ⟨2, 1, 1, 1, 1⟩ := by
      unfold Net.geo; rw [show (Net.base exLeaf).F = 4 from rfl, side4]
    have hr : ∀ {α : Type} (g : ℕ → α), (ProdConv.mk 2 1 1 1 1).route g = .ok g := by
      intro α g
      have : (ProdConv.mk 2 1 1 1 1).route g = .ok ((ProdConv.mk 2 1 1 1 1).upsample g) := by
        unfold ProdConv.route
        rw [if_neg (by decide)]
        simp only
        rw [if_pos (by decide), if_neg (by decide), if_neg (by decide)]
      rw [this]
      congr 1
      funext f
      unfold ProdConv.upsample
      congr 1
      show f / (4 * 1) / 1 * 4 + f % (4 * 1) / 1 = f
      omega
    show (if ! validCtx (Net.geo (.base exLeaf) 1 1 1 1).outF 2 1 ch' (fun _ => true) 0 then _ else _) = _
    rw [hg, validCtx_of (by decide) (by exact hch') (by decide)]
    simp only [hr, Bool.not_true, Bool.false_eq_true, if_false]
    rfl
  have hS : exS.sample none (fun _ => 0) (fun _ => true) = fun y =>
      (pickAll 2 (fun f ci => exW f ci) 16).bind fun ch' => exB.sample none ch' (fun _ => true) y := by
    have := Net.sample_sum' exS_good none (ch := fun _ => 0) (fun _ => true) (fun _ _ => Nat.one_pos)
    unfold exS at this ⊢
    rw [this, exB_F]
    rfl
  have hP : ∀ ch : ℕ → ℕ, ch 0 < 1 → (Net.prodConv exS 4 4 0 0).sample none ch (fun _ => true) =
      exS.sample none (fun _ => 0) fun _ => true := by
    intro ch h0
    funext y
    have hg : Net.geo exS 4 4 0 0 = ⟨4, 4, 4, 0, 0⟩ := by
      unfold Net.geo; rw [show exS.F = 16 from exB_F, side16]
    have hr : ∀ {α : Type} (g : ℕ → α), (ProdConv.mk 4 4 4 0 0).route g = .ok ((ProdConv.mk 4 4 4 0 0).upsample g) := by
      intro α g
      unfold ProdConv.route
      rw [if_neg (by decide)]
      simp only
      rw [if_neg (by decide), if_neg (by decide)]
    show (if ! validCtx (Net.geo exS 4 4 0 0).outF 1 1 ch (fun _ => true) 0 then _ else _) = _
    rw [hg, validCtx_of (by decide) (by
      intro f hf
      have : f < 1 := hf
      obtain rfl : f = 0 := by omega
      exact h0) (by decide)]
    simp only [hr, Bool.not_true, Bool.false_eq_true, if_false]
    -- only channels of the sixteen cells matter
    have e1 : ∀ f < 16, (ProdConv.mk 4 4 4 0 0).upsample ch f = 0 := by
      intro f hf
      unfold ProdConv.upsample
      show ch (f / (1 * 4) / 4 * 1 + f % (1 * 4) / 4) = 0
      have : f / (1 * 4) / 4 * 1 + f % (1 * 4) / 4 = 0 := by omega
      rw [this]; omega
    have e2 : (ProdConv.mk 4 4 4 0 0).upsample (fun _ => true) = fun _ => true := rfl
    rw [e2]
    have hF : exS.F = 16 := exB_F
    have s1 := Net.sample_sum' exS_good none (ch := (ProdConv.mk 4 4 4 0 0).upsample ch) (fun _ => true)
      (fun f hf => by rw [e1 f (by rw [← exB_F]; exact hf)]; exact Nat.one_pos)
    have s2 := Net.sample_sum' exS_good none (ch := fun _ => 0) (fun _ => true) (fun _ _ => Nat.one_pos)
    unfold exS at s1 s2 ⊢
    rw [s1, s2]
    rfl
  have hN : exN.sample none (fun _ => 0) (fun _ => true) = fun y =>
      (pickAll 1 (fun _ _ => 0) 1).bind fun ch' => (Net.prodConv exS 4 4 0 0).sample none ch' (fun _ => true) y := by
    have hg : exN.Good fun _ => Leaves.countBelow 2 := ⟨exP_good, by decide, fun f _ co _ => ⟨0, by decide, by simp⟩⟩
    have := Net.sample_sum' hg none (ch := fun _ => 0) (fun _ => true) (fun _ _ => Nat.one_pos)
    unfold exN at this ⊢
    have hF1 : (Net.prodConv exS 4 4 0 0).F = 1 := by
      show (side exS.F + 2 * 0) / 4 * ((side exS.F + 2 * 0) / 4) = 1
      rw [show exS.F = 16 from exB_F, side16]
    rw [this, hF1]
    rfl
  have hfin : (exS.sample none (fun _ => 0) (fun _ => true) fun _ => none).prob black = ENNReal.ofReal ((3/4) ^ 4) := by
    rw [hS]
    have : ((fun y => (pickAll 2 (fun f ci => exW f ci) 16).bind fun ch' => exB.sample none ch' (fun _ => true) y)
        fun _ => none).prob black = (pickAll 2 (fun f ci => exW f ci) 16).E fun ch' =>
          (exB.sample none ch' (fun _ => true) fun _ => none).prob black := by
      unfold prob; rw [E_bind]
    rw [this]
    have h2 : (pickAll 2 (fun f ci => exW f ci) 16).E (fun ch' =>
          (exB.sample none ch' (fun _ => true) fun _ => none).prob black) =
        (pickAll 2 (fun f ci => exW f ci) 16).E fun ch' =>
          ∏ f ∈ range 16, (fun f i => if f < 4 then (if i = 0 then (1 : ENNReal) else 0) else 1) f (ch' f) := by
      apply pickAll_congr
      intro ch' hch'
      rw [hB ch' fun f hf => (hch' f hf).1]
      exact hleaf ch' fun f hf => (hch' f hf).1
    rw [h2, pickAll_E (fun f i => if f < 4 then (if i = 0 then (1 : ENNReal) else 0) else 1)]
    have h3 : ∀ f ∈ range 16, (∑ i ∈ range 2, ENNReal.ofReal (softmax 2 ((fun f ci => exW f ci) f) i) *
        (fun f i => if f < 4 then (if i = 0 then (1 : ENNReal) else 0) else 1) f i) =
        ENNReal.ofReal (if f < 4 then 3/4 else 1) := by
      intro f _
      rw [sum_range_succ, sum_range_one]
      show ENNReal.ofReal (softmax 2 (fun i => exW f i) 0) * _ + ENNReal.ofReal (softmax 2 (fun i => exW f i) 1) * _ = _
      rw [exW_softmax f 0 (by decide), exW_softmax f 1 (by decide)]
      by_cases h4 : f < 4
      · have : ¬ (f = 5 ∨ f = 6 ∨ f = 9 ∨ f = 10) := by omega
        simp [h4, this]
      · simp only [h4, if_false, mul_one]
        by_cases h5 : f = 5 ∨ f = 6 ∨ f = 9 ∨ f = 10
        · simp only [h5, eq_self, one_ne_zero, if_true, eq_iff_iff, iff_false, not_true, if_false]
          rw [← ENNReal.ofReal_add (by norm_num) (by norm_num)]
          norm_num
        · simp only [h5, eq_iff_iff, iff_true, one_ne_zero, if_false, if_true]
          rw [← ENNReal.ofReal_add (by norm_num) (by norm_num)]
          norm_num
    rw [prod_congr rfl h3, ← ENNReal.ofReal_prod_of_nonneg fun f _ => by split_ifs <;> norm_num]
    congr 1
    simp only [prod_range_succ, range_zero, prod_empty]
    norm_num
  unfold sampleConvPc
  rw [hN]
  have : ((fun y => (pickAll 1 (fun _ _ => (0 : LogV)) 1).bind fun ch' =>
      (Net.prodConv exS 4 4 0 0).sample none ch' (fun _ => true) y) fun _ => none).prob black =
      (pickAll 1 (fun _ _ => (0 : LogV)) 1).E fun ch' =>
        ((Net.prodConv exS 4 4 0 0).sample none ch' (fun _ => true) fun _ => none).prob black := by
    unfold prob; rw [E_bind]
  rw [this]
  have h2 : (pickAll 1 (fun _ _ => (0 : LogV)) 1).E (fun ch' =>
      ((Net.prodConv exS 4 4 0 0).sample none ch' (fun _ => true) fun _ => none).prob black) =
      (pickAll 1 (fun _ _ => (0 : LogV)) 1).E fun ch' =>
        ∏ f ∈ range 1, (fun _ _ => ENNReal.ofReal ((3/4) ^ 4)) f (ch' f) := by
    apply pickAll_congr
    intro ch' hch'
    rw [hP ch' (hch' 0 (by decide)).1, hfin, prod_range_one]
  rw [h2, pickAll_E (fun _ _ => ENNReal.ofReal ((3/4) ^ 4)), prod_range_one, sum_range_one]
  have : softmax 1 (fun _ => (0 : LogV)) 0 = 1 := by rw [softmax_eq]; simp
  rw [this]
  simp

/-- C61 is FALSE for sampling with padding: this ConvPc (2 x 2 image, kernel 4, depth 1) meets every hypothesis of the density
theorem, but `sample()` draws the black image with probability (3/4)^4 although `exp(log_likelihood)` says (1/4)^4:
the pixels receive the channels of padding cells (`C43_padding_misroutes`). -/
theorem C61_sampling_padded_wrong : ∃ leaf W w0 n x, SampleImage (fun _ => Leaves.countBelow 2) leaf 2 ∧ Finite W w0 ∧
    Even (missing 2 (4 ^ 1)) ∧ build leaf 2 2 1 1 4 1 false W w0 = .ok n ∧ Completes leaf (fun _ => none) x ∧
    (sampleConvPc n none fun _ => none).prob x = ENNReal.ofReal ((3/4) ^ 4) ∧ expL (n.val 0 x 0) = (1/4) ^ 4 := by
  refine ⟨exLeaf, fun _ f ci _ _ => exW f ci, fun _ _ _ => 0, exN, black, exLeaf_ok,
    ⟨fun _ _ _ _ _ => exW_ne _ _, fun _ _ _ => by simp⟩, by decide, exN_build, ⟨?_, ?_, ?_⟩, exN_sample, exN_black⟩
  · intro v hv
    have : v ∈ [(0 : Var), 1, 2, 3] := hv
    unfold black; rw [if_pos this]; simp
  · intro v t h; cases h
  · intro v hv
    have : v ∉ [(0 : Var), 1, 2, 3] := hv
    unfold black; rw [if_neg this]

end Verif.Conv

import Verif.JEncLaw

/-!
C85, theorems: densities, encoding and the prior of `ConvPcJointEncoder`.
-/

open MeasureTheory

namespace Verif.JEnc

open Finset Verif.Circ Verif.Conv Verif.Apc Verif.Simple
open Verif.Prog hiding bind

variable {μ : Var → Measure ℝ} {a : Args} {H : ℕ} {xf zf : Factory} {xl zl : ℕ → Circ} {p : List ℕ} {d : ℕ → Draws} {mix : ℕ → LogV}
  {E : Enc}

/-- Every slice can be sampled at `e`. -/
def Alive (E : Enc) (e : Row) : Prop :=
  ∀ r < E.slices.length, (E.slice r).Samp ∧ (E.slice r).Live e ∧ (E.slice r).val 0 e 0 ≠ ⊥

/-- `_sample` from the root, as a function of the data. -/
noncomputable def sampleAt (E : Enc) (e : Row) (y : Row) : Prog Row :=
  if E.slices.length ≤ 1 then Enc.sliceSample (some e) (E.slice 0) y
  else .choose E.slices.length (logSoftmax E.slices.length fun r => E.mix r + (E.slice r).val 0 e 0)
    fun r => Enc.sliceSample (some e) (E.slice r) y

theorem slice_spec (h : Ok μ E) {r : ℕ} (hr : r < E.slices.length) (hs : (E.slice r).Samp) {ev : Option Row} {e : Row}
    (hev : Net.Ev ev e) (hl : (E.slice r).Live e) (hv : (E.slice r).val 0 e 0 ≠ ⊥) :
    Rat.Spec (Enc.sliceSample ev (E.slice r)) (↑(cols E) : Set Var) e
      fun z => ENNReal.ofReal (expL ((E.slice r).val 0 z 0) / expL ((E.slice r).val 0 e 0)) := by
  have hch : ∀ f < (E.slice r).F, (fun _ : ℕ => (0 : ℕ)) f < (E.slice r).C := fun _ _ => by rw [h.ch r hr]; exact Nat.one_pos
  have hact : actU (E.slice r).F (E.slice r).fscope (fun _ => true) = (↑(cols E) : Set Var) := by
    ext v
    rw [← fscope_cols h hr, mem_coe]
    constructor
    · rintro ⟨f, hf, -, hv⟩
      rw [h.one r hr] at hf
      obtain rfl : f = 0 := by omega
      exact hv
    · intro hv
      exact ⟨0, by rw [h.one r hr]; exact Nat.one_pos, rfl, hv⟩
  obtain ⟨f1, f2⟩ := Net.sample_frames (h.good r hr) hs hev hl (fun _ => 0) (fun _ => true) hch
  have f3 := Net.sample_law (h.good r hr) hs hev hl (fun _ => 0) (fun _ => true) hch fun f hf _ => by
    rw [h.one r hr] at hf
    obtain rfl : f = 0 := by omega
    rw [Ne, expL_eq_zero_iff]; exact hv
  rw [hact] at f2 f3
  refine ⟨f1, f2, law_congr rfl (fun z => ?_) f3⟩
  unfold ratiosU
  rw [h.one r hr, prod_range_one, if_pos rfl]

theorem joint_spec (h : Ok μ E) {e : Row} (ha : Alive E e) :
    Rat.Spec (sampleAt E e) (↑(cols E) : Set Var) e fun z => ENNReal.ofReal (expL (E.den z) / expL (E.den e)) := by
  by_cases hR : E.slices.length ≤ 1
  · have := slice_spec h h.ne (ha 0 h.ne).1 (.inl rfl) (ha 0 h.ne).2.1 (ha 0 h.ne).2.2
    unfold sampleAt Enc.den
    simp only [if_pos hR]
    exact this
  · have hl : ∃ i < E.slices.length, E.mix i + (E.slice i).val 0 e 0 ≠ ⊥ :=
      ⟨0, h.ne, add_ne_bot (h.mix 0) (ha 0 h.ne).2.2⟩
    have hn : ∃ i < E.slices.length, (logSoftmax E.slices.length fun r => E.mix r + (E.slice r).val 0 e 0) i ≠ ⊥ := by
      obtain ⟨i, hi, hne⟩ := hl
      refine ⟨i, hi, ?_⟩
      rw [Ne, ← expL_eq_zero_iff, expL_logSoftmax_eq_softmax]
      exact (softmax_pos hi hne).ne'
    have hc := Rat.choose_spec (l := logSoftmax E.slices.length fun r => E.mix r + (E.slice r).val 0 e 0) hn fun r hr =>
      slice_spec h hr (ha r hr).1 (.inl rfl) (ha r hr).2.1 (ha r hr).2.2
    unfold sampleAt
    simp only [if_neg hR]
    refine hc.congr ⟨rfl, fun z => ?_⟩
    have hpos : ∀ i ∈ range E.slices.length, 0 ≤ softmax E.slices.length
        (logSoftmax E.slices.length fun r => E.mix r + (E.slice r).val 0 e 0) i *
          (expL ((E.slice i).val 0 z 0) / expL ((E.slice i).val 0 e 0)) :=
      fun i _ => mul_nonneg (softmax_nonneg _ _ _) (div_nonneg (expL_nonneg _) (expL_nonneg _))
    rw [expL_den h hR z, expL_den h hR e, sum_div, ENNReal.ofReal_sum_of_nonneg
      fun i _ => div_nonneg (mul_nonneg (softmax_nonneg _ _ _) (expL_nonneg _))
        (sum_nonneg fun j _ => mul_nonneg (softmax_nonneg _ _ _) (expL_nonneg _))]
    refine sum_congr rfl fun i hi => ?_
    rw [← ENNReal.ofReal_mul (softmax_nonneg _ _ _), softmax_posterior hl]
    have hne : expL ((E.slice i).val 0 e 0) ≠ 0 := by
      rw [Ne, expL_eq_zero_iff]; exact (ha i (mem_range.1 hi)).2.2
    congr 1
    rw [div_mul_div_comm, mul_comm _ (expL ((E.slice i).val 0 z 0)), mul_comm (softmax _ _ _) (expL ((E.slice i).val 0 e 0)), ]
    have hS : ∑ j ∈ range E.slices.length, softmax E.slices.length E.mix j * expL ((E.slice j).val 0 e 0) ≠ 0 :=
      mean_ne_zero ⟨0, h.ne, h.mix 0⟩ fun j hj => (ha j hj).2.2
    field_simp

/-- Completing a row: no exception, exactly the missing columns are filled, each completion with its conditional probability. -/
theorem complete_law (h : Ok μ E) {e : Row} (ha : Alive E e) : ¬ Fails (E.sampleJoint e) ∧
    (∀ x, Outcome (E.sampleJoint e) x → Fills E e x) ∧
    ∀ x, Fills E e x → (E.sampleJoint e).prob x = ENNReal.ofReal (expL (E.den x) / expL (E.den e)) := by
  have hS := joint_spec h ha
  have he : E.sampleJoint e = sampleAt E e e := rfl
  rw [he]
  refine ⟨hS.noFail e, fun x hx => ?_, fun x hx => ?_⟩
  · obtain ⟨a1, a2⟩ := hS.frames e x hx
    refine ⟨fun v hv => a1 v hv, fun v t hv => ?_, fun v hv => a2 v fun h' => hv h'.1⟩
    rw [a2 v fun h' => by rw [hv] at h'; exact absurd h'.2 (by simp), hv]
  · refine hS.law e x (fun _ _ => rfl) (fun v hv => hx.1 v hv) fun v hv => ?_
    by_cases hs : v ∈ cols E
    · rcases hev' : e v with _ | t
      · exact absurd ⟨hs, hev'⟩ hv
      · exact hx.2.1 v t hev'
    · exact hx.2.2 v hs

open Classical in
/-- The law of any block of the completed row, at every temperature. -/
theorem block_law (h : Ok μ E) {tau : ℝ} (ht : 0 < tau) {e : Row} (ha : Alive E e) (g : Row → ℕ → Option ℝ) (w : ℕ → Option ℝ) :
    gumbelProb tau (Prog.bind (E.sampleJoint e) fun y => .ret (g y)) w =
      ∑' y : Row, if Fills E e y ∧ g y = w then ENNReal.ofReal (expL (E.den y) / expL (E.den e)) else 0 := by
  obtain ⟨nf, out, hlaw⟩ := complete_law h ha
  unfold gumbelProb
  rw [C73_program ht _ (not_fails_bind nf fun _ _ hc => by cases hc), E_bind, E_tsum]
  refine tsum_congr fun y => ?_
  rw [Prog.E]
  by_cases hy : Fills E e y
  · rw [hlaw y hy]
    by_cases hg : g y = w
    · rw [if_pos hg, if_pos ⟨hy, hg⟩, mul_one]
    · rw [if_neg hg, if_neg (fun hc => hg hc.2), mul_zero]
  · rw [prob_eq_zero (s := fun _ => E.sampleJoint e) (y := e) (fun hc => hy (out y hc)), zero_mul,
      if_neg (fun hc => hy hc.1)]

/-- Possible leaves make every slice alive. -/
theorem alive_of (h : Ok μ E) (hs : ∀ r < E.slices.length, (E.slice r).Samp) {e : Row}
    (hb : ∀ r < E.slices.length, ∀ c ∈ bases (E.slice r), Possible e c) : Alive E e := by
  intro r hr
  obtain ⟨h1, h2⟩ := live_of (h.good r hr) (hs r hr) (hb r hr)
  exact ⟨hs r hr, h1, h2 0 (by rw [h.one r hr]; exact Nat.one_pos) 0 (by rw [h.ch r hr]; exact Nat.one_pos)⟩

/-! ### Specification -/

/-- An `x` tensor of `B` images: rank 2, or rank 4 of the image shape. -/
def XShaped (E : Enc) (B : ℕ) (x : Batch) : Prop := x.dims = [B, E.nx] ∨ x.dims = [B, E.inC, E.height, E.width]

/-- What sampling needs beyond `Valid`: leaves that can be sampled, kernels that tile the image without padding, and - when the
latents are permuted - a latent width that cannot be reduced to exactly the fusion width. -/
structure Samplable (a : Args) (H : ℕ) (xl zl : ℕ → Circ) : Prop where
  x : ∀ r < a.reps.toNat, PosCh (xl r) ∧ RepS 0 (xl r)
  z : ∀ r < a.reps.toNat, PosCh (zl r) ∧ RepS 0 (zl r)
  tiles : a.k.toNat ^ (a.depth.toNat - 1) ∣ H
  perm : a.perm = true → ∀ j, a.nz.toNat ≠ 2 ^ j * target a

/-- No leaf component has density zero on row `e`. -/
def PossibleRow (a : Args) (xl zl : ℕ → Circ) (e : Row) : Prop := ∀ r < a.reps.toNat, Possible e (xl r) ∧ Possible e (zl r)

/-! ### Columns -/

theorem mem_cols' {v : ℤ} : v ∈ cols E ↔ 0 ≤ v ∧ v < (E.nx + E.nz : ℕ) := by
  unfold cols
  rw [mem_union, List.mem_toFinset, List.mem_toFinset]
  exact mem_cols

theorem completes_z {x : ℕ → Option ℝ} {z : ℕ → ℝ} (hx : ∀ i < E.nx, x i ≠ none) (y : Row) :
    Fills E (colRow E.nx E.nz x nans) y ∧ zPart E.nx E.nz y = full E.nz z ↔ y = colRow E.nx E.nz x (full E.nz z) := by
  constructor
  · rintro ⟨⟨c1, c2, c3⟩, hz⟩
    funext v
    by_cases hv : 0 ≤ v ∧ v < ((E.nx + E.nz : ℕ) : ℤ)
    · rcases cols_cases hv with ⟨i, hi, rfl⟩ | ⟨j, hj, rfl⟩
      · rw [colRow_x _ _ _ _ hi]
        obtain ⟨t, ht⟩ := Option.ne_none_iff_exists'.1 (hx i hi)
        rw [ht]
        exact c2 _ t (by rw [colRow_x _ _ _ _ hi, ht])
      · rw [colRow_z _ _ _ _ hj, ← hz]
        simp [zPart, hj]
    · rw [colRow_out _ _ _ _ hv, c3 v (by rw [mem_cols']; exact hv), colRow_out _ _ _ _ hv]
  · rintro rfl
    refine ⟨⟨fun v hv => ?_, fun v t hv => ?_, fun v hv => ?_⟩, ?_⟩
    · rw [mem_cols'] at hv
      rcases cols_cases hv with ⟨i, hi, rfl⟩ | ⟨j, hj, rfl⟩
      · rw [colRow_x _ _ _ _ hi]; exact hx i hi
      · rw [colRow_z _ _ _ _ hj]; simp [full, hj]
    · by_cases hv' : 0 ≤ v ∧ v < ((E.nx + E.nz : ℕ) : ℤ)
      · rcases cols_cases hv' with ⟨i, hi, rfl⟩ | ⟨j, hj, rfl⟩
        · rw [colRow_x _ _ _ _ hi] at hv ⊢; exact hv
        · rw [colRow_z _ _ _ _ hj] at hv; cases hv
      · rw [colRow_out _ _ _ _ hv'] at hv; cases hv
    · rw [mem_cols'] at hv
      rw [colRow_out _ _ _ _ hv, colRow_out _ _ _ _ hv]
    · funext j
      unfold zPart
      by_cases hj : j < E.nz
      · rw [if_pos hj, colRow_z _ _ _ _ hj]
      · simp [full, hj]

theorem completes_x {x z : ℕ → Option ℝ} {w : ℕ → ℝ} (hz : ∀ j < E.nz, z j ≠ none) (hw : ∀ i < E.nx, ∀ t, x i = some t → w i = t)
    (y : Row) :
    Fills E (colRow E.nx E.nz x z) y ∧ xPart E.nx y = full E.nx w ↔ y = colRow E.nx E.nz (full E.nx w) z := by
  constructor
  · rintro ⟨⟨c1, c2, c3⟩, hx⟩
    funext v
    by_cases hv : 0 ≤ v ∧ v < ((E.nx + E.nz : ℕ) : ℤ)
    · rcases cols_cases hv with ⟨i, hi, rfl⟩ | ⟨j, hj, rfl⟩
      · rw [colRow_x _ _ _ _ hi, ← hx]
        simp [xPart, hi]
      · rw [colRow_z _ _ _ _ hj]
        obtain ⟨t, ht⟩ := Option.ne_none_iff_exists'.1 (hz j hj)
        rw [ht]
        exact c2 _ t (by rw [colRow_z _ _ _ _ hj, ht])
    · rw [colRow_out _ _ _ _ hv, c3 v (by rw [mem_cols']; exact hv), colRow_out _ _ _ _ hv]
  · rintro rfl
    refine ⟨⟨fun v hv => ?_, fun v t hv => ?_, fun v hv => ?_⟩, ?_⟩
    · rw [mem_cols'] at hv
      rcases cols_cases hv with ⟨i, hi, rfl⟩ | ⟨j, hj, rfl⟩
      · rw [colRow_x _ _ _ _ hi]; simp [full, hi]
      · rw [colRow_z _ _ _ _ hj]; exact hz j hj
    · by_cases hv' : 0 ≤ v ∧ v < ((E.nx + E.nz : ℕ) : ℤ)
      · rcases cols_cases hv' with ⟨i, hi, rfl⟩ | ⟨j, hj, rfl⟩
        · rw [colRow_x _ _ _ _ hi] at hv ⊢
          simp [full, hi, hw i hi t hv]
        · rw [colRow_z _ _ _ _ hj] at hv ⊢; exact hv
      · rw [colRow_out _ _ _ _ hv'] at hv; cases hv
    · rw [mem_cols'] at hv
      rw [colRow_out _ _ _ _ hv, colRow_out _ _ _ _ hv]
    · funext i
      unfold xPart
      by_cases hi : i < E.nx
      · rw [if_pos hi, colRow_x _ _ _ _ hi]
      · simp [full, hi]

theorem flattenX_ok (h1 : E.inC * E.height * E.width = E.nx) {B : ℕ} {x : Batch} (hx : XShaped E B x) :
    E.flattenX x = .ok ⟨B, x.at2⟩ := by
  unfold Enc.flattenX
  rcases hx with hx | hx <;> rw [hx] <;> simp [h1]

theorem logLiks_ok (h : Ok μ E) (n : ℕ) (e : ℕ → Row) : E.logLiks n e = .ok ((List.range n).map fun b => E.den (e b)) :=
  mapM_range _ fun b _ => logLik_ok h (e b)

theorem den_loc (h : Ok μ E) {x y : Row} (hxy : ∀ v ∈ cols E, x v = y v) : E.den x = E.den y :=
  (den_fam h).loc 0 Nat.one_pos 0 Nat.one_pos x y hxy

/-! ### Theorems -/

/-- **The constructor** succeeds for valid arguments, over `H * H` pixels and `latent_dim` latents. -/
theorem C85_constructor (hv : Valid a H) (hm : Made μ a H xf zf xl zl) (hd : Drawn a p d mix) :
    ∃ E, build a xf zf p d mix = .ok E ∧ E.nx = H * H ∧ E.nz = a.nz.toNat ∧ E.inC = 1 ∧ E.height = H ∧ E.width = H ∧
      E.slices.length = a.reps.toNat := by
  obtain ⟨E, h1, -, h2, h3, h4, h5, h6, h7, -⟩ := build_ok hv hm hd
  exact ⟨E, h1, h2, h3, h4, h5, h6, h7⟩

/-- **Densities.** There is one function `p` such that, for all tensors of the right shape, `joint_log_likelihood(x, z)` returns
`log p(x, z)` for every row and `log_likelihood_x(x)` returns `log p(x, NaN)`; `exp p` has total integral one over all columns,
and `exp log p(x)` is the integral over the latent columns - also when entries of `x` are NaN, which are then integrated out too
(`S`: the missing columns). -/
theorem C85_densities [∀ v, SigmaFinite (μ v)] (hv : Valid a H) (hm : Made μ a H xf zf xl zl) (hd : Drawn a p d mix)
    (hE : build a xf zf p d mix = .ok E) :
    ∃ p : (ℕ → Option ℝ) → (ℕ → Option ℝ) → LogV,
      (∀ (B : ℕ) (x z : Batch), XShaped E B x → Shaped E.nz B z →
        E.jointLL x z = .ok ((List.range B).map fun b => p (x.at2 b) (z.at2 b))) ∧
      (∀ (B : ℕ) (x : Batch), XShaped E B x → E.marginalLL x = .ok ((List.range B).map fun b => p (x.at2 b) nans)) ∧
      (∀ S ⊆ (xCols E.nx).toFinset, ∀ y : Var → ℝ,
        (∫⋯∫⁻_(S ∪ (zCols E.nx E.nz).toFinset), (fun y => ENNReal.ofReal (expL (p (xs E.nx y) (zs E.nx E.nz y)))) ∂μ) y =
          ENNReal.ofReal (expL (p (fun i => if (i : ℤ) ∈ S then none else xs E.nx y i) nans))) ∧
      ∀ y : Var → ℝ, (∫⋯∫⁻_((xCols E.nx).toFinset ∪ (zCols E.nx E.nz).toFinset),
        (fun y => ENNReal.ofReal (expL (p (xs E.nx y) (zs E.nx E.nz y)))) ∂μ) y = 1 := by
  obtain ⟨E', h1, hok, h2, h3, h4, h5, h6, -⟩ := build_ok hv hm hd
  rw [hE] at h1
  cases h1
  have himg : E.inC * E.height * E.width = E.nx := by rw [h2, h4, h5, h6, one_mul]
  have hfam := den_fam hok
  have hfull : ∀ y : Var → ℝ, E.den (colRow E.nx E.nz (xs E.nx y) (zs E.nx E.nz y)) = E.den fun v => some (y v) := by
    intro y
    refine den_loc hok fun v hv => ?_
    rw [mem_cols'] at hv
    rcases cols_cases hv with ⟨i, hi, rfl⟩ | ⟨j, hj, rfl⟩
    · rw [colRow_x _ _ _ _ hi]; simp [xs, hi]
    · rw [colRow_z _ _ _ _ hj]; simp [zs, hj]
  have hzx : ∀ i < E.nx, ((i : ℕ) : ℤ) ∉ zCols E.nx E.nz := by
    intro i hi hc
    unfold zCols at hc
    simp only [List.mem_map, List.mem_range] at hc
    obtain ⟨j, -, hj⟩ := hc
    push_cast at hj
    omega
  have hzz : ∀ j < E.nz, ((E.nx + j : ℕ) : ℤ) ∈ zCols E.nx E.nz := fun j hj => by
    unfold zCols
    simp only [List.mem_map, List.mem_range]
    exact ⟨j, hj, rfl⟩
  refine ⟨fun x z => E.den (colRow E.nx E.nz x z), fun B x z sx sz => ?_, fun B x sx => ?_, fun S hS y => ?_, fun y => ?_⟩
  · unfold Enc.jointLL buildEvidence
    rw [flattenX_ok himg sx, flatten_ok sz]
    simp only [ne_eq, not_true_eq_false, if_false]
    exact logLiks_ok hok _ _
  · unfold Enc.marginalLL buildEvidence
    rw [flattenX_ok himg sx]
    exact logLiks_ok hok _ _
  · simp only [hfull]
    rw [hfam.marginal (f := 0) (ch := 0) Nat.one_pos Nat.one_pos _ (union_subset_union hS (Subset.refl _)) y]
    congr 2
    refine den_loc hok fun v hv => ?_
    rw [mem_cols'] at hv
    unfold maskRow
    rcases cols_cases hv with ⟨i, hi, rfl⟩ | ⟨j, hj, rfl⟩
    · rw [colRow_x _ _ _ _ hi]
      by_cases hiS : (i : ℤ) ∈ S
      · rw [if_pos (mem_union_left _ hiS), if_pos hiS]
      · rw [if_neg (by rw [mem_union, List.mem_toFinset]; exact fun hc => hc.elim hiS (hzx i hi)), if_neg hiS]
        simp [xs, hi]
    · rw [colRow_z _ _ _ _ hj, if_pos (mem_union_right _ (by rw [List.mem_toFinset]; exact hzz j hj))]
      rfl
  · simp only [hfull]
    change (∫⋯∫⁻_cols E, _ ∂μ) y = 1
    rw [hfam.marginal (f := 0) (ch := 0) Nat.one_pos Nat.one_pos _ (Subset.refl (cols E)) y]
    rw [hfam.miss 0 Nat.one_pos 0 Nat.one_pos (maskRow (cols E) y) fun v hv => if_pos hv, ENNReal.ofReal_one]

theorem built_alive (hv : Valid a H) (hm : Made μ a H xf zf xl zl) (hd : Drawn a p d mix) (hs : Samplable a H xl zl)
    (hE : build a xf zf p d mix = .ok E) : Ok μ E ∧ E.inC * E.height * E.width = E.nx ∧ ∀ e, PossibleRow a xl zl e → Alive E e := by
  obtain ⟨E', h1, hok, h2, h3, h4, h5, h6, h7, h8, h9⟩ := build_ok hv hm hd
  rw [hE] at h1
  cases h1
  refine ⟨hok, by rw [h2, h4, h5, h6, one_mul], fun e he => alive_of hok (fun r hr => ?_) fun r hr c hc => ?_⟩
  · have hr' := h7 ▸ hr
    exact h9 r hr (hs.x r hr').1 (hs.x r hr').2 (hs.z r hr').1 (hs.z r hr').2 hs.tiles hs.perm
  · have hr' := h7 ▸ hr
    rcases slice_bases (h8 r hr) c hc with rfl | rfl
    · exact (he r hr').1
    · exact (he r hr').2

open Classical in
/-- **encode samples the posterior** (discrete leaves, at every temperature): row `b` of the result is `z` with probability
`p(x, z) / p(x)` if row `b` of `x` is complete; if it has NaNs, these are summed out. -/
theorem C85_encode_partial (hv : Valid a H) (hm : Made μ a H xf zf xl zl) (hd : Drawn a p d mix) (hs : Samplable a H xl zl)
    (hE : build a xf zf p d mix = .ok E) {tau : ℝ} (ht : 0 < tau) {B : ℕ} {x : Batch} (hx : XShaped E B x) :
    ∃ prog, E.encode x = .ok (B, prog) ∧ ∀ b < B, PossibleRow a xl zl (colRow E.nx E.nz (x.at2 b) nans) →
      (∀ w, gumbelProb tau (prog b) w = ∑' y : Row, if Fills E (colRow E.nx E.nz (x.at2 b) nans) y ∧ zPart E.nx E.nz y = w then
        ENNReal.ofReal (expL (E.den y) / expL (E.den (colRow E.nx E.nz (x.at2 b) nans))) else 0) ∧
      ((∀ i < E.nx, x.at2 b i ≠ none) → ∀ z : ℕ → ℝ, gumbelProb tau (prog b) (full E.nz z) =
        ENNReal.ofReal (expL (E.den (colRow E.nx E.nz (x.at2 b) (full E.nz z))) / expL (E.den (colRow E.nx E.nz (x.at2 b) nans)))) := by
  obtain ⟨hok, himg, hal⟩ := built_alive hv hm hd hs hE
  refine ⟨fun b => Prog.bind (E.sampleJoint (colRow E.nx E.nz (x.at2 b) nans)) fun y => .ret (zPart E.nx E.nz y), ?_, ?_⟩
  · unfold Enc.encode buildEvidence
    rw [flattenX_ok himg hx]
    rfl
  · intro b _ hp
    have hb := block_law hok ht (hal _ hp) (zPart E.nx E.nz)
    refine ⟨hb, fun hc z => ?_⟩
    rw [hb]
    have e := fun y => completes_z (E := E) (z := z) hc y
    simp only [e]
    rw [tsum_eq_single (colRow E.nx E.nz (x.at2 b) (full E.nz z)) fun y hy => if_neg hy, if_pos rfl]

theorem flattenXOpt_ok (h1 : E.inC * E.height * E.width = E.nx) {B : ℕ} {x : Option Batch} (hx : ∀ t, x = some t → XShaped E B t) :
    E.flattenXOpt x = .ok (x.map fun t => ⟨B, t.at2⟩) := by
  cases x with
  | none => rfl
  | some t =>
    simp only [Enc.flattenXOpt, flattenX_ok h1 (hx t rfl), Option.map_some]

/-- **decode samples `x` given `z`** and whatever entries of `x` are passed as evidence: the completion `w` of row `b` is returned
with probability `p(w, z) / p(x, z)`, in the shape of `x` (image shape when `x` is absent). -/
theorem C85_decode_partial (hv : Valid a H) (hm : Made μ a H xf zf xl zl) (hd : Drawn a p d mix) (hs : Samplable a H xl zl)
    (hE : build a xf zf p d mix = .ok E) {tau : ℝ} (ht : 0 < tau) {B : ℕ} {z : Batch} (hz : Shaped E.nz B z)
    {x : Option Batch} (hx : ∀ t, x = some t → XShaped E B t) :
    ∃ dims prog, E.decode z x false = .ok (dims, prog) ∧
      ((∀ t, x = some t → dims = t.dims) ∧ (x = none → dims = [B, 1, H, H])) ∧
      ∀ b < B, (∀ j < E.nz, z.at2 b j ≠ none) → PossibleRow a xl zl (colRow E.nx E.nz (given x b) (z.at2 b)) →
      ∀ w : ℕ → ℝ, (∀ i < E.nx, ∀ t, given x b i = some t → w i = t) → gumbelProb tau (prog b) (full E.nx w) =
        ENNReal.ofReal (expL (E.den (colRow E.nx E.nz (full E.nx w) (z.at2 b))) /
          expL (E.den (colRow E.nx E.nz (given x b) (z.at2 b)))) := by
  classical
  obtain ⟨hok, himg, hal⟩ := built_alive hv hm hd hs hE
  obtain ⟨E', h1, -, -, -, h4, h5, h6, -⟩ := build_ok hv hm hd
  rw [hE] at h1
  cases h1
  have hdec : ∃ prog, E.decode z x false = .ok (E.likeDims B x, prog) ∧ ∀ b, prog b =
      Prog.bind (E.sampleJoint (colRow E.nx E.nz (given x b) (z.at2 b))) fun y => .ret (xPart E.nx y) := by
    unfold Enc.decode
    rw [flatten_ok hz, flattenXOpt_ok himg hx]
    cases x with
    | none => exact ⟨_, rfl, fun b => rfl⟩
    | some t =>
      refine ⟨_, ?_, fun b => rfl⟩
      simp only [Option.map_some, buildEvidence, ne_eq, not_true_eq_false, if_false]
      rfl
  obtain ⟨prog, hp, hprog⟩ := hdec
  refine ⟨_, prog, hp, ⟨fun t htx => ?_, fun hn => ?_⟩, fun b _ hzb hpos w hw => ?_⟩
  · subst htx
    unfold Enc.likeDims
    rcases hx t rfl with h | h <;> simp [h]
  · subst hn
    simp [Enc.likeDims, h4, h5, h6]
  · rw [hprog b, block_law hok ht (hal _ hpos)]
    have e := fun y => completes_x (E := E) hzb hw y
    simp only [e]
    rw [tsum_eq_single (colRow E.nx E.nz (full E.nx w) (z.at2 b)) fun y hy => if_neg hy, if_pos rfl]

open Classical in
/-- **sample_prior_z** draws `z` with probability `p(z)`, the sum of `p(x, z)` over all `x`; InvalidParameterError unless
`num_samples` is positive. -/
theorem C85_prior_partial (hv : Valid a H) (hm : Made μ a H xf zf xl zl) (hd : Drawn a p d mix) (hs : Samplable a H xl zl)
    (hE : build a xf zf p d mix = .ok E) {tau : ℝ} (ht : 0 < tau) (n : ℤ) :
    (n ≤ 0 → E.prior n = .error .invalidParameter) ∧
    (0 < n → ∃ prog, E.prior n = .ok (n.toNat, prog) ∧ ∀ b < n.toNat, ∀ z : ℕ → ℝ, gumbelProb tau (prog b) (full E.nz z) =
      ∑' y : Row, if Fills E (fun _ => none) y ∧ zPart E.nx E.nz y = full E.nz z then ENNReal.ofReal (expL (E.den y)) else 0) := by
  obtain ⟨hok, himg, -⟩ := built_alive hv hm hd hs hE
  obtain ⟨E', h1, -, -, -, -, -, -, h7, -, h9⟩ := build_ok hv hm hd
  rw [hE] at h1
  cases h1
  have hrow : colRow E.nx E.nz (fun _ => none) (fun _ => none) = fun _ => none := by
    funext v
    unfold colRow
    split_ifs <;> rfl
  refine ⟨fun hn => by unfold Enc.prior; rw [if_pos hn], fun hn => ?_⟩
  refine ⟨fun b => Prog.bind (E.sampleJoint fun _ => none) fun y => .ret (zPart E.nx E.nz y), ?_, fun b _ z => ?_⟩
  · unfold Enc.prior buildEvidence
    rw [if_neg (by omega)]
    simp only [hrow]
  · have hone : expL (E.den fun _ => none) = 1 := (den_fam hok).miss 0 Nat.one_pos 0 Nat.one_pos _ fun _ _ => rfl
    have hal : Alive E fun _ => none := by
      intro r hr
      have hr' := h7 ▸ hr
      have hsr := h9 r hr (hs.x r hr').1 (hs.x r hr').2 (hs.z r hr').1 (hs.z r hr').2 hs.tiles hs.perm
      refine ⟨hsr, Net.live_missing (hok.good r hr) hsr fun _ => rfl, ?_⟩
      rw [Ne, ← expL_eq_zero_iff, (slice_fam hok hr).miss 0 Nat.one_pos 0 Nat.one_pos _ fun _ _ => rfl]
      exact one_ne_zero
    rw [block_law hok ht hal]
    simp only [hone, div_one]

end Verif.JEnc

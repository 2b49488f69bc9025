import Verif.Image
import Verif.MarginalizeProps
import Verif.SamplingProps
/-
C83: `ImageWrapper` is the wrapped circuit on images.
-/
namespace Verif.Image
open Circ MeasureTheory

/-- The variable of pixel `(c, h, w)` of images with `H` rows and `D` columns: row-major order, channels first. -/
def pixVar (H D c h w : ℕ) : ℕ := (c * H + h) * D + w

theorem pixelOf_pixVar {H D c h w : ℕ} (hh : h < H) (hw : w < D) : pixelOf H D (pixVar H D c h w) = [c, h, w] := by
  have e : pixVar H D c h w = c * (H * D) + (h * D + w) := by unfold pixVar; ring
  have hlt : h * D + w < H * D := by nlinarith
  have hpos : 0 < H * D := by omega
  have hD : 0 < D := by omega
  have e1 : pixVar H D c h w / (H * D) = c := by
    rw [e, Nat.add_comm, Nat.add_mul_div_right _ _ hpos, Nat.div_eq_of_lt hlt, Nat.zero_add]
  have e2 : pixVar H D c h w % (H * D) = h * D + w := by
    rw [e, Nat.add_comm, Nat.add_mul_mod_self_right, Nat.mod_eq_of_lt hlt]
  unfold pixelOf
  rw [e1, e2, Nat.add_comm (h * D) w, Nat.add_mul_div_right _ _ hD, Nat.div_eq_of_lt hw, Nat.zero_add,
    Nat.add_mul_mod_self_right, Nat.mod_eq_of_lt hw]

/-- Every column below `C H D` is the variable of exactly one pixel. -/
theorem pixel_exists {C H D j : ℕ} (hj : j < C * H * D) : ∃ c h w, c < C ∧ h < H ∧ w < D ∧ j = pixVar H D c h w := by
  have hpos : 0 < H * D := by
    rcases Nat.eq_zero_or_pos (H * D) with e | e
    · rw [Nat.mul_assoc, e] at hj; omega
    · exact e
  have hD : 0 < D := Nat.pos_of_mul_pos_left hpos
  refine ⟨j / (H * D), j % (H * D) / D, j % (H * D) % D, ?_, ?_, Nat.mod_lt _ hD, ?_⟩
  · rw [Nat.div_lt_iff_lt_mul hpos, ← Nat.mul_assoc]; exact hj
  · rw [Nat.div_lt_iff_lt_mul hD]; exact Nat.mod_lt _ hpos
  · unfold pixVar
    have h1 := Nat.div_add_mod' j (H * D)
    have h2 := Nat.div_add_mod' (j % (H * D)) D
    nlinarith

theorem pixVar_lt {C H D c h w : ℕ} (hc : c < C) (hh : h < H) (hw : w < D) : pixVar H D c h w < C * H * D := by
  unfold pixVar
  have h1 : c * H + h + 1 ≤ C * H := by nlinarith
  nlinarith

theorem pixVar_inj {H D c h w c' h' w' : ℕ} (hh : h < H) (hw : w < D) (hh' : h' < H) (hw' : w' < D)
    (e : pixVar H D c h w = pixVar H D c' h' w') : c = c' ∧ h = h' ∧ w = w' := by
  have := pixelOf_pixVar (c := c) hh hw
  rw [e, pixelOf_pixVar hh' hw'] at this
  simp only [List.cons.injEq, and_true] at this
  exact ⟨this.1.symm, this.2.1.symm, this.2.2.symm⟩

/-- A wrapper with the sizes `C`, `H`, `D`. -/
structure Sized (W : Wrap) (C H D : ℕ) : Prop where
  c : W.c = C
  h : W.h = H
  w : W.w = D

theorem Sized.column {W : Wrap} {C H D : ℕ} (s : Sized W C H D) (c h w : ℕ) : column W c h w = pixVar H D c h w := by
  unfold Image.column pixVar
  rw [s.h, s.w]
  rfl

theorem Sized.size {W : Wrap} {C H D : ℕ} (s : Sized W C H D) (n : ℕ) : sizeOk W n ↔ n = C * H * D := by
  unfold sizeOk
  rw [s.c, s.h, s.w]
  constructor
  · rintro ⟨_, _, _, h⟩; exact_mod_cast h.symm
  · rintro rfl; exact ⟨by omega, by omega, by omega, by push_cast; ring⟩

theorem Sized.flatten {W : Wrap} {C H D b : ℕ} (s : Sized W C H D) {t : Tensor} (ht : t.shape = [b, C, H, D]) :
    flatten W t = .ok ⟨[b, C * H * D], fun idx => t.cell (idx.getD 0 0 :: pixelOf H D (idx.getD 1 0))⟩ := by
  unfold Image.flatten
  rw [ht]
  simp only [s.c, ne_eq, not_true_eq_false, if_false]

/-- **C83, formats.** For tensors of the sizes of the wrapper `flatten` puts pixel `(c, h, w)` in column `(c H + h) D + w`,
and `to_image_format` is its inverse, in both directions. Other sizes are rejected by `to_image_format`. -/
theorem C83_formats {W : Wrap} {C H D : ℕ} (s : Sized W C H D) :
    (∀ (b : ℕ) (t : Tensor), t.shape = [b, C, H, D] → ∃ flat, flatten W t = .ok flat ∧ flat.shape = [b, C * H * D] ∧
      (∀ i c h w, h < H → w < D → flat.cell [i, pixVar H D c h w] = t.cell [i, c, h, w]) ∧
      ∃ t', toImage W flat = .ok t' ∧ t'.shape = t.shape ∧
        ∀ i c h w, h < H → w < D → t'.cell [i, c, h, w] = t.cell [i, c, h, w]) ∧
    (∀ (b n : ℕ) (flat : Tensor), flat.shape = [b, n] → n = C * H * D → ∃ t, toImage W flat = .ok t ∧
      t.shape = [b, C, H, D] ∧ ∃ flat', flatten W t = .ok flat' ∧ flat'.shape = flat.shape ∧
        ∀ i j, j < n → flat'.cell [i, j] = flat.cell [i, j]) ∧
    (∀ (b n : ℕ) (flat : Tensor), flat.shape = [b, n] → n ≠ C * H * D → toImage W flat = .error .runtimeError) ∧
    (∀ t : Tensor, t.shape.length ≠ 4 → flatten W t = .error .shapeError) ∧
    ∀ t : Tensor, t.shape.length ≠ 2 → toImage W t = .error .shapeError := by
  refine ⟨fun b t ht => ?_, fun b n flat hf hn => ?_, fun b n flat hf hn => ?_, fun t ht => ?_, fun t ht => ?_⟩
  · refine ⟨_, s.flatten ht, rfl, fun i c h w hh hw => ?_, ?_⟩
    · simp only [List.getD_cons_zero, List.getD_cons_succ, pixelOf_pixVar hh hw]
    · unfold toImage
      simp only [(s.size _).2 rfl, if_true]
      refine ⟨_, rfl, by rw [s.c, s.h, s.w, ht]; rfl, fun i c h w hh hw => ?_⟩
      simp only [List.getD_cons_zero, List.getD_cons_succ, s.column, pixelOf_pixVar hh hw]
  · subst hn
    unfold toImage
    rw [hf]
    simp only [(s.size _).2 rfl, if_true]
    refine ⟨_, rfl, by rw [s.c, s.h, s.w]; rfl, ?_⟩
    refine ⟨_, s.flatten (by rw [s.c, s.h, s.w]; rfl), rfl, fun i j hj => ?_⟩
    obtain ⟨c, h, w, _, hh, hw, rfl⟩ := pixel_exists hj
    simp only [List.getD_cons_zero, List.getD_cons_succ, s.column, pixelOf_pixVar hh hw]
  · unfold toImage
    rw [hf]
    simp only [mt (s.size n).1 hn, if_false]
  · unfold flatten
    split
    · rename_i h; rw [h] at ht; simp at ht
    · rfl
  · unfold toImage
    split
    · rename_i h; rw [h] at ht; simp at ht
    · rfl

/-- **C83, constructor.** The wrapper exists exactly if the number of variables of the module is the number of pixels. -/
theorem C83_constructor {m : Circ} (h : Accepted m) (C H D : ℕ) :
    mkWrap m C H D = if ((scope m).query.toFinset.card = C * H * D) then .ok ⟨m, C, H, D⟩ else .error .structureError := by
  rw [List.toFinset_card_of_nodup (scope_facts h).1.query_nodup]
  unfold mkWrap
  have e : ((scope m).query.length : ℤ) ≠ H * D * C ↔ ¬ (scope m).query.length = C * H * D := by
    rw [not_iff_not]
    constructor
    · intro e; have : (scope m).query.length = H * D * C := by exact_mod_cast e
      rw [this]; ring
    · intro e; rw [e]; push_cast; ring
  by_cases hc : (scope m).query.length = C * H * D
  · rw [if_neg (by rw [e]; exact not_not.2 hc), if_pos hc]
  · rw [if_pos (e.2 hc), if_neg hc]

/-- Image `i` of `t` shown as a row of the circuit: the variable of every pixel has the value of the pixel. -/
def Shows (H D C : ℕ) (t : Tensor) (i : ℕ) (x : Row) : Prop :=
  ∀ c < C, ∀ h < H, ∀ w < D, x (pixVar H D c h w : ℕ) = t.cell [i, c, h, w]

/-- The variables of the module are the pixels. -/
def Pixels (m : Circ) (n : ℕ) : Prop := ∀ v : ℤ, v ∈ (scope m).query ↔ 0 ≤ v ∧ v < n

theorem pixels_of_lt {m : Circ} (h : Accepted m) {n : ℕ} (hn : (scope m).query.length = n)
    (hlt : ∀ v : ℤ, v ∈ (scope m).query → v < n) : Pixels m n := by
  obtain ⟨hv, _⟩ := scope_facts h
  have hsub : (scope m).query.toFinset ⊆ Finset.Ico (0 : ℤ) n := by
    intro v hv'
    rw [List.mem_toFinset] at hv'
    exact Finset.mem_Ico.2 ⟨hv.query_nonneg v hv', hlt v hv'⟩
  have he := Finset.eq_of_subset_of_card_le hsub (by
    rw [List.toFinset_card_of_nodup hv.query_nodup, hn]; simp)
  intro v
  rw [← List.mem_toFinset, he, Finset.mem_Ico]

theorem rowOf_flat {C H D b : ℕ} {t : Tensor} {i : ℕ} {x : Row} (hx : Shows H D C t i x) {v : ℤ} (h0 : 0 ≤ v)
    (h1 : v < (C * H * D : ℕ)) :
    rowOf ⟨[b, C * H * D], fun idx => t.cell (idx.getD 0 0 :: pixelOf H D (idx.getD 1 0))⟩ i v = x v := by
  have hj : v.toNat < C * H * D := by omega
  obtain ⟨c, h, w, hc, hh, hw, e⟩ := pixel_exists hj
  unfold rowOf
  have : v = (pixVar H D c h w : ℕ) := by omega
  rw [if_pos ⟨h0, h1⟩]
  simp only [List.getD_cons_zero, List.getD_cons_succ, e, pixelOf_pixVar hh hw]
  rw [this]
  exact (hx c hc h hh w hw).symm

/-- **C83, log-likelihood.** For a wrapper of the sizes `C`, `H`, `D` around an accepted module:
a tensor of another shape is rejected; if some variable of the module is no pixel number, every image raises an IndexError;
otherwise the log-likelihood of image `i` is the log-likelihood of the module on the row whose variable `(c H + h) D + w` has
the value of pixel `(c, h, w)`. -/
theorem C83_log_likelihood {W : Wrap} {C H D : ℕ} (s : Sized W C H D) (hW : mkWrap W.module W.c W.h W.w = .ok W)
    (h : Accepted W.module) (hal : Aligned W.module) (t : Tensor) :
    ((∀ b, t.shape ≠ [b, C, H, D]) → logLik W t = .error (if t.shape = [] then .indexError else .shapeError)) ∧
      (∀ b, t.shape = [b, C, H, D] → (¬ Pixels W.module (C * H * D) → logLik W t = .error .indexError) ∧
        (Pixels W.module (C * H * D) → ∀ R, tensorR W.module = some R → ∃ L, logLik W t = .ok L ∧
          ∀ i x, Shows H D C t i x → ∀ f < F W.module, ∀ ch < Circ.C W.module, ∀ r, ∃ L', Circ.logLik W.module x = .ok L' ∧
            L i f ch r = L' f ch r)) := by
  constructor
  · intro hb
    unfold logLik
    split
    · rename_i hs; rw [hs, if_pos rfl]
    · rename_i b dims hs
      rw [if_pos, hs, if_neg (List.cons_ne_nil _ _)]
      · intro e
        apply hb b
        rw [hs]
        congr 1
        rw [s.c, s.h, s.w] at e
        have : (dims.map fun n : ℕ => (n : ℤ)) = [C, H, D].map fun n : ℕ => (n : ℤ) := e
        exact (List.map_injective_iff.2 Nat.cast_injective) this
  · intro b hb
    have hlen : (scope W.module).query.length = C * H * D := by
      unfold mkWrap at hW
      rw [s.c, s.h, s.w] at hW
      split at hW
      · cases hW
      · rename_i hh
        push Not at hh
        have : (scope W.module).query.length = H * D * C := by exact_mod_cast hh
        rw [this]; ring
    have hll : logLik W t = llFlat W.module
        ⟨[b, C * H * D], fun idx => t.cell (idx.getD 0 0 :: pixelOf H D (idx.getD 1 0))⟩ := by
      unfold logLik
      rw [s.flatten hb, hb]
      simp only [s.c, s.h, s.w, List.map_cons, List.map_nil, ne_eq, not_true_eq_false, if_false]
    rw [hll]
    unfold llFlat
    constructor
    · intro hp
      rw [if_pos]
      by_contra hno
      push Not at hno
      exact hp (pixels_of_lt h hlen fun v hv => by simpa using hno v hv)
    · intro hp R hR
      rw [if_neg (by
        push Not
        intro v hv
        exact ((hp v).1 hv).2), hR]
      refine ⟨_, rfl, fun i x hx f hf ch hch r => ?_⟩
      simp only [Circ.logLik, hR]
      refine ⟨_, rfl, ?_⟩
      refine featAt_local h hal hf hch fun v hv => ?_
      have hq := (hp v).1 ((mem_scope_iff h v).2 ⟨f, hf, hv⟩)
      exact rowOf_flat hx hq.1 hq.2

/-- The image of a valuation of the variables: one image, all pixels known. -/
def imageOf (C H D : ℕ) (y : Var → ℝ) : Tensor :=
  ⟨[1, C, H, D], fun idx => some (y (pixVar H D (idx.getD 1 0) (idx.getD 2 0) (idx.getD 3 0) : ℕ))⟩

/-- **C83, normalisation.** The likelihood of the wrapper is a density over images: for a module with one feature over the
pixels it integrates to one over all pixels. -/
theorem C83_normalised_partial {μ : Var → Measure ℝ} [∀ v, SigmaFinite (μ v)] {W : Wrap} {C H D : ℕ} (s : Sized W C H D)
    (hW : mkWrap W.module W.c W.h W.w = .ok W) (h : Accepted W.module) (hal : Aligned W.module) (hl : LeafOk μ W.module)
    (hp : Pixels W.module (C * H * D)) (hF : F W.module = 1) {R : ℕ} (hR : tensorR W.module = some R) {ch r : ℕ}
    (hch : ch < Circ.C W.module) (hr : r < R) :
    ∃ L : (Var → ℝ) → ℕ → ℕ → ℕ → ℕ → LogV, (∀ y, logLik W (imageOf C H D y) = .ok (L y)) ∧
      ∀ x, (∫⋯∫⁻_((Finset.range (C * H * D)).image fun n : ℕ => (n : ℤ)),
        (fun y => ENNReal.ofReal (expL (L y 0 0 ch r))) ∂μ) x = 1 := by
  have key : ∀ y : Var → ℝ, ∃ L, logLik W (imageOf C H D y) = .ok L ∧
      L 0 0 ch r = featAt (den W.module) 0 (fun v => some (y v)) r ch := by
    intro y
    obtain ⟨L, e, hL⟩ := ((C83_log_likelihood s hW h hal (imageOf C H D y)).2 1 rfl).2 hp R hR
    obtain ⟨L', e', e''⟩ := hL 0 (fun v => some (y v)) (fun c _ h _ w _ => rfl) 0 (by omega) ch hch r
    refine ⟨L, e, ?_⟩
    simp only [Circ.logLik, hR, Except.ok.injEq] at e'
    rw [e'', ← e']
  choose L e1 e2 using key
  refine ⟨L, e1, fun x => ?_⟩
  have hs : fscope W.module 0 = (Finset.range (C * H * D)).image fun n : ℕ => (n : ℤ) := by
    ext v
    have hm := mem_scope_iff h v
    rw [hF] at hm
    have : v ∈ fscope W.module 0 ↔ v ∈ (scope W.module).query := by
      rw [hm]
      refine ⟨fun hv => ⟨0, by omega, hv⟩, ?_⟩
      rintro ⟨f, hf, hv⟩
      obtain rfl : f = 0 := by omega
      exact hv
    rw [this, hp v, Finset.mem_image]
    constructor
    · rintro ⟨h0, h1⟩
      exact ⟨v.toNat, Finset.mem_range.2 ((Int.toNat_lt h0).2 h1), Int.toNat_of_nonneg h0⟩
    · rintro ⟨n, hn, rfl⟩
      have := Finset.mem_range.1 hn
      exact ⟨Int.natCast_nonneg _, by exact_mod_cast this⟩
  have := C10_normalised_partial h hal hl hR (f := 0) (by omega) hch hr x
  rw [hs] at this
  simp only [e2]
  exact this

/-! ### Sampling -/

/-- The row of an image: known only at the pixels. -/
def picRow (C H D : ℕ) (x : Pic) : Row := fun v =>
  if 0 ≤ v ∧ v < (C * H * D : ℕ) then
    x (v.toNat / (H * D)) (v.toNat % (H * D) / D) (v.toNat % (H * D) % D)
  else none

theorem picRow_pixVar {C H D c h w : ℕ} (hc : c < C) (hh : h < H) (hw : w < D) (x : Pic) :
    picRow C H D x (pixVar H D c h w : ℕ) = x c h w := by
  have hlt := pixVar_lt hc hh hw
  have e := pixelOf_pixVar (c := c) hh hw
  unfold pixelOf at e
  simp only [List.cons.injEq, and_true] at e
  unfold picRow
  rw [if_pos ⟨Int.natCast_nonneg _, by exact_mod_cast hlt⟩, Int.toNat_natCast, e.1, e.2.1, e.2.2]

/-- The image of a row. -/
def rowPic (C H D : ℕ) (y : Row) : Pic := fun c h w => if c < C ∧ h < H ∧ w < D then y (pixVar H D c h w : ℕ) else none

theorem rowPic_eq_iff {C H D : ℕ} {x : Pic} (hx : ∀ c h w, ¬ (c < C ∧ h < H ∧ w < D) → x c h w = none) {y : Row}
    (hy : ∀ v : ℤ, ¬ (0 ≤ v ∧ v < (C * H * D : ℕ)) → y v = none) : rowPic C H D y = x ↔ y = picRow C H D x := by
  constructor
  · rintro rfl
    funext v
    by_cases hv : (0 : ℤ) ≤ v ∧ v < (C * H * D : ℕ)
    · have hj : v.toNat < C * H * D := (Int.toNat_lt hv.1).2 hv.2
      obtain ⟨c, h, w, hc, hh, hw, e⟩ := pixel_exists hj
      have e' : v = (pixVar H D c h w : ℕ) := by rw [← e]; exact (Int.toNat_of_nonneg hv.1).symm
      rw [e', picRow_pixVar hc hh hw]
      unfold rowPic
      rw [if_pos ⟨hc, hh, hw⟩]
    · rw [hy v hv]
      unfold picRow
      rw [if_neg hv]
  · rintro rfl
    funext c h w
    unfold rowPic
    by_cases hb : c < C ∧ h < H ∧ w < D
    · rw [if_pos hb, picRow_pixVar hb.1 hb.2.1 hb.2.2]
    · rw [if_neg hb, hx c h w hb]

/-- The program of one image. -/
theorem sample_eq {W : Wrap} {C H D b : ℕ} (s : Sized W C H D) (hp : Pixels W.module (C * H * D)) (ev : Bool) {t : Tensor}
    (ht : t.shape = [b, C, H, D]) : ∃ P, sample ev W none (some t) = .ok (b, P) ∧ ∀ i, ∃ row : Row,
      (∀ v : ℤ, ¬ (0 ≤ v ∧ v < (C * H * D : ℕ)) → row v = none) ∧ (∀ x, Shows H D C t i x →
        ∀ v : ℤ, 0 ≤ v → v < (C * H * D : ℕ) → row v = x v) ∧
      P i = (if ev = true then sampleWithEvidence W.module row else sampleData W.module row).bind
        fun y => .ret (rowPic C H D y) := by
  unfold sample prepare
  simp only [s.flatten ht]
  rw [if_neg (by
    push Not
    intro v hv
    exact ((hp v).1 hv).2)]
  have hi : ∀ cell, toImage W ⟨[b, C * H * D], cell⟩ = .ok ⟨[b, C, H, D], fun idx =>
      cell [idx.getD 0 0, pixVar H D (idx.getD 1 0) (idx.getD 2 0) (idx.getD 3 0)]⟩ := by
    intro cell
    unfold toImage
    simp only [(s.size _).2 rfl, if_true, s.column]
    rw [s.c, s.h, s.w]
    rfl
  simp only [hi, withRow]
  refine ⟨_, rfl, fun i => ?_⟩
  refine ⟨rowOf ⟨[b, C * H * D], fun idx => t.cell (idx.getD 0 0 :: pixelOf H D (idx.getD 1 0))⟩ i, ?_, ?_, ?_⟩
  · intro v hv
    unfold rowOf
    exact if_neg hv
  · intro x hx v h0 h1
    exact rowOf_flat hx h0 h1
  · rfl

open Classical in
/-- **C83, sampling.** `sample_with_evidence` on a batch of partial images draws image `i` from the conditional density of
the missing pixels given the known ones: a completion `x` of it is returned with probability `p(x) / p(e)`, where `p` is the
likelihood of the module on the row of pixels. -/
theorem C83_sampling_partial {W : Wrap} {C H D : ℕ} (s : Sized W C H D) (hW : mkWrap W.module W.c W.h W.w = .ok W)
    (h : Accepted W.module) (hal : Aligned W.module) (hpo : PosCh W.module) (hr : RepS 0 W.module)
    (hp : Pixels W.module (C * H * D)) {R : ℕ} (hR : tensorR W.module = some R) {b : ℕ} {t : Tensor}
    (ht : t.shape = [b, C, H, D]) : ∃ P, sampleEvidence W t = .ok (b, P) ∧
      ∀ i < b, ∀ e, Shows H D C t i e → (∀ v : ℤ, ¬ (0 ≤ v ∧ v < (C * H * D : ℕ)) → e v = none) →
        Live e 0 W.module → likelihood W.module e ≠ 0 →
        ∀ x : Pic, (∀ c h w, x c h w ≠ none ↔ c < C ∧ h < H ∧ w < D) →
          (∀ c < C, ∀ h < H, ∀ w < D, ∀ a, t.cell [i, c, h, w] = some a → x c h w = some a) →
          (P i).prob x = ENNReal.ofReal (likelihood W.module (picRow C H D x) / likelihood W.module e) := by
  obtain ⟨P, hP, hrow⟩ := sample_eq s hp true ht
  obtain ⟨L, hL, _⟩ := ((C83_log_likelihood s hW h hal t).2 b ht).2 hp R hR
  refine ⟨P, by unfold sampleEvidence; simp only [hL]; exact hP, fun i _ e he hout hlive hpos x hx hcomp => ?_⟩
  obtain ⟨row, r1, r2, r3⟩ := hrow i
  have hre : row = e := by
    funext v
    by_cases hv : (0 : ℤ) ≤ v ∧ v < (C * H * D : ℕ)
    · exact r2 e he v hv.1 hv.2
    · rw [r1 v hv, hout v hv]
  subst hre
  have hnone : ∀ c h w, ¬ (c < C ∧ h < H ∧ w < D) → x c h w = none := fun c h w hn => by
    by_contra hne
    exact hn ((hx c h w).1 hne)
  have hC : Completes W.module row (picRow C H D x) := by
    refine ⟨fun v hv => ?_, fun v a hv => ?_, fun v hv => ?_⟩
    · obtain ⟨h0, h1⟩ := (hp v).1 hv
      obtain ⟨c, h, w, hc, hh, hw, e⟩ := pixel_exists ((Int.toNat_lt h0).2 h1)
      rw [← Int.toNat_of_nonneg h0, e, picRow_pixVar hc hh hw]
      exact (hx c h w).2 ⟨hc, hh, hw⟩
    · by_cases hv' : (0 : ℤ) ≤ v ∧ v < (C * H * D : ℕ)
      · obtain ⟨c, h, w, hc, hh, hw, e⟩ := pixel_exists ((Int.toNat_lt hv'.1).2 hv'.2)
        rw [← Int.toNat_of_nonneg hv'.1, e] at hv ⊢
        rw [picRow_pixVar hc hh hw]
        exact hcomp c hc h hh w hw a (by rw [← he c hc h hh w hw]; exact hv)
      · rw [r1 v hv'] at hv
        cases hv
    · have hv' : ¬ ((0 : ℤ) ≤ v ∧ v < (C * H * D : ℕ)) := fun hh => hv ((hp v).2 hh)
      rw [r1 v hv']
      unfold picRow
      exact if_neg hv'
  rw [← C14_conditional_partial h hal hpo hr row hlive hpos _ hC, r3, if_pos rfl]
  unfold Prog.prob
  rw [Prog.E_bind]
  refine Prog.E_congr fun y hy => ?_
  have hy' := (C13_evidence_unchanged h row y (.inr hy)).2
  have hyn : ∀ v : ℤ, ¬ (0 ≤ v ∧ v < (C * H * D : ℕ)) → y v = none := fun v hv => by
    rw [hy' v fun hq => hv ((hp v).1 hq), r1 v hv]
  have := rowPic_eq_iff hnone hyn
  simp only [Prog.E, this]

end Verif.Image

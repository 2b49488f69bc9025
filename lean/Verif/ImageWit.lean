import Verif.ImageMarg
/-
C83: a two-pixel image model, and a scope in another order.
-/
namespace Verif.Image
open Circ

theorem exMix_ready : FiniteLogits exMix ∧ LeavesNonempty exMix ∧ InOrder exMix 2 := by
  refine ⟨⟨fun i => ?_, fun f _ ci _ co _ r _ => ?_⟩, ?_, rfl⟩
  · fin_cases i <;> exact fun i => by fin_cases i <;> exact trivial
  · have : (0:ℝ) < if ci = 0 then 1/4 else 3/4 := by split <;> norm_num
    simp only [logL, this, if_true]
    exact WithBot.coe_ne_bot
  · intro i
    fin_cases i <;> exact fun i => by fin_cases i <;> exact List.cons_ne_nil _ _

/-- The mixture of C10 as a model of images with one channel, two rows and one column. -/
noncomputable def ex : Wrap := ⟨exMix, 1, 2, 1⟩

theorem ex_ok : mkWrap exMix 1 2 1 = .ok ex ∧ Sized ex 1 2 1 := ⟨rfl, ⟨rfl, rfl, rfl⟩⟩

/-- **C83, a concrete wrapper.** The two-pixel image model exists and has a log-likelihood for every image; its likelihood
integrates to one; marginalising the last row (index 1 or -1) gives a usable wrapper; marginalising the first row gives a
wrapper of the right sizes that raises on every tensor. -/
theorem C83_example : (∀ t b, t.shape = [b, 1, 2, 1] → ∃ L, logLik ex t = .ok L) ∧
    (∀ i ∈ [(1 : ℤ), -1], ∃ W', marginalize ex [] [i] [] true = .ok (some W') ∧
      ∀ b (t : Tensor), t.shape = [b, 1, 1, 1] → ∃ L, logLik W' t = .ok L) ∧
    ∃ W', marginalize ex [] [0] [] true = .ok (some W') ∧ ∀ t, ∃ e, logLik W' t = .error e := by
  obtain ⟨h1, h2, -, h4, -, h6, -⟩ := exMix_ok
  obtain ⟨h7, h8, h9⟩ := exMix_ready
  have hs := ex_ok.2
  have hd0 : ∀ n, Distinct n [] := fun n => ⟨fun i hi => by simp at hi, List.nodup_nil⟩
  have hd : ∀ i ∈ [(0 : ℤ), 1, -1], Distinct 2 [i] := by
    intro i hi
    refine ⟨fun j hj => ?_, List.nodup_singleton _⟩
    simp only [List.mem_cons, List.not_mem_nil, or_false] at hi hj
    subst hj
    unfold InAxis
    omega
  refine ⟨fun t b ht => ?_, fun i hi => ?_, ?_⟩
  · obtain ⟨L, e, _⟩ := ((C83_log_likelihood hs rfl h1 h2 t).2 b ht).2 h9.pixels 1 h4
    exact ⟨L, e⟩
  · have hi' : i = 1 ∨ i = -1 := by simpa using hi
    obtain ⟨W', e, hW⟩ := C83_marginalize_last hs h1 h2 h7 h8 h6 h4 h9 true (hd0 1)
      (hd i (by rcases hi' with rfl | rfl <;> simp)) (hd0 1) (by simp) (by simp) (by simp) (by
        intro c hc y hy w hw c' hc' y' hy' w' hw' hr hk
        have hn : norm 2 i = 1 := by rcases hi' with rfl | rfl <;> rfl
        simp only [Removed, List.not_mem_nil, false_and, exists_false, false_or, or_false, List.mem_singleton,
          exists_eq_left, hn] at hr hk
        unfold pixVar
        omega)
    exact ⟨W', e, fun b t ht => by obtain ⟨L, e, _⟩ := hW b t ht; exact ⟨L, e⟩⟩
  · exact C83_marginalize_unusable hs h1 h2 h7 h8 h6 h4 h9 true (hd0 1) (hd 0 (by simp)) (hd0 1) (by simp) (by simp)
      (by simp) (c := 0) (y := 0) (w := 0) (c' := 0) (y' := 1) (w' := 0) (by simp) (by simp)
      (by simp [Removed, norm]) (by simp [Removed, norm]) (by decide)

/-- **C83, the wrong pixel.** A product of leaves over the scope `[1, 0]` is a model of images with one row of two pixels.
`log_likelihood` reads variable `v` from pixel `v`, but `marginalize` looks the pixel up by its position in the scope: asked to
integrate column 0 out it integrates variable 1 out, and the wrapper that remains scores pixel column 0. -/
theorem C83_marginalize_wrong_pixel (d : ℕ → ℕ → ℕ → ℝ → LogV) :
    mkWrap (prod (leaf [1, 0] 1 1 d)) 1 1 2 = .ok ⟨prod (leaf [1, 0] 1 1 d), 1, 1, 2⟩ ∧
      Accepted (prod (leaf [1, 0] 1 1 d)) ∧ Pixels (prod (leaf [1, 0] 1 1 d)) 2 ∧
      ∃ m', marginalize ⟨prod (leaf [1, 0] 1 1 d), 1, 1, 2⟩ [] [] [0] true = .ok (some ⟨m', 1, 1, 1⟩) ∧
        (scope m').query = [0] ∧ ∀ t b, t.shape = [b, 1, 1, 1] → ∃ L, logLik ⟨m', 1, 1, 1⟩ t = .ok L ∧
          ∀ i a, t.cell [i, 0, 0, 0] = some a → L i 0 0 0 = d 1 0 0 a := by
  refine ⟨rfl, rfl, ?_, leaf [0] 1 1 fun k => d ((keepIdx [1] [1, 0]).getD k 0), ?_, rfl, ?_⟩
  · intro v
    simp only [scope, List.mem_cons, List.not_mem_nil, or_false]
    constructor
    · rintro (rfl | rfl) <;> decide
    · rintro ⟨h0, h1⟩
      have h1 : v < 2 := h1
      omega
  · rfl
  · intro t b ht
    have s : Sized (⟨leaf [0] 1 1 fun k => d ((keepIdx [1] [1, 0]).getD k 0), 1, 1, 1⟩ : Wrap) 1 1 1 := ⟨rfl, rfl, rfl⟩
    have ha : Accepted (leaf [0] 1 1 fun k => d ((keepIdx [1] [1, 0]).getD k 0)) := rfl
    have hp : Pixels (leaf [0] 1 1 fun k => d ((keepIdx [1] [1, 0]).getD k 0)) (1 * 1 * 1) := by
      intro v
      simp only [scope, List.mem_cons, List.not_mem_nil, or_false]
      constructor
      · rintro rfl; decide
      · rintro ⟨h0, h1⟩
        have h1 : v < 1 := h1
        omega
    obtain ⟨L, e, hL⟩ := ((C83_log_likelihood s rfl ha trivial t).2 b ht).2 hp 1 rfl
    refine ⟨L, e, fun i a hc => ?_⟩
    obtain ⟨L', e', e''⟩ := hL i (fun _ => some a) (fun c hc' y hy w hw => by
      obtain rfl : c = 0 := by omega
      obtain rfl : y = 0 := by omega
      obtain rfl : w = 0 := by omega
      exact hc.symm) 0 Nat.one_pos 0 Nat.one_pos 0
    rw [e'']
    have : Circ.logLik (leaf [0] 1 1 fun k => d ((keepIdx [1] [1, 0]).getD k 0)) (fun _ => some a) =
        .ok fun f ch r => featAt (den (leaf [0] 1 1 fun k => d ((keepIdx [1] [1, 0]).getD k 0))) f (fun _ => some a) r ch := rfl
    rw [this] at e'
    simp only [Except.ok.injEq] at e'
    rw [← e']
    rfl

/-- **C83, samples accept transposed images.** `log_likelihood` rejects a tensor whose height and width are exchanged,
`sample` accepts it: it reads the pixels in the wrong order and returns an image of the right sizes. -/
theorem C83_sample_accepts_transposed (cell : List ℕ → Option ℝ) :
    logLik ex ⟨[1, 1, 1, 2], cell⟩ = .error .shapeError ∧ ∃ P, sample false ex none (some ⟨[1, 1, 1, 2], cell⟩) = .ok (1, P) ∧
      P 0 = (sampleData exMix fun v => if 0 ≤ v ∧ v < 2 then cell [0, 0, 0, v.toNat] else none).bind
        fun y => .ret fun c h w => if c < 1 ∧ h < 2 ∧ w < 1 then y (h : ℕ) else none := by
  constructor
  · rfl
  have hflat : flatten ex ⟨[1, 1, 1, 2], cell⟩ =
      .ok ⟨[1, 1 * 1 * 2], fun idx => cell (idx.getD 0 0 :: pixelOf 1 2 (idx.getD 1 0))⟩ := rfl
  have hs : sizeOk ex 2 := ⟨by decide, by decide, by decide, rfl⟩
  have hi : ¬ ∃ v ∈ (scope exMix).query, ((2 : ℕ) : ℤ) ≤ v := by
    have : (scope exMix).query = [0, 1] := rfl
    rw [this]
    simp
  have hrow : rowOf ⟨[1, 1 * 1 * 2], fun idx => cell (idx.getD 0 0 :: pixelOf 1 2 (idx.getD 1 0))⟩ 0 =
      fun v : ℤ => if 0 ≤ v ∧ v < 2 then cell [0, 0, 0, v.toNat] else none := by
    funext v
    unfold rowOf
    refine if_ctx_congr Iff.rfl (fun h => ?_) fun _ => rfl
    have h0 : (0 : ℤ) ≤ v := h.1
    have h1 : (v : ℤ) < 2 := h.2
    have : v.toNat = 0 ∨ v.toNat = 1 := by omega
    rcases this with e | e <;> simp [e, pixelOf]
  have himg : ∀ y : Row, ∃ T, toImage ex (withRow ⟨[1, 1 * 1 * 2], fun idx =>
      cell (idx.getD 0 0 :: pixelOf 1 2 (idx.getD 1 0))⟩ y) = .ok T ∧
        picOf T 0 = fun c h w => if c < 1 ∧ h < 2 ∧ w < 1 then y (h : ℕ) else none := by
    intro y
    refine ⟨_, if_pos (e := .error .runtimeError) hs, ?_⟩
    funext c h w
    unfold picOf
    refine if_ctx_congr Iff.rfl (fun hh => ?_) fun _ => rfl
    obtain ⟨a, b, c'⟩ := hh
    have a : c < 1 := a
    have c' : w < 1 := c'
    obtain rfl : c = 0 := by omega
    obtain rfl : w = 0 := by omega
    have hc : column ex 0 h 0 = h := by
      unfold column ex
      simp
    simp [withRow, hc]
  obtain ⟨T, hT, _⟩ := himg fun _ => none
  unfold sample prepare
  simp only [hflat]
  rw [if_neg (show ¬ ∃ v ∈ (scope ex.module).query, (([1, 1 * 1 * 2].getD 1 0 : ℕ) : ℤ) ≤ v from hi)]
  have hT' : toImage ex ⟨[1, 1 * 1 * 2], fun idx => cell (idx.getD 0 0 :: pixelOf 1 2 (idx.getD 1 0))⟩ = .ok _ := if_pos (e := .error .runtimeError) hs
  rw [hT']
  refine ⟨_, rfl, ?_⟩
  rw [if_neg (by decide), hrow]
  congr 1
  funext y
  obtain ⟨T, hT, e⟩ := himg y
  rw [hT]
  dsimp only
  rw [e]

end Verif.Image

import Verif.DecoderProps

/-!
# C88: the theorems
-/

namespace Verif
namespace Dec

/-! ## Shapes -/

/-- A batch of `n` images of the given shape. -/
def Img.Is (x : Img) (n c h w : ℕ) : Prop := x.n = n ∧ x.c = c ∧ x.h = h ∧ x.w = w

section shapes
variable {P : Params}

theorem linear_ok {l i o : ℕ} {x : Vec} (h : x.d = i) : ∃ y, linear P l i o x = .ok y ∧ y.n = x.n ∧ y.d = o := by
  unfold linear
  rw [if_neg (by simp [h])]
  exact ⟨_, rfl, rfl, rfl⟩

theorem conv3_ok {l ci co n h w : ℕ} {bias : Bool} {x : Img} (hx : x.Is n ci h w) (hh : 0 < h) (hw : 0 < w) :
    ∃ y, conv2d P l ci co 3 1 bias x = .ok y ∧ y.Is n co h w := by
  obtain ⟨rfl, hc, rfl, rfl⟩ := hx
  unfold conv2d
  rw [if_neg (by simp [hc]), if_neg (by omega)]
  exact ⟨_, rfl, rfl, rfl, by dsimp only; omega, by dsimp only; omega⟩

theorem conv1_ok {l ci co n h w : ℕ} {bias : Bool} {x : Img} (hx : x.Is n ci h w) (hh : 0 < h) (hw : 0 < w) :
    ∃ y, conv2d P l ci co 1 0 bias x = .ok y ∧ y.Is n co h w := by
  obtain ⟨rfl, hc, rfl, rfl⟩ := hx
  unfold conv2d
  rw [if_neg (by simp [hc]), if_neg (by omega)]
  exact ⟨_, rfl, rfl, rfl, by dsimp only; omega, by dsimp only; omega⟩

theorem convT_ok {l ci co n h w : ℕ} {x : Img} (hx : x.Is n ci h w) (hh : 0 < h) (hw : 0 < w) :
    ∃ y, convT P l ci co x = .ok y ∧ y.Is n co (2 * h) (2 * w) := by
  obtain ⟨rfl, hc, rfl, rfl⟩ := hx
  unfold convT
  rw [if_neg (by simp [hc])]
  exact ⟨_, rfl, rfl, rfl, by dsimp only; omega, by dsimp only; omega⟩

theorem bnIf_ok {bn train : Bool} {l n ch h w : ℕ} {x : Img} (hx : x.Is n ch h w)
    (ht : bn = true → train = true → 1 < n * h * w) : ∃ y, bnIf P bn l ch train x = .ok y ∧ y.Is n ch h w := by
  unfold bnIf
  cases bn with
  | false => exact ⟨_, rfl, hx⟩
  | true =>
    simp only [if_true]
    obtain ⟨rfl, hc, rfl, rfl⟩ := hx
    unfold batchNorm
    rw [if_neg (by simp [hc]), if_neg (by rintro ⟨e1, e2⟩; have := ht rfl e1; omega)]
    exact ⟨_, rfl, rfl, hc, rfl, rfl⟩

theorem residual_ok {bn train : Bool} {l n ch res h w : ℕ} {x : Img} (hx : x.Is n ch h w) (hh : 0 < h) (hw : 0 < w)
    (ht : bn = true → train = true → 1 < n * h * w) :
    ∃ y, residual P l ch ch res bn train x = .ok y ∧ y.Is n ch h w := by
  unfold residual
  obtain ⟨a1, e1, h1⟩ := conv3_ok (P := P) (l := l) (co := res) (bias := false) (x := x.map relu) hx hh hw
  obtain ⟨a2, e2, h2⟩ := bnIf_ok (P := P) (l := l) h1 ht
  obtain ⟨a3, e3, h3⟩ := conv1_ok (P := P) (l := l + 1) (co := ch) (bias := false) (x := a2.map relu) h2 hh hw
  obtain ⟨a4, e4, h4⟩ := bnIf_ok (P := P) (l := l + 1) h3 ht
  rw [e1]; simp only [bind, Except.bind]
  rw [e2]; simp only
  rw [e3]; simp only
  rw [e4]; simp only
  unfold addImg
  obtain ⟨i1, i2, i3, i4⟩ := hx
  obtain ⟨j1, j2, j3, j4⟩ := h4
  rw [if_neg (by simp [Img.map, i1, i2, i3, i4, j1, j2, j3, j4])]
  exact ⟨_, rfl, i1, i2, i3, i4⟩

theorem stack_ok {bn train : Bool} {n ch res h w : ℕ} (hh : 0 < h) (hw : 0 < w)
    (ht : bn = true → train = true → 1 < n * h * w) : ∀ {m l : ℕ} {x : Img}, x.Is n ch h w →
    ∃ y, stack P ch res bn train m l x = .ok y ∧ y.Is n ch h w
  | 0, _, _, hx => ⟨_, rfl, hx⟩
  | m + 1, l, x, hx => by
    obtain ⟨y, e, hy⟩ := residual_ok (P := P) (l := l) (res := res) hx hh hw ht
    unfold stack
    rw [e]
    exact stack_ok hh hw ht hy

theorem scaleRun_ok {n ch : ℕ} : ∀ {m l h w : ℕ} {x : Img}, 0 < h → 0 < w → x.Is n ch h w →
    ∃ y, scaleRun P ch m l x = .ok y ∧ y.Is n ch (2 ^ m * h) (2 ^ m * w)
  | 0, _, _, _, _, _, _, hx => ⟨_, rfl, by simpa using hx⟩
  | m + 1, l, h, w, x, hh, hw, hx => by
    obtain ⟨y, e, hy⟩ := convT_ok (P := P) (l := l) (co := ch) hx hh hw
    unfold scaleRun
    rw [e]
    obtain ⟨u, e', hu⟩ := scaleRun_ok (m := m) (l := l + 1) (x := y.map relu) (by omega) (by omega) hy
    exact ⟨u, e', by rw [pow_succ, mul_assoc, mul_assoc]; exact hu⟩

theorem upRun_ok {n c : ℕ} : ∀ {m l i h w : ℕ} {x : Img}, 0 < h → 0 < w → x.Is n i h w →
    ∃ y, upRun P l (convBlocks c m i).1 x = .ok y ∧ y.Is n (convBlocks c m i).2 (2 ^ m * h) (2 ^ m * w)
  | 0, _, _, _, _, _, _, _, hx => ⟨_, rfl, by simpa [convBlocks] using hx⟩
  | m + 1, l, i, h, w, x, hh, hw, hx => by
    have hu : (upsample x).Is n i (2 * h) (2 * w) := by
      obtain ⟨i1, i2, i3, i4⟩ := hx
      exact ⟨i1, i2, by simp [upsample, i3], by simp [upsample, i4]⟩
    obtain ⟨y, e, hy⟩ := conv3_ok (P := P) (l := l) (co := max c (i / 2)) (bias := true) hu (by omega) (by omega)
    simp only [convBlocks, upRun]
    rw [e]
    obtain ⟨u, e', hu⟩ := upRun_ok (m := m) (l := l + 1) (x := y.map leaky) (by omega) (by omega) hy
    exact ⟨u, e', by rw [pow_succ, mul_assoc, mul_assoc]; exact hu⟩

theorem unflatten_ok {c h w : ℕ} {x : Vec} (hd : x.d = c * h * w) :
    ∃ y, unflatten c h w x = .ok y ∧ y.Is x.n c h w := by
  unfold unflatten
  rw [if_neg (by simp [hd])]
  exact ⟨_, rfl, rfl, rfl, rfl, rfl⟩

theorem fit_is {H W n c h w : ℕ} {x : Img} (hx : x.Is n c h w) : (fit H W x).Is n c H W := by
  obtain ⟨i1, i2, i3, i4⟩ := hx
  unfold fit
  split_ifs with hc
  · exact ⟨i1, i2, rfl, rfl⟩
  · simp only [not_or, not_not] at hc
    exact ⟨i1, i2, hc.1, hc.2⟩

end shapes

/-! ## MLPDecoder1D -/

/-- **C88.** `MLPDecoder1D` accepts exactly positive sizes, at least one hidden layer and the activations identity, tanh
and sigmoid. -/
theorem C88_mlp_accepts {latent output : ℤ} {hidden : List ℤ} {act : Act} :
    (∃ m, mkMlp latent output hidden act = .ok m) ↔
      0 < latent ∧ 0 < output ∧ hidden ≠ [] ∧ (∀ h ∈ hidden, 0 < h) ∧ act ≠ .other ∧ act ≠ .linear := by
  unfold mkMlp
  split_ifs with h1 h2 h3 h4 h5
  · exact ⟨fun ⟨_, h⟩ => (by cases h), fun h => by omega⟩
  · exact ⟨fun ⟨_, h⟩ => (by cases h), fun h => by omega⟩
  · exact ⟨fun ⟨_, h⟩ => (by cases h), fun h => absurd (List.length_eq_zero_iff.1 h3) h.2.2.1⟩
  · refine ⟨fun ⟨_, h⟩ => (by cases h), fun h => ?_⟩
    simp only [List.any_eq_true, decide_eq_true_eq] at h4
    obtain ⟨x, hx, hx0⟩ := h4
    have := h.2.2.2.1 x hx
    omega
  · exact ⟨fun ⟨_, h⟩ => (by cases h), fun h => (h5.elim h.2.2.2.2.1 h.2.2.2.2.2).elim⟩
  · refine ⟨fun _ => ⟨by omega, by omega, ?_, fun x hx => ?_, not_or.1 h5⟩, fun _ => ⟨_, rfl⟩⟩
    · rintro rfl; exact h3 rfl
    · simp only [List.any_eq_true, decide_eq_true_eq, not_exists, not_and] at h4
      have := h4 x hx
      omega

theorem mlpRun_ok {P : Params} {o : ℕ} : ∀ {hs : List ℕ} {l d : ℕ} {x : Vec}, x.d = d →
    ∃ y, mlpRun P l (mlpLayers o d hs) x = .ok y ∧ y.n = x.n ∧ y.d = o
  | [], l, d, x, h => by
    simp only [mlpLayers, mlpRun]
    exact linear_ok h
  | k :: hs, l, d, x, h => by
    obtain ⟨y, e, hn, hd⟩ := linear_ok (P := P) (l := l) (o := k) h
    obtain ⟨u, e', hn', hd'⟩ := mlpRun_ok (P := P) (o := o) (hs := hs) (l := l + 1) (x := y.map leaky) hd
    refine ⟨u, ?_, hn'.trans hn, hd'⟩
    rw [← e']
    simp only [mlpLayers]
    cases hs with
    | nil => simp only [mlpLayers, mlpRun]; rw [e]; rfl
    | cons k' hs => simp only [mlpLayers, mlpRun]; rw [e]; rfl

/-- **C88.** A built `MLPDecoder1D` maps every batch of latents of the configured size to vectors of the configured size,
with entries in the range of the output activation; any other latent size is rejected. -/
theorem C88_mlp {latent output : ℤ} {hidden : List ℤ} {act : Act} {m : Mlp} (h : mkMlp latent output hidden act = .ok m)
    (P : Params) (z : Vec) :
    ((z.d : ℤ) ≠ latent → m.forward P z = .error .invalidParameter) ∧
    ((z.d : ℤ) = latent → ∃ y, m.forward P z = .ok y ∧ y.n = z.n ∧ (y.d : ℤ) = output ∧ ∀ n i, act.Range (y.v n i)) := by
  obtain ⟨g1, g2, -⟩ := C88_mlp_accepts.1 ⟨m, h⟩
  unfold mkMlp at h
  split_ifs at h
  cases h
  unfold Mlp.forward
  dsimp only
  constructor
  · intro hd
    rw [if_pos (by omega)]
  · intro hd
    rw [if_neg (by omega)]
    obtain ⟨y, e, hn, hy⟩ := mlpRun_ok (P := P) (o := output.toNat) (hs := hidden.map Int.toNat) (l := 0)
      (d := latent.toNat) (x := z) (by omega)
    rw [e]
    exact ⟨_, rfl, hn, by simp only [Vec.map]; omega, fun n i => act.range_app _⟩

/-- **C88.** Every row of the output of an `MLPDecoder1D` depends only on the same row of the input: equal latents give
equal rows, in whatever batches they occur. -/
theorem C88_mlp_rows (m : Mlp) (P : Params) {z z' : Vec} {a b : ℕ} (h : VRow a b z z') :
    Rel (VRow a b) (m.forward P z) (m.forward P z') := by
  unfold Mlp.forward
  rw [← h.1]
  split_ifs
  · rfl
  · exact (mlpRun_row h).bind' fun _ _ h1 => ⟨_, rfl, vmap_row h1⟩

/-! ## ConvDecoder2D -/

/-- **C88.** `ConvDecoder2D` accepts exactly positive sizes, a non-negative number of upsamplings and the activations
identity, tanh and sigmoid. -/
theorem C88_conv_accepts {latent base ups : ℤ} {shape : List ℤ} {act : Act} :
    (∃ m, mkConv latent shape base ups act = .ok m) ↔
      0 < latent ∧ (∃ c h w, shape = [c, h, w] ∧ 0 < c ∧ 0 < h ∧ 0 < w) ∧ 0 < base ∧ 0 ≤ ups ∧ act ≠ .other ∧
        act ≠ .linear := by
  unfold mkConv
  by_cases h1 : latent ≤ 0
  · rw [if_pos h1]; exact ⟨fun ⟨_, h⟩ => (by cases h), fun h => by omega⟩
  rw [if_neg h1]
  split
  · rename_i c h w
    dsimp only
    split_ifs with h2 h3 h4 h5
    · refine ⟨fun ⟨_, h⟩ => (by cases h), fun ⟨_, ⟨c', h', w', e, e1⟩, _⟩ => ?_⟩
      cases e; omega
    · exact ⟨fun ⟨_, h⟩ => (by cases h), fun h => by omega⟩
    · exact ⟨fun ⟨_, h⟩ => (by cases h), fun h => by omega⟩
    · exact ⟨fun ⟨_, h⟩ => (by cases h), fun h => (h5.elim h.2.2.2.2.1 h.2.2.2.2.2).elim⟩
    · exact ⟨fun _ => ⟨by omega, ⟨c, h, w, rfl, by omega, by omega, by omega⟩, by omega, by omega, not_or.1 h5⟩,
        fun _ => ⟨_, rfl⟩⟩
  · rename_i hs
    exact ⟨fun ⟨_, h⟩ => (by cases h), fun ⟨_, ⟨c, h, w, e, _⟩, _⟩ => (hs c h w e).elim⟩

theorem startSize_pos (x s : ℕ) : 0 < startSize x s := by unfold startSize; omega

/-- **C88.** A built `ConvDecoder2D` maps every batch of latents of the configured size to images of exactly the
configured shape, with entries in the range of the output activation; any other latent size is rejected. -/
theorem C88_conv {latent base ups c h w : ℤ} {act : Act} {m : Conv} (hm : mkConv latent [c, h, w] base ups act = .ok m)
    (P : Params) (z : Vec) :
    ((z.d : ℤ) ≠ latent → m.forward P z = .error .invalidParameter) ∧
    ((z.d : ℤ) = latent → ∃ y, m.forward P z = .ok y ∧ y.n = z.n ∧ (y.c : ℤ) = c ∧ (y.h : ℤ) = h ∧ (y.w : ℤ) = w ∧
      ∀ n k i j, act.Range (y.v n k i j)) := by
  obtain ⟨g1, ⟨c', h', w', ge, gc, gh, gw⟩, gb, gu, -⟩ := C88_conv_accepts.1 ⟨m, hm⟩
  cases ge
  unfold mkConv at hm
  rw [if_neg (by omega)] at hm
  dsimp only at hm
  split_ifs at hm
  cases hm
  unfold Conv.forward
  dsimp only
  constructor
  · intro hd
    rw [if_pos (by omega)]
  · intro hd
    rw [if_neg (by omega)]
    obtain ⟨y, e, hn, hy⟩ := linear_ok (P := P) (l := 0) (i := latent.toNat) (x := z)
      (o := base.toNat * startSize h.toNat (2 ^ ups.toNat) * startSize w.toNat (2 ^ ups.toNat)) (by omega)
    rw [e]; simp only [bind, Except.bind]
    obtain ⟨x1, e1, i1⟩ := unflatten_ok hy
    rw [e1]; simp only
    obtain ⟨x2, e2, i2⟩ := upRun_ok (P := P) (c := c.toNat) (m := ups.toNat) (l := 1) (startSize_pos _ _) (startSize_pos _ _) i1
    rw [e2]; simp only
    obtain ⟨x3, e3, i3⟩ := conv3_ok (P := P) (l := 0) (co := c.toNat) (bias := true) i2
      (by have := startSize_pos h.toNat (2 ^ ups.toNat); positivity) (by have := startSize_pos w.toNat (2 ^ ups.toNat); positivity)
    rw [e3]; simp only
    obtain ⟨k1, k2, k3, k4⟩ := fit_is (H := h.toNat) (W := w.toNat) i3
    refine ⟨_, rfl, ?_, ?_, ?_, ?_, fun n k i j => act.range_app _⟩ <;> simp only [Img.map]
    · exact k1.trans hn
    · rw [k2]; omega
    · rw [k3]; omega
    · rw [k4]; omega

/-- **C88.** Every image that a built `ConvDecoder2D` returns depends only on its own latent vector. -/
theorem C88_conv_rows {latent base ups : ℤ} {shape : List ℤ} {act : Act} {m : Conv}
    (hm : mkConv latent shape base ups act = .ok m) (P : Params) {z z' : Vec} {a b : ℕ} (h : VRow a b z z') :
    Rel (IRow a b) (m.forward P z) (m.forward P z') := by
  obtain ⟨-, ⟨c, hh, w, rfl, -⟩, -⟩ := C88_conv_accepts.1 ⟨m, hm⟩
  have hs : 0 < m.startH ∧ 0 < m.startW ∧ ∃ k c i, m.blocks = (convBlocks c k i).1 ∧ m.lastC = (convBlocks c k i).2 ∧
      m.startC = i := by
    unfold mkConv at hm
    dsimp only at hm
    split_ifs at hm
    cases hm
    exact ⟨startSize_pos _ _, startSize_pos _ _, _, _, _, rfl, rfl, rfl⟩
  obtain ⟨p1, p2, k, cc, i, hb, hl, hi⟩ := hs
  unfold Conv.forward
  rw [← h.1]
  split_ifs
  · rfl
  · refine (linear_row h).bind' fun _ _ h1 => ?_
    refine (unflatten_row h1).bind fun x1 _ e1 _ h2 => ?_
    refine (upRun_row h2).bind fun x2 _ e2 _ h3 => ?_
    refine (conv2d_row h3).bind fun x3 _ e3 _ h4 => ?_
    have s1 : x1.Is x1.n m.startC m.startH m.startW := by
      unfold unflatten at e1
      split_ifs at e1
      cases e1
      exact ⟨rfl, rfl, rfl, rfl⟩
    obtain ⟨y2, f2, s2⟩ := upRun_ok (P := P) (c := cc) (m := k) (l := 1) p1 p2 s1
    rw [hb, ← hi, f2] at e2
    cases e2
    obtain ⟨y3, f3, s3⟩ := conv3_ok (P := P) (l := 0) (co := m.c) (bias := true) s2 (by positivity) (by positivity)
    rw [hl, ← hi, f3] at e3
    cases e3
    refine ⟨_, rfl, imap_row (fit_row h4 ?_ ?_)⟩
    · rw [s3.2.2.1]; positivity
    · rw [s3.2.2.2]; positivity

/-! ## NeuralDecoder2D -/

/-- **C88.** `NeuralDecoder2D` accepts exactly positive sizes, an even number of hidden channels, at least two scales,
image sides divisible by `2 ^ num_scales` and the activations identity, linear, tanh and sigmoid. -/
theorem C88_neural_accepts {latent hid res nres ns : ℤ} {shape : List ℤ} {bn : Bool} {act : Act} :
    (∃ m, mkNeural latent shape hid res nres ns bn act = .ok m) ↔
      0 < latent ∧ (∃ c h w, shape = [c, h, w] ∧ 0 < c ∧ 0 < h ∧ 0 < w ∧ (2 ^ ns.toNat : ℤ) ∣ h ∧ (2 ^ ns.toNat : ℤ) ∣ w) ∧
        0 < hid ∧ 2 ∣ hid ∧ 0 < res ∧ 0 < nres ∧ 2 ≤ ns ∧ act ≠ .other := by
  have hdiv : ∀ {x : ℤ} (k : ℕ), 0 < x → (x.toNat % 2 ^ k = 0 ↔ (2 ^ k : ℤ) ∣ x) := by
    intro x k hx
    rw [← Nat.dvd_iff_mod_eq_zero, ← Int.natCast_dvd_natCast, Int.toNat_of_nonneg hx.le]
    simp
  unfold mkNeural
  by_cases h1 : latent ≤ 0
  · rw [if_pos h1]; exact ⟨fun ⟨_, h⟩ => (by cases h), fun h => by omega⟩
  rw [if_neg h1]
  split
  · rename_i c h w
    split_ifs with h2 h3 h4 h5 h6 h7
    · refine ⟨fun ⟨_, h⟩ => (by cases h), fun ⟨_, ⟨c', h', w', e, e1⟩, _⟩ => ?_⟩
      cases e; omega
    · exact ⟨fun ⟨_, h⟩ => (by cases h), fun h => by omega⟩
    · exact ⟨fun ⟨_, h⟩ => (by cases h), fun h => by omega⟩
    · refine ⟨fun ⟨_, h⟩ => (by cases h), fun ⟨_, ⟨c', h', w', e, e1, e2, e3, e4, e5⟩, _⟩ => ?_⟩
      cases e
      rcases h5 with h5 | h5
      · exact (h5 ((hdiv _ e2).2 e4)).elim
      · exact (h5 ((hdiv _ e3).2 e5)).elim
    · exact ⟨fun ⟨_, h⟩ => (by cases h), fun h => by omega⟩
    · exact ⟨fun ⟨_, h⟩ => (by cases h), fun h => (h.2.2.2.2.2.2.2 h7).elim⟩
    · simp only [not_or, not_not] at h5
      refine ⟨fun _ => ⟨by omega, ⟨c, h, w, rfl, by omega, by omega, by omega, (hdiv _ (by omega)).1 h5.1,
        (hdiv _ (by omega)).1 h5.2⟩, by omega, by omega, by omega, by omega, by omega, h7⟩, fun _ => ⟨_, rfl⟩⟩
  · rename_i hs
    exact ⟨fun ⟨_, h⟩ => (by cases h), fun ⟨_, ⟨c, h, w, e, _⟩, _⟩ => (hs c h w e).elim⟩

/-- What the constructor guarantees. -/
theorem mkNeural_spec {latent hid res nres ns c h w : ℤ} {bn : Bool} {act : Act} {m : Neural}
    (hm : mkNeural latent [c, h, w] hid res nres ns bn act = .ok m) :
    m.latent = latent.toNat ∧ m.c = c.toNat ∧ m.h = h.toNat ∧ m.w = w.toNat ∧ m.act = act ∧ m.bn = bn ∧ 0 < m.firstH ∧
      0 < m.firstW ∧ 2 ≤ m.nscales ∧ 2 ^ m.nscales * m.firstH = m.h ∧ 2 ^ m.nscales * m.firstW = m.w ∧
      m.firstH = h.toNat / 2 ^ ns.toNat ∧ m.firstW = w.toNat / 2 ^ ns.toNat := by
  obtain ⟨g1, ⟨c', h', w', ge, gc, gh, gw, -⟩, -, -, -, -, gn, -⟩ := C88_neural_accepts.1 ⟨m, hm⟩
  cases ge
  unfold mkNeural at hm
  rw [if_neg (by omega)] at hm
  dsimp only at hm
  split_ifs at hm with k1 k2 k3 k4 k5 k6
  cases hm
  simp only [not_or, not_not] at k4
  have d1 := Nat.dvd_of_mod_eq_zero k4.1
  have d2 := Nat.dvd_of_mod_eq_zero k4.2
  refine ⟨rfl, rfl, rfl, rfl, rfl, rfl, ?_, ?_, by dsimp only; omega, Nat.mul_div_cancel' d1, Nat.mul_div_cancel' d2, rfl, rfl⟩
  · exact Nat.div_pos (Nat.le_of_dvd (by omega) d1) (by positivity)
  · exact Nat.div_pos (Nat.le_of_dvd (by omega) d2) (by positivity)

theorem neural_run {m : Neural} {P : Params} {train : Bool} {z : Vec} (hH : 0 < m.firstH) (hW : 0 < m.firstW)
    (h2 : 2 ≤ m.nscales) (eh : 2 ^ m.nscales * m.firstH = m.h) (ew : 2 ^ m.nscales * m.firstW = m.w)
    (hd : z.d = m.latent) (ht : m.bn = true → train = true → 1 < z.n * m.firstH * m.firstW) :
    ∃ y : Img, y.Is z.n m.c m.h m.w ∧ m.forward P train z = .ok (y.map m.act.app) := by
  unfold Neural.forward
  rw [if_neg (by simp [hd])]
  obtain ⟨y, e, hn, hy⟩ := linear_ok (P := P) (l := 0) (o := m.firstH * m.firstW * m.hid) hd
  rw [e]; simp only [bind, Except.bind]
  have hq : (m.firstH * m.firstW * m.hid) / (m.firstH * m.firstW) = m.hid := Nat.mul_div_cancel_left _ (by positivity)
  rw [hq]
  obtain ⟨x1, e1, i1⟩ := unflatten_ok (c := m.hid) (h := m.firstH) (w := m.firstW) (x := y) (by rw [hy]; ring)
  rw [e1]; simp only
  rw [hn] at i1
  obtain ⟨x2, e2, i2⟩ := conv3_ok (P := P) (l := 0) (co := m.hid) (bias := true) i1 hH hW
  rw [e2]; simp only
  obtain ⟨x3, e3, i3⟩ := stack_ok (P := P) (res := m.res) (bn := m.bn) (train := train) hH hW ht (m := m.nres) (l := 3) i2
  rw [e3]; simp only
  obtain ⟨x4, e4, i4⟩ := scaleRun_ok (P := P) (m := m.nscales - 2) (l := 3 + 2 * m.nres) (x := x3.map relu) hH hW i3
  rw [e4]; simp only
  obtain ⟨x5, e5, i5⟩ := convT_ok (P := P) (l := 1) (co := m.hid / 2) i4 (by positivity) (by positivity)
  rw [e5]; simp only
  obtain ⟨x6, e6, i6⟩ := convT_ok (P := P) (l := 2) (co := m.c) (x := x5.map relu) i5 (by positivity) (by positivity)
  rw [e6]; simp only
  have hp : 2 ^ m.nscales = 2 * (2 * 2 ^ (m.nscales - 2)) := by
    obtain ⟨k, hk⟩ := Nat.exists_eq_add_of_le h2
    rw [hk, show 2 + k - 2 = k by omega, pow_add]
    ring
  have i6' : x6.Is z.n m.c m.h m.w := by
    rw [← eh, ← ew, hp]
    obtain ⟨a, b, c, d⟩ := i6
    exact ⟨a, b, by rw [c]; ring, by rw [d]; ring⟩
  refine ⟨x6, i6', ?_⟩
  unfold fit
  rw [if_neg (by simp [i6'.2.2.1, i6'.2.2.2])]

/-- **C88.** A built `NeuralDecoder2D`, in evaluation mode or without batch norm, maps every batch of latents of the
configured size to images of exactly the configured shape, with entries in the range of the output activation; any other
latent size is rejected.  In training mode with batch norm this holds whenever the batch and the coarse map together have
more than one entry. -/
theorem C88_neural {latent hid res nres ns c h w : ℤ} {bn : Bool} {act : Act} {m : Neural}
    (hm : mkNeural latent [c, h, w] hid res nres ns bn act = .ok m) (P : Params) (train : Bool) (z : Vec) :
    ((z.d : ℤ) ≠ latent → m.forward P train z = .error .invalidParameter) ∧
    ((z.d : ℤ) = latent → (bn = true → train = true → 1 < z.n * (h.toNat / 2 ^ ns.toNat) * (w.toNat / 2 ^ ns.toNat)) →
      ∃ y, m.forward P train z = .ok y ∧ y.n = z.n ∧ (y.c : ℤ) = c ∧ (y.h : ℤ) = h ∧ (y.w : ℤ) = w ∧
        ∀ n k i j, act.Range (y.v n k i j)) := by
  obtain ⟨g1, ⟨c', h', w', ge, gc, gh, gw, -⟩, -⟩ := C88_neural_accepts.1 ⟨m, hm⟩
  cases ge
  obtain ⟨s1, s2, s3, s4, s5, s6, s7, s8, s9, s10, s11, s12, s13⟩ := mkNeural_spec hm
  constructor
  · intro hd
    unfold Neural.forward
    rw [if_pos (by rw [s1]; omega)]
  · intro hd ht
    obtain ⟨y, hy, e⟩ := neural_run (P := P) (train := train) (z := z) s7 s8 s9 s10 s11 (by omega)
      (by rw [s6, s12, s13]; exact ht)
    obtain ⟨k1, k2, k3, k4⟩ := hy
    refine ⟨_, e, k1, ?_, ?_, ?_, fun n k i j => by rw [s5]; exact act.range_app _⟩ <;> simp only [Img.map]
    · rw [k2]; omega
    · rw [k3]; omega
    · rw [k4]; omega

/-- **C88.** In evaluation mode, and always without batch norm, every image a built `NeuralDecoder2D` returns depends
only on its own latent vector. -/
theorem C88_neural_rows {latent hid res nres ns : ℤ} {shape : List ℤ} {bn train : Bool} {act : Act} {m : Neural}
    (hm : mkNeural latent shape hid res nres ns bn act = .ok m) (ht : bn = true → train = false) (P : Params) {z z' : Vec}
    {a b : ℕ} (h : VRow a b z z') : Rel (IRow a b) (m.forward P train z) (m.forward P train z') := by
  obtain ⟨-, ⟨c, hh, w, rfl, -⟩, -⟩ := C88_neural_accepts.1 ⟨m, hm⟩
  obtain ⟨s1, s2, s3, s4, s5, s6, s7, s8, s9, s10, s11, -⟩ := mkNeural_spec hm
  by_cases hd : z.d = m.latent
  · have ht' : ∀ n, m.bn = true → train = true → 1 < n * m.firstH * m.firstW := by
      intro n e1 e2
      rw [ht (s6 ▸ e1)] at e2
      cases e2
    obtain ⟨y, hy, e⟩ := neural_run (P := P) (train := train) s7 s8 s9 s10 s11 hd (ht' _)
    unfold Neural.forward at e ⊢
    rw [← h.1]
    rw [if_neg (by simp [hd])] at e ⊢
    rw [if_neg (by simp [hd])]
    refine (linear_row h).bind' fun _ _ h1 => ?_
    refine (unflatten_row h1).bind' fun _ _ h2 => ?_
    refine (conv2d_row h2).bind' fun _ _ h3 => ?_
    refine (stack_row (by rw [s6]; exact ht) h3).bind' fun _ _ h4 => ?_
    refine (scaleRun_row (imap_row h4)).bind' fun _ _ h5 => ?_
    refine (convT_row h5).bind' fun x5 _ h6 => ?_
    refine (convT_row (imap_row h6)).bind fun x6 _ e6 _ h7 => ?_
    have hpos : 0 < x6.h ∧ 0 < x6.w := by
      unfold convT at e6
      split_ifs at e6
      cases e6
      exact ⟨by dsimp only; omega, by dsimp only; omega⟩
    exact ⟨_, rfl, imap_row (fit_row h7 hpos.1 hpos.2)⟩
  · unfold Neural.forward
    rw [← h.1, if_pos hd, if_pos hd]
    rfl

/-- **C88.** With batch norm, a training step on a single latent fails when the image side equals `2 ^ num_scales`: the
coarse map has one pixel, and batch norm needs more than one value. -/
theorem C88_single_row_training {latent hid res nres ns c : ℤ} {act : Act} {m : Neural}
    (hm : mkNeural latent [c, 2 ^ ns.toNat, 2 ^ ns.toNat] hid res nres ns true act = .ok m) (P : Params) {z : Vec}
    (hn : z.n = 1) (hd : (z.d : ℤ) = latent) : m.forward P true z = .error .valueError := by
  have hnr : 0 < nres := (C88_neural_accepts.1 ⟨m, hm⟩).2.2.2.2.2.1
  obtain ⟨s1, s2, s3, s4, s5, s6, s7, s8, s9, s10, s11, s12, s13⟩ := mkNeural_spec hm
  have hp : ((2 ^ ns.toNat : ℤ)).toNat = 2 ^ ns.toNat := by
    rw [show ((2 ^ ns.toNat : ℤ)) = ((2 ^ ns.toNat : ℕ) : ℤ) by simp, Int.toNat_natCast]
  have f1 : m.firstH = 1 := by rw [s12, hp]; exact Nat.div_self (by positivity)
  have f2 : m.firstW = 1 := by rw [s13, hp]; exact Nat.div_self (by positivity)
  have hnres : m.nres = nres.toNat := by
    unfold mkNeural at hm
    dsimp only at hm
    split_ifs at hm
    cases hm; rfl
  unfold Neural.forward
  rw [if_neg (by rw [s1]; simp only [ne_eq, not_not]; omega)]
  obtain ⟨y, e, hyn, hy⟩ := linear_ok (P := P) (l := 0) (i := m.latent) (o := m.firstH * m.firstW * m.hid) (x := z)
    (by rw [s1]; omega)
  rw [e]; simp only [bind, Except.bind]
  have hq : (m.firstH * m.firstW * m.hid) / (m.firstH * m.firstW) = m.hid := Nat.mul_div_cancel_left _ (by positivity)
  rw [hq]
  obtain ⟨x1, e1, i1⟩ := unflatten_ok (c := m.hid) (h := m.firstH) (w := m.firstW) (x := y) (by rw [hy]; ring)
  rw [e1]; simp only
  obtain ⟨x2, e2, i2⟩ := conv3_ok (P := P) (l := 0) (co := m.hid) (bias := true) i1 s7 s8
  rw [e2]; simp only
  obtain ⟨k, hk⟩ : ∃ k, m.nres = k + 1 := ⟨m.nres - 1, by omega⟩
  rw [hk]
  have : stack P m.hid m.res m.bn true (k + 1) 3 x2 = .error .valueError := by
    unfold stack residual
    obtain ⟨a1, g1, j1⟩ := conv3_ok (P := P) (l := 3) (co := m.res) (bias := false) (x := x2.map relu) i2 s7 s8
    rw [g1]; simp only [bind, Except.bind]
    have : bnIf P m.bn 3 m.res true a1 = .error .valueError := by
      obtain ⟨q1, q2, q3, q4⟩ := j1
      unfold bnIf batchNorm
      rw [s6, if_pos rfl, if_neg (by simp [q2]), if_pos ⟨rfl, by rw [q1, q3, q4, hyn, hn, f1, f2]⟩]
    rw [this]
  rw [this]

end Dec
end Verif

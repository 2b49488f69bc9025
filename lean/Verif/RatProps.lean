import Verif.Rat
import Verif.ConvSample
import Verif.FactorizeProps
import Verif.SplitsProps
import Verif.OuterProps
import Verif.EinsumProps

/-!
Helper lemmas for C67 and C68: the value of `log_likelihood` of a layered network.
-/

open MeasureTheory

namespace Verif.Conv

open Finset Verif.Circ

variable {μ : Var → Measure ℝ}

/-- Relabelling the channels per feature. -/
theorem Fam.remap {n C C' : ℕ} {s : ℕ → Finset Var} {u : ℕ → Row → ℕ → LogV} (h : Fam μ n C s u) {κ : ℕ → ℕ → ℕ}
    (hκ : ∀ f < n, ∀ ch < C', κ ch f < C) : Fam μ n C' s (fun f x ch => u f x (κ ch f)) where
  disj := h.disj
  loc f hf ch hch := h.loc f hf _ (hκ f hf ch hch)
  meas f hf ch hch := h.meas f hf _ (hκ f hf ch hch)
  miss f hf ch hch := h.miss f hf _ (hκ f hf ch hch)
  int f hf ch hch := h.int f hf _ (hκ f hf ch hch)
  mono f hf ch hch := h.mono f hf _ (hκ f hf ch hch)

/-- A layer of products: feature `f` of the input belongs to output feature `own f`, which reads its channel `κ ch f`. -/
theorem Fam.group {n n' C C' : ℕ} {s s' : ℕ → Finset Var} {u u' : ℕ → Row → ℕ → LogV} (h : Fam μ n C s u)
    {own : ℕ → ℕ} {κ : ℕ → ℕ → ℕ} (hκ : ∀ f < n, ∀ ch < C', κ ch f < C)
    (hs : ∀ o < n', ∀ v, v ∈ s' o ↔ ∃ f < n, own f = o ∧ v ∈ s f)
    (he : ∀ o < n', ∀ ch < C', ∀ x, u' o x ch = ∑ f ∈ (range n).filter (fun f => own f = o), u f x (κ ch f)) :
    Fam μ n' C' s' u' := by
  refine (h.remap hκ).prod (G := fun o => (range n).filter (fun f => own f = o)) (fun o _ => filter_subset _ _) ?_ ?_ he
  · intro o _ o' _ hne
    rw [Finset.disjoint_left]
    intro f hf hf'
    exact hne ((mem_filter.1 hf).2.symm.trans (mem_filter.1 hf').2)
  · intro o ho v
    rw [hs o ho v]
    simp only [mem_filter, mem_range, and_assoc]

theorem Fam.baseR {c : Circ} {r : ℕ} (h : Accepted c) (hal : Aligned c) (hl : LeafOk μ c) (hr : RepIn r c) :
    Fam μ c.F c.C (Circ.fscope c) (fun f x ch => featAt (den c) f x r ch) where
  disj _ hf _ hg hne := fscope_disjoint h hf hg hne
  loc _ hf _ hch _ _ hxy := featAt_local h hal hf hch hxy
  meas _ hf _ hch _ _ _ hΦ := featAt_measurable hΦ h hr hl hf hch
  miss _ hf _ hch _ hx := expL_featAt_missing h hal hr hf hch hx
  int _ hf _ hch _ hv _ := lintegral_one_var h hal hr hl hf hch hv
  mono _ hf _ hch _ _ hez := expL_zero_mono h hez hf hch

end Verif.Conv

namespace Verif.Rat

open Finset Verif.Circ
open Verif.Conv (Fam)

variable {μ : Var → Measure ℝ}

/-! ### Specification: which input features an output feature multiplies, and the resulting value -/

/-- Output feature that multiplies input feature `j`, for two parts of length `L`. -/
def own (mode : Mode) (L j : ℕ) : ℕ := match mode with
  | .consecutive => j % L
  | .interleaved => j / 2

/-- The part that contains input feature `j`. -/
def part (mode : Mode) (L j : ℕ) : ℕ := match mode with
  | .consecutive => j / L
  | .interleaved => j % 2

/-- Feature `f` of part `i`. -/
def feat (mode : Mode) (L f i : ℕ) : ℕ := match mode with
  | .consecutive => i * L + f
  | .interleaved => 2 * f + i

/-- Input channel of part `i` for output channel `co`: the same one, or the row-major pair. -/
def chan (outer : Bool) (C i co : ℕ) : ℕ := if outer then (if i = 0 then co / C else co % C) else co

namespace Net

/-- The log-density of feature `f`, channel `ch`, in repetition `r`. -/
noncomputable def den (r : ℕ) : Net → ℕ → Row → ℕ → LogV
  | fact c _ _ G => fun o x ch => ∑ i ∈ (range c.F).filter (fun i => Fact.owner (G r) i = o), featAt (Circ.den c) i x r ch
  | prod n mode _ outer => fun f x co =>
    ∑ j ∈ (range (F n)).filter (fun j => own mode (F n / 2) j = f), den r n j x (chan outer (C n) (part mode (F n / 2) j) co)
  | sum n _ θ => fun f x co => lse (C n) fun ci => den r n f x ci + logSoftmax (C n) (fun i => θ f i co r) ci
  | einsum n _ _ θ => fun f x co => lse (C n * C n) fun k =>
      (den r n (2 * f) x (k / C n) + den r n (2 * f + 1) x (k % C n)) +
        logSoftmax (C n * C n) (fun k => θ f co r (k / C n) (k % C n)) k
  | linsum n _ θ => fun f x co => lse (C n) fun c =>
      (den r n (2 * f) x c + den r n (2 * f + 1) x c) + logSoftmax (C n) (θ f co r) c
  | collapse n => fun _ x ch => ∑ f ∈ range (F n), den r n f x ch

/-- The variables of feature `f` in repetition `r`. -/
noncomputable def vars (r : ℕ) : Net → ℕ → Finset Var
  | fact c _ _ G => fun o => ((range c.F).filter (fun i => Fact.owner (G r) i = o)).biUnion (Circ.fscope c)
  | prod n mode _ _ => fun f => ((range (F n)).filter (fun j => own mode (F n / 2) j = f)).biUnion (vars r n)
  | sum n _ _ => vars r n
  | einsum n _ _ _ => fun f => ((range (F n)).filter (fun j => j / 2 = f)).biUnion (vars r n)
  | linsum n _ _ => fun f => ((range (F n)).filter (fun j => j / 2 = f)).biUnion (vars r n)
  | collapse n => fun _ => (range (F n)).biUnion (vars r n)

/-- The layers fit together. -/
def Good (μ : Var → Measure ℝ) : Net → Prop
  | fact c d R G => (Accepted c ∧ Aligned c ∧ LeafOk μ c) ∧ 1 ≤ c.C ∧ (tensorR c = some R ∨ tensorR c = some 1) ∧
      ∀ r < R, (G r).flatten.Perm (List.range c.F) ∧ (G r).length = 2 ^ d
  | prod n _ k _ => Good μ n ∧ k = 2 ∧ 2 ∣ F n ∧ 2 ≤ F n
  | sum n Co θ => Good μ n ∧ 1 ≤ Co ∧ ∀ f < F n, ∀ co < Co, ∀ r < R n, ∃ ci < C n, θ f ci co r ≠ ⊥
  | einsum n Co _ θ => Good μ n ∧ (2 ∣ F n ∧ 2 ≤ F n) ∧ 1 ≤ Co ∧
      ∀ f < F n / 2, ∀ co < Co, ∀ r < R n, ∃ k < C n * C n, θ f co r (k / C n) (k % C n) ≠ ⊥
  | linsum n Co θ => Good μ n ∧ (2 ∣ F n ∧ 2 ≤ F n) ∧ 1 ≤ Co ∧
      ∀ f < F n / 2, ∀ co < Co, ∀ r < R n, ∃ c < C n, θ f co r c ≠ ⊥
  | collapse n => Good μ n

/-- No leaf component is impossible on row `x`. -/
def Alive (x : Row) : Net → Prop
  | fact c _ R _ => ∀ r < R, ∀ i < c.F, ∀ ch < c.C, featAt (Circ.den c) i x r ch ≠ ⊥
  | prod n _ _ _ => Alive x n
  | sum n _ _ => Alive x n
  | einsum n _ _ _ => Alive x n
  | linsum n _ _ => Alive x n
  | collapse n => Alive x n

end Net

/-! ### Splits into two parts -/

theorem feat_lt {mode : Mode} {L f i : ℕ} (hf : f < L) (hi : i < 2) : feat mode L f i < 2 * L := by
  cases mode
  · show i * L + f < 2 * L
    rcases (by omega : i = 0 ∨ i = 1) with rfl | rfl <;> omega
  · show 2 * f + i < 2 * L; omega

theorem own_feat {mode : Mode} {L f i : ℕ} (hf : f < L) (hi : i < 2) : own mode L (feat mode L f i) = f ∧
    part mode L (feat mode L f i) = i := by
  cases mode
  · show (i * L + f) % L = f ∧ (i * L + f) / L = i
    rw [Nat.mul_comm, Nat.mul_add_mod, Nat.mul_add_div (by omega), Nat.mod_eq_of_lt hf, Nat.div_eq_of_lt hf]
    exact ⟨rfl, by omega⟩
  · show (2 * f + i) / 2 = f ∧ (2 * f + i) % 2 = i
    omega

theorem own_lt {mode : Mode} {L j : ℕ} (hj : j < 2 * L) : own mode L j < L ∧ part mode L j < 2 ∧
    feat mode L (own mode L j) (part mode L j) = j := by
  have hL : 0 < L := by omega
  cases mode
  · refine ⟨Nat.mod_lt _ hL, (Nat.div_lt_iff_lt_mul hL).2 hj, ?_⟩
    show j / L * L + j % L = j
    exact Nat.div_add_mod' j L
  · show j / 2 < L ∧ j % 2 < 2 ∧ 2 * (j / 2) + j % 2 = j
    omega

theorem filter_own {mode : Mode} {L f : ℕ} (hf : f < L) :
    (range (2 * L)).filter (fun j => own mode L j = f) = {feat mode L f 0, feat mode L f 1} := by
  ext j
  rw [mem_filter, mem_range, mem_insert, mem_singleton]
  constructor
  · rintro ⟨hj, rfl⟩
    obtain ⟨_, h2, h3⟩ := own_lt (mode := mode) hj
    rcases (by omega : part mode L j = 0 ∨ part mode L j = 1) with h | h
    · rw [h] at h3; exact .inl h3.symm
    · rw [h] at h3; exact .inr h3.symm
  · rintro (rfl | rfl)
    · exact ⟨feat_lt hf (by omega), (own_feat hf (by omega)).1⟩
    · exact ⟨feat_lt hf (by omega), (own_feat hf (by omega)).1⟩

theorem feat_ne {mode : Mode} {L f : ℕ} (hf : f < L) : feat mode L f 0 ≠ feat mode L f 1 := by
  intro h
  have h0 := (own_feat (mode := mode) hf (show 0 < 2 by omega)).2
  rw [h, (own_feat (mode := mode) hf (show 1 < 2 by omega)).2] at h0
  omega

theorem sum_own {M : Type*} [AddCommMonoid M] {mode : Mode} {L f : ℕ} (hf : f < L) (g : ℕ → M) :
    ∑ j ∈ (range (2 * L)).filter (fun j => own mode L j = f), g j = g (feat mode L f 0) + g (feat mode L f 1) := by
  rw [filter_own hf, sum_pair (feat_ne hf)]

theorem chunks_two (mode : Mode) {L : ℕ} (hL : 0 < L) : ∃ c0 c1, Net.chunks mode 2 (2 * L) = .ok [c0, c1] ∧
    c0.length = L ∧ c1.length = L ∧
    ∀ f < L, c0.getD f 0 = feat mode L f 0 ∧ c1.getD f 0 = feat mode L f 1 := by
  cases mode with
  | consecutive =>
    refine ⟨_, _, Split.C17_consecutive_split 2 L (by omega) hL (List.range (2 * L)) (by simp), ?_, ?_, ?_⟩
    · simp; omega
    · simp; omega
    · intro f hf
      constructor
      · have : f < 2 * L := by omega
        simp [List.getD_eq_getElem?_getD, List.getElem?_take, hf, this, feat]
      · have : L + f < 2 * L := by omega
        simp [List.getD_eq_getElem?_getD, List.getElem?_take, hf, this, feat]
  | interleaved =>
    have h0 := Split.strided_getElem 2 0 L (by omega) (List.range (2 * L)) (by simp)
    have h1 := Split.strided_getElem 2 1 L (by omega) (List.range (2 * L)) (by simp)
    refine ⟨Split.strided 2 0 (List.range (2 * L)), Split.strided 2 1 (List.range (2 * L)), rfl, h0.1, h1.1, ?_⟩
    intro f hf
    rw [List.getD_eq_getElem?_getD, List.getD_eq_getElem?_getD, h0.2 f hf, h1.2 f hf]
    have e0 : f * 2 + 0 < 2 * L := by omega
    have e1 : f * 2 + 1 < 2 * L := by omega
    rw [List.getElem?_range e0, List.getElem?_range e1]
    constructor
    · show f * 2 + 0 = 2 * f + 0; omega
    · show f * 2 + 1 = 2 * f + 1; omega

theorem prodF_two {F L : ℕ} (hF : F = 2 * L) (outer : Bool) : Net.prodF F 2 outer = L := by
  unfold Net.prodF
  subst hF
  split_ifs
  · omega
  · omega
  · omega

/-! ### Small facts about NaN-absorbing operations -/

theorem fsum_two_some (a b : LogV) : Routing.fsum [some a, some b] = some (a + b) := by
  show some (a + (b + 0)) = _
  rw [add_zero]

theorem fsum_map_some (l : List ℕ) (g : ℕ → LogV) : Routing.fsum (l.map fun i => some (g i)) = some (l.map g).sum := by
  induction l with
  | nil => rfl
  | cons i l ih => rw [List.map_cons, Routing.fsum, ih, List.map_cons, List.sum_cons]; rfl

theorem fsum_none {l : List (Option LogV)} (h : none ∈ l) : Routing.fsum l = none := by
  induction l with
  | nil => simp at h
  | cons x l ih =>
    cases x with
    | none => rfl
    | some x =>
      have : none ∈ l := by simpa using h
      simp [Routing.fsum, ih this]

theorem allSome_some {n : ℕ} {g : ℕ → Option LogV} {u : ℕ → LogV} (h : ∀ i < n, g i = some (u i)) :
    ∃ v, Net.allSome n g = some v ∧ ∀ i < n, v i = u i := by
  refine ⟨fun i => (g i).getD ⊥, ?_, fun i hi => by simp [h i hi]⟩
  unfold Net.allSome
  rw [if_pos]
  simp only [List.all_eq_true, List.mem_range]
  intro i hi
  rw [h i hi]; rfl

theorem allSome_none {n : ℕ} {g : ℕ → Option LogV} (h : ∃ i < n, g i = none) : Net.allSome n g = none := by
  obtain ⟨i, hi, he⟩ := h
  unfold Net.allSome
  rw [if_neg]
  simp only [List.all_eq_true, List.mem_range, not_forall]
  exact ⟨i, hi, by rw [he]; simp⟩

theorem lse_congr {n : ℕ} {f g : ℕ → LogV} (h : ∀ i < n, f i = g i) : lse n f = lse n g := by
  apply expL_injective
  rw [expL_lse, expL_lse]
  exact sum_congr rfl fun i hi => by rw [h i (mem_range.1 hi)]

theorem nanLse_some {n : ℕ} {g : ℕ → Option LogV} {u : ℕ → LogV} (h : ∀ i < n, g i = some (u i)) (w : ℕ → LogV) :
    Net.nanLse n g w = some (lse n fun i => u i + w i) := by
  obtain ⟨v, hv, hvu⟩ := allSome_some h
  unfold Net.nanLse
  rw [hv, Option.map_some, lse_congr fun i hi => by rw [hvu i hi]]

/-- A mixture with a live component. -/
theorem mix_ne_bot {n : ℕ} {u θ : ℕ → LogV} (hu : ∀ i < n, u i ≠ ⊥) (hθ : ∃ i < n, θ i ≠ ⊥) :
    lse n (fun i => u i + logSoftmax n θ i) ≠ ⊥ := by
  obtain ⟨i, hi, hne⟩ := hθ
  intro h0
  have h1 := (lse_eq_bot_iff _ _).1 h0 i hi
  rcases WithBot.add_eq_bot.1 h1 with h | h
  · exact hu i hi h
  · have : expL (logSoftmax n θ i) = 0 := by rw [h]; simp
    rw [expL_logSoftmax_eq_softmax] at this
    exact (softmax_pos hi hne).ne' this

theorem sum_ne_bot {s : Finset ℕ} {g : ℕ → LogV} (h : ∀ i ∈ s, g i ≠ ⊥) : ∑ i ∈ s, g i ≠ ⊥ := by
  rw [Ne, ← expL_eq_zero_iff, expL_sum, prod_eq_zero_iff]
  rintro ⟨i, hi, h0⟩
  exact h i hi ((expL_eq_zero_iff _).1 h0)

end Verif.Rat

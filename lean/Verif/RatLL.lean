import Verif.RatProps
import Verif.EmProps

/-!
Helper lemmas for C67 and C68: `log_likelihood` of a layered network computes `den`, and `den` is a family of normalised
densities.
-/

open MeasureTheory

namespace Verif.Rat

open Finset Verif.Circ
open Verif.Conv (Fam)

variable {μ : Var → Measure ℝ}

theorem outChannels_two (C : ℕ) : Outer.outChannels [C, C] = C * C := by
  rw [(Outer.C19_unravel_bijective [C, C]).1]; simp

theorem table_two {C co : ℕ} (h : co < C * C) : (Outer.unravelTable [C, C]).getD co [] = [co / C, co % C] := by
  have hC : 0 < C := by
    rcases Nat.eq_zero_or_pos C with h0 | h0
    · subst h0; omega
    · exact h0
  have hv : Outer.ValidTuple [C, C] [co / C, co % C] :=
    .cons ((Nat.div_lt_iff_lt_mul hC).2 h) (.cons (Nat.mod_lt _ hC) .nil)
  have := Outer.C19_unravel_row_major _ _ hv
  have e : Outer.rowMajor [C, C] [co / C, co % C] = co := by
    simp only [Outer.rowMajor, List.prod_cons, List.prod_nil, mul_one, add_zero]
    exact Nat.div_add_mod' co C
  rw [e] at this
  rw [List.getD_eq_getElem?_getD, this]; rfl

/-- Channel count of a product over two parts. -/
def prodC (C : ℕ) (outer : Bool) : ℕ := if outer then C * C else C

theorem C_prod (n : Net) (mode : Mode) (k : ℕ) (outer : Bool) : (Net.prod n mode k outer).C = prodC n.C outer := by
  show (if outer then Outer.outChannels [n.C, n.C] else n.C) = _
  rw [outChannels_two]; rfl

theorem chan_lt {outer : Bool} {C i co : ℕ} (h : co < prodC C outer) : chan outer C i co < C := by
  unfold chan; unfold prodC at h
  cases outer
  · simpa using h
  · simp only [if_true] at h ⊢
    have hC : 0 < C := by
      rcases Nat.eq_zero_or_pos C with h0 | h0
      · subst h0; omega
      · exact h0
    split_ifs
    · exact (Nat.div_lt_iff_lt_mul hC).2 h
    · exact Nat.mod_lt _ hC

theorem den_two {m : Mode} {L f : ℕ} (hf : f < L) (outer : Bool) (C co : ℕ) (g : ℕ → ℕ → LogV) :
    ∑ j ∈ (range (2 * L)).filter (fun j => own m L j = f), g j (chan outer C (part m L j) co) =
      g (feat m L f 0) (chan outer C 0 co) + g (feat m L f 1) (chan outer C 1 co) := by
  rw [sum_own hf (fun j => g j (chan outer C (part m L j) co)), (own_feat hf (show 0 < 2 by omega)).2,
    (own_feat hf (show 1 < 2 by omega)).2]

namespace Net

theorem even_F {n : Net} (h : 2 ∣ F n ∧ 2 ≤ F n) : F n = 2 * (F n / 2) ∧ 0 < F n / 2 := by omega

theorem den_prod {n : Net} {mode : Mode} {k : ℕ} {outer : Bool} (h : 2 ∣ F n ∧ 2 ≤ F n) (r : ℕ) {f : ℕ}
    (hf : f < F n / 2) (x : Row) (co : ℕ) : den r (prod n mode k outer) f x co =
      den r n (feat mode (F n / 2) f 0) x (chan outer (C n) 0 co) +
        den r n (feat mode (F n / 2) f 1) x (chan outer (C n) 1 co) := by
  have e := (even_F h).1
  show ∑ j ∈ (range (F n)).filter (fun j => own mode (F n / 2) j = f), _ = _
  rw [show range (F n) = range (2 * (F n / 2)) by rw [← e]]
  exact den_two hf outer (C n) co fun j c => den r n j x c

/-- An EinsumLayer is a Sum over the OuterProduct of an interleaved split. -/
theorem den_einsum {n : Net} {Co : ℕ} {p : Einsum.Path} {θ : ℕ → ℕ → ℕ → ℕ → ℕ → LogV} (h : 2 ∣ F n ∧ 2 ≤ F n) (r : ℕ)
    {f : ℕ} (hf : f < F n / 2) (x : Row) (co : ℕ) : den r (einsum n Co p θ) f x co =
      lse (C n * C n) fun k => den r (prod n .interleaved 2 true) f x k +
        logSoftmax (C n * C n) (fun k => θ f co r (k / C n) (k % C n)) k := by
  refine lse_congr fun k _ => ?_
  rw [den_prod h r hf]
  rfl

/-- A LinsumLayer is a Sum over the ElementwiseProduct of an interleaved split. -/
theorem den_linsum {n : Net} {Co : ℕ} {θ : ℕ → ℕ → ℕ → ℕ → LogV} (h : 2 ∣ F n ∧ 2 ≤ F n) (r : ℕ)
    {f : ℕ} (hf : f < F n / 2) (x : Row) (co : ℕ) : den r (linsum n Co θ) f x co =
      lse (C n) fun k => den r (prod n .interleaved 2 false) f x k + logSoftmax (C n) (θ f co r) k := by
  refine lse_congr fun k _ => ?_
  rw [den_prod h r hf]
  rfl

theorem posC {n : Net} (h : n.Good μ) : 1 ≤ C n := by
  induction n with
  | fact c d R G => exact h.2.1
  | prod n mode k outer ih =>
    rw [C_prod]
    have := ih h.1
    unfold prodC; split_ifs
    · exact Nat.mul_pos this this
    · exact this
  | sum n Co θ _ => exact h.2.1
  | einsum n Co p θ _ => exact h.2.2.1
  | linsum n Co θ _ => exact h.2.2.1
  | collapse n ih => exact ih h

/-- On a row on which no leaf component is impossible, `den` is everywhere finite. -/
theorem den_alive {n : Net} (h : n.Good μ) {x : Row} (ha : n.Alive x) {r : ℕ} (hr : r < R n) :
    ∀ f < F n, ∀ ch < C n, den r n f x ch ≠ ⊥ := by
  induction n with
  | fact c d R G =>
    intro f _ ch hch
    exact sum_ne_bot fun i hi => ha r hr i (mem_range.1 (mem_filter.1 hi).1) ch hch
  | prod n mode k outer ih =>
    intro f _ ch hch
    rw [C_prod] at hch
    exact sum_ne_bot fun i hi => ih h.1 ha hr i (mem_range.1 (mem_filter.1 hi).1) _ (chan_lt hch)
  | sum n Co θ ih =>
    intro f hf ch hch
    exact mix_ne_bot (fun ci hci => ih h.1 ha hr f hf ci hci) (h.2.2 f hf ch hch r hr)
  | einsum n Co p θ ih =>
    intro f hf ch hch
    have hf' : f < F n / 2 := hf
    have hC := posC h.1
    refine mix_ne_bot (fun k hk => ?_) (h.2.2.2 f hf ch hch r hr)
    rw [Ne, WithBot.add_eq_bot, not_or]
    exact ⟨ih h.1 ha hr _ (by omega) _ ((Nat.div_lt_iff_lt_mul hC).2 hk), ih h.1 ha hr _ (by omega) _ (Nat.mod_lt _ hC)⟩
  | linsum n Co θ ih =>
    intro f hf ch hch
    have hf' : f < F n / 2 := hf
    refine mix_ne_bot (fun k hk => ?_) (h.2.2.2 f hf ch hch r hr)
    rw [Ne, WithBot.add_eq_bot, not_or]
    exact ⟨ih h.1 ha hr _ (by omega) _ hk, ih h.1 ha hr _ (by omega) _ hk⟩
  | collapse n ih =>
    intro f _ ch hch
    exact sum_ne_bot fun i hi => ih h ha hr i (mem_range.1 hi) ch hch

theorem fact_logLik {G : List (List ℕ)} {F o : ℕ} {lls : ℕ → LogV} (hp : G.flatten.Perm (List.range F)) (ho : o < G.length)
    (hl : ∀ i < F, lls i ≠ ⊥) :
    Fact.logLik G F lls o = some (∑ i ∈ (range F).filter (fun i => Fact.owner G i = o), lls i) := by
  have e : Fact.logLik G F lls o = Fact.logLik G F (fun i => ((Em.real (lls i) : ℝ) : LogV)) o := by
    unfold Fact.logLik
    congr 1
    refine List.map_congr_left fun i hi => ?_
    beta_reduce
    rw [Em.coe_real (hl i (List.mem_range.1 hi))]
  rw [e, Fact.C20_log_likelihood_partial F G hp _ o ho]
  congr 1
  have e2 : (((List.range F).filter fun i => Fact.owner G i = o).map fun i => Em.real (lls i)).sum =
      ∑ i ∈ (range F).filter (fun i => Fact.owner G i = o), Em.real (lls i) := rfl
  rw [e2, ← Em.sum_coe_real]
  intro i hi
  exact hl i (mem_range.1 (mem_filter.1 hi).1)

theorem einsum_logLik {p : Einsum.Path} {C : ℕ} {left right : ℕ → LogV} {θ : ℕ → ℕ → LogV} (hC : 1 ≤ C)
    (hl : ∀ i < C, left i ≠ ⊥) (hr : ∀ i < C, right i ≠ ⊥) :
    Einsum.logLik p C C left right (Einsum.weights C C θ) = some (lse (C * C) fun k =>
      (left (k / C) + right (k % C)) + logSoftmax (C * C) (fun k => θ (k / C) (k % C)) k) := by
  obtain ⟨v, hv, he⟩ := Einsum.C21_likelihood_is_bilinear_partial p C C left right (Einsum.weights C C θ)
    (fun i _ j _ => softmax_nonneg _ _ _) ⟨0, hC, hl 0 hC⟩ ⟨0, hC, hr 0 hC⟩
  rw [hv]
  congr 1
  apply expL_injective
  rw [he, expL_lse, ← Einsum.sum_flat C C fun i j => Einsum.weights C C θ i j * (expL (left i) * expL (right j))]
  refine sum_congr rfl fun k _ => ?_
  rw [expL_add, expL_add, expL_logSoftmax_eq_softmax, mul_comm]
  unfold Einsum.weights
  rw [Nat.div_add_mod' k C]

/-- `log_likelihood` computes `den` on every row on which no leaf component is impossible. -/
theorem logLik_alive {n : Net} (h : n.Good μ) {x : Row} (ha : n.Alive x) : ∃ T, logLik n x = .ok T ∧
    ∀ f < F n, ∀ ch < C n, ∀ r < R n, T f ch r = some (den r n f x ch) := by
  induction n with
  | fact c d R G =>
    obtain ⟨-, -, ht, hG⟩ := h
    refine ⟨fun o ch r => Fact.logLik (G r) c.F (fun i => featAt (Circ.den c) i x r ch) o, ?_, ?_⟩
    · rcases ht with ht | ht
      · simp [logLik, ht]
      · simp [logLik, ht]
    · intro f hf ch hch r hr
      exact fact_logLik (hG r hr).1 (by rw [(hG r hr).2]; exact hf) fun i hi => ha r hr i hi ch hch
  | prod n mode k outer ih =>
    obtain ⟨hn, rfl, he⟩ := h
    obtain ⟨T, hT, hv⟩ := ih hn ha
    obtain ⟨e1, e2⟩ := even_F he
    obtain ⟨c0, c1, hc, l0, l1, hg⟩ := chunks_two mode e2
    rw [← e1] at hc
    have hpF : prodF (F n) 2 outer = F n / 2 := prodF_two e1 outer
    refine ⟨prodVal T [c0, c1] (C n) outer, ?_, ?_⟩
    · have hb : ([c0, c1].all fun l => l.length == prodF (F n) 2 outer) = true := by simp [l0, l1, hpF]
      simp only [logLik, hT, hc, bind, Except.bind, pure, Except.pure, throw, throwThe, MonadExceptOf.throw, hb]
      simp
    · intro f hf co hco r hr
      have hf' : f < F n / 2 := by rw [← hpF]; exact hf
      rw [C_prod] at hco
      rw [den_prod he r hf']
      have b0 := feat_lt (mode := mode) hf' (show 0 < 2 by omega)
      have b1 := feat_lt (mode := mode) hf' (show 1 < 2 by omega)
      rw [← e1] at b0 b1
      rw [← fsum_two_some, ← hv _ b0 _ (chan_lt hco) r hr, ← hv _ b1 _ (chan_lt hco) r hr, ← (hg f hf').1, ← (hg f hf').2]
      unfold prodVal chan
      cases outer <;> rfl
  | sum n Co θ ih =>
    obtain ⟨T, hT, hv⟩ := ih h.1 ha
    refine ⟨_, by simp only [logLik, hT, bind, Except.bind, pure, Except.pure]; rfl, ?_⟩
    intro f hf co hco r hr
    exact nanLse_some (fun ci hci => hv f hf ci hci r hr) _
  | einsum n Co p θ ih =>
    obtain ⟨T, hT, hv⟩ := ih h.1 ha
    refine ⟨_, by simp only [logLik, hT, bind, Except.bind, pure, Except.pure]; rfl, ?_⟩
    intro f hf co hco r hr
    have hf' : f < F n / 2 := hf
    obtain ⟨vl, hl, hl'⟩ := allSome_some fun i hi => hv (2 * f) (by omega) i hi r hr
    obtain ⟨vr, hr1, hr'⟩ := allSome_some fun i hi => hv (2 * f + 1) (by omega) i hi r hr
    have hC := posC h.1
    beta_reduce
    rw [hl, hr1, Option.bind_some, Option.bind_some, einsum_logLik hC
      (fun i hi => by rw [hl' i hi]; exact den_alive h.1 ha hr _ (by omega) i hi)
      (fun i hi => by rw [hr' i hi]; exact den_alive h.1 ha hr _ (by omega) i hi)]
    congr 1
    refine lse_congr fun k hk => ?_
    rw [hl' _ ((Nat.div_lt_iff_lt_mul hC).2 hk), hr' _ (Nat.mod_lt _ hC)]
  | linsum n Co θ ih =>
    obtain ⟨T, hT, hv⟩ := ih h.1 ha
    refine ⟨_, by simp only [logLik, hT, bind, Except.bind, pure, Except.pure]; rfl, ?_⟩
    intro f hf co hco r hr
    have hf' : f < F n / 2 := hf
    obtain ⟨vl, hl, hl'⟩ := allSome_some fun i hi => hv (2 * f) (by omega) i hi r hr
    obtain ⟨vr, hr1, hr'⟩ := allSome_some fun i hi => hv (2 * f + 1) (by omega) i hi r hr
    beta_reduce
    rw [hl, hr1, Option.bind_some, Option.map_some]
    congr 1
    refine lse_congr fun k hk => ?_
    rw [hl' _ hk, hr' _ hk]
  | collapse n ih =>
    obtain ⟨T, hT, hv⟩ := ih h ha
    refine ⟨_, by simp only [logLik, hT, bind, Except.bind, pure, Except.pure]; rfl, ?_⟩
    intro f hf co hco r hr
    have e : ((List.range (F n)).map fun f => T f co r) = (List.range (F n)).map fun f => some (den r n f x co) :=
      List.map_congr_left fun f hf => hv f (List.mem_range.1 hf) co hco r hr
    beta_reduce
    rw [e, fsum_map_some]
    rfl

/-! ### The family of densities -/

theorem fam_prod {n : Net} {r : ℕ} (mode : Mode) (k : ℕ) (outer : Bool) (he : 2 ∣ F n ∧ 2 ≤ F n)
    (h : Fam μ (F n) (C n) (vars r n) (den r n)) :
    Fam μ (F n / 2) (prodC (C n) outer) (vars r (prod n mode k outer)) (den r (prod n mode k outer)) := by
  refine h.group (own := own mode (F n / 2)) (κ := fun co j => chan outer (C n) (part mode (F n / 2) j) co)
    (fun j _ co hco => chan_lt hco) ?_ (fun o _ ch _ x => rfl)
  intro o _ v
  simp only [vars, mem_biUnion, mem_filter, mem_range, and_assoc]

theorem fam {n : Net} (h : n.Good μ) {r : ℕ} (hr : r < R n) : Fam μ (F n) (C n) (vars r n) (den r n) := by
  induction n with
  | fact c d R G =>
    obtain ⟨⟨ha, hal, hl⟩, -, ht, hG⟩ := h
    have hrep : RepIn r c := by
      rcases ht with ht | ht
      · exact repIn_of_tensorR ht (.inr hr)
      · exact repIn_of_tensorR ht (.inl rfl)
    refine (Fam.baseR ha hal hl hrep).group (own := Fact.owner (G r)) (κ := fun ch _ => ch) (fun _ _ _ h => h) ?_
      (fun o _ ch _ x => rfl)
    intro o _ v
    simp only [vars, mem_biUnion, mem_filter, mem_range, and_assoc]
  | prod n mode k outer ih =>
    obtain ⟨hn, rfl, he⟩ := h
    have := fam_prod mode 2 outer he (ih hn hr)
    rw [C_prod]
    show Fam μ (prodF (F n) 2 outer) _ _ _
    rw [prodF_two (even_F he).1]
    exact this
  | sum n Co θ ih =>
    refine (ih h.1 hr).sum (w := fun f co ci => softmax (C n) (fun i => θ f i co r) ci) (fun _ _ _ => softmax_nonneg _ _ _)
      (fun f hf co hco => sum_softmax (h.2.2 f hf co hco r hr)) ?_
    intro f _ co _ x
    show expL (lse _ _) = _
    rw [expL_lse]
    exact sum_congr rfl fun ci _ => by rw [expL_add, expL_logSoftmax_eq_softmax, mul_comm]
  | einsum n Co p θ ih =>
    obtain ⟨hn, he, hCo, hθ⟩ := h
    refine (fam_prod .interleaved 2 true he (ih hn hr)).sum
      (w := fun f co k => softmax (C n * C n) (fun k => θ f co r (k / C n) (k % C n)) k) (fun _ _ _ => softmax_nonneg _ _ _)
      (fun f hf co hco => sum_softmax (hθ f hf co hco r hr)) ?_
    intro f hf co _ x
    rw [den_einsum he r hf, expL_lse]
    exact sum_congr rfl fun ci _ => by rw [expL_add, expL_logSoftmax_eq_softmax, mul_comm]
  | linsum n Co θ ih =>
    obtain ⟨hn, he, hCo, hθ⟩ := h
    refine (fam_prod .interleaved 2 false he (ih hn hr)).sum
      (w := fun f co k => softmax (C n) (θ f co r) k) (fun _ _ _ => softmax_nonneg _ _ _)
      (fun f hf co hco => sum_softmax (hθ f hf co hco r hr)) ?_
    intro f hf co _ x
    rw [den_linsum he r hf, expL_lse]
    exact sum_congr rfl fun ci _ => by rw [expL_add, expL_logSoftmax_eq_softmax, mul_comm]
  | collapse n ih =>
    refine (ih h hr).group (n' := 1) (own := fun _ => 0) (κ := fun ch _ => ch) (fun _ _ _ h => h) ?_ ?_
    · intro o ho v
      obtain rfl : o = 0 := by omega
      simp only [vars, mem_biUnion, mem_range, true_and]
    · intro o ho ch _ x
      obtain rfl : o = 0 := by omega
      simp only [filter_true]
      rfl

end Net

end Verif.Rat

import Verif.ListProdProps

/-!
Helper lemmas for C69: the distribution of `_sample` of products over lists of modules.
-/

open MeasureTheory

namespace Verif.LP

open Finset Verif.Circ Verif.Prog
open Verif.Conv (Fam ratiosU actU mix_law ratiosU_local)

variable {μ : Var → Measure ℝ}

/-! ### Generic facts -/

theorem seq_ok {n : ℕ} {S : Fin n → Row → Prog Row} {A : Fin n → Set Var} {B : Set Var} (hA : ∀ v, v ∈ B ↔ ∃ i, v ∈ A i)
    (h : ∀ i, NoFail (S i) ∧ Frames (S i) (A i)) : NoFail (seqAll (List.ofFn S)) ∧ Frames (seqAll (List.ofFn S)) B := by
  constructor
  · apply seqAll_noFail
    intro s hs
    obtain ⟨i, rfl⟩ := List.mem_ofFn.1 hs
    exact (h i).1
  · have hset : B = {v | ∃ A' ∈ List.ofFn A, v ∈ A'} := by
      ext v
      rw [hA v, Set.mem_ofPred_eq]
      constructor
      · rintro ⟨i, hi⟩; exact ⟨_, List.mem_ofFn.2 ⟨i, rfl⟩, hi⟩
      · rintro ⟨A', hA', hv⟩
        obtain ⟨i, rfl⟩ := List.mem_ofFn.1 hA'
        exact ⟨i, hv⟩
    rw [hset]
    apply seqAll_frames
    rw [List.forall₂_iff_get]
    refine ⟨by simp, fun i h1 h2 => ?_⟩
    simpa using (h ⟨i, by simpa using h1⟩).2

theorem seq_law {n : ℕ} {S : Fin n → Row → Prog Row} {A : Fin n → Set Var} {ρ : Fin n → Row → ENNReal} {B : Set Var}
    {ρ' : Row → ENNReal} {e : Row} (hA : ∀ v, v ∈ B ↔ ∃ i, v ∈ A i) (hfr : ∀ i, Frames (S i) (A i))
    (hlaw : ∀ i, Law (S i) (A i) e (ρ i)) (hloc : ∀ i, LocalOn (A i) (ρ i)) (hdis : ∀ i j, i ≠ j → Disjoint (A i) (A j))
    (hρ : ∀ z, ρ' z = ∏ i, ρ i z) : Law (seqAll (List.ofFn S)) B e ρ' := by
  set b : Fin n → Blk := fun i => ⟨S i, A i, ρ i⟩ with hb
  have hl := seqAll_law (e := e) (List.ofFn b)
    (fun x hx => by obtain ⟨i, rfl⟩ := List.mem_ofFn.1 hx; exact hfr i)
    (fun x hx => by obtain ⟨i, rfl⟩ := List.mem_ofFn.1 hx; exact hlaw i)
    (fun x hx => by obtain ⟨i, rfl⟩ := List.mem_ofFn.1 hx; exact hloc i)
    (by
      rw [List.pairwise_iff_getElem]
      intro i j hi hj hij
      simp only [List.getElem_ofFn]
      exact hdis _ _ (by simp only [ne_eq, Fin.mk.injEq]; omega))
  rw [blk_map_s] at hl
  refine law_congr ?_ ?_ hl
  · ext v
    rw [hA v, Set.mem_ofPred_eq]
    constructor
    · rintro ⟨i, hi⟩; exact ⟨b i, List.mem_ofFn.2 ⟨i, rfl⟩, hi⟩
    · rintro ⟨_, hx, hi⟩
      obtain ⟨i, rfl⟩ := List.mem_ofFn.1 hx
      exact ⟨i, hi⟩
  · intro z
    rw [hρ z, List.map_ofFn, prod_ofFn_range]
    rfl

theorem slice_off {n : ℕ} (k : Fin n → ℕ) (ch : ℕ → ℕ) (mask : ℕ → Bool) (i : Fin n) :
    (sliceLoop ch mask 0 (List.ofFn k)).getD i (fun _ => 0, fun _ => false) =
      (fun f => ch (off k i + f), fun f => mask (off k i + f)) := by
  rw [List.getD_eq_getElem?_getD, sliceLoop_getElem? _ _ _ _ _ (by simp)]
  simp [off]

theorem route_off {n : ℕ} (k : Fin n → ℕ) (ch : ℕ → ℕ) (mask : ℕ → Bool) (i : Fin n) :
    (routeLoop ch mask 0 (List.ofFn k)).getD i (fun _ => 0, fun _ => false) =
      (fun f => if off k i ≤ ch f ∧ ch f < off k i + k i then ch f - off k i else 0,
       fun f => decide (off k i ≤ ch f ∧ ch f < off k i + k i) && mask f) := by
  rw [List.getD_eq_getElem?_getD, routeLoop_getElem? _ _ _ _ _ (by simp)]
  simp only [off, Option.getD_some, List.getElem_ofFn, zero_add]
  rfl

theorem off_unique {n : ℕ} (k : Fin n → ℕ) {i j : Fin n} {ch : ℕ} (hi : off k i ≤ ch ∧ ch < off k i + k i)
    (hj : off k j ≤ ch ∧ ch < off k j + k j) : i = j := by
  unfold off at hi hj
  rcases lt_trichotomy i j with h | h | h
  · have := take_sum_le (List.ofFn k) (i := i) (j := j) (by simp) h
    simp at this; omega
  · exact h
  · have := take_sum_le (List.ofFn k) (i := j) (j := i) (by simp) h
    simp at this; omega

theorem prod_off {M : Type*} [CommMonoid M] {n : ℕ} (k : Fin n → ℕ) (G : ℕ → M) :
    ∏ f ∈ range (List.ofFn k).sum, G f = ∏ i : Fin n, ∏ f ∈ range (k i), G (off k i + f) := by
  rw [prod_range_offsets]
  unfold off
  refine Fintype.prod_equiv (finCongr (by simp)) _ _ fun i => ?_
  simp
  rfl

namespace Mod

/-! ### Conditions for sampling -/

/-- `r` is a valid repetition index of every module (else `_sample` raises). -/
def RepS (r : ℕ) : Mod → Prop
  | base c => Circ.RepS r c
  | cat1 _ cs => ∀ i, RepS r (cs i)
  | cat2 _ cs => ∀ i, RepS r (cs i)
  | fold m => RepS r m
  | mul _ _ cs => ∀ i, RepS r (cs i)
  | sum m _ R _ => RepS r m ∧ r < R

/-- Every leaf has at least one channel. -/
def PosCh : Mod → Prop
  | base c => Circ.PosCh c
  | cat1 _ cs => ∀ i, PosCh (cs i)
  | cat2 _ cs => ∀ i, PosCh (cs i)
  | fold m => PosCh m
  | mul _ _ cs => ∀ i, PosCh (cs i)
  | sum m _ _ _ => PosCh m

/-- No Sum unit has probability zero on row `e`. -/
def Live (e : Row) (r : ℕ) : Mod → Prop
  | base c => Circ.Live e r c
  | cat1 _ cs => ∀ i, Live e r (cs i)
  | cat2 _ cs => ∀ i, Live e r (cs i)
  | fold m => Live e r m
  | mul _ _ cs => ∀ i, Live e r (cs i)
  | sum m Co R θ => Live e r m ∧ ∀ f < F m, ∀ co < Co, val (sum m Co R θ) f e r co ≠ ⊥

theorem RepS.repIn {r : ℕ} {m : Mod} (h : m.RepS r) : m.RepIn r := by
  induction m with
  | base c => exact Circ.RepS.repIn h
  | cat1 n cs ih => exact fun i => ih i (h i)
  | cat2 n cs ih => exact fun i => ih i (h i)
  | fold m ih => exact ih h
  | mul outer n cs ih => exact fun i => ih i (h i)
  | sum m Co R θ ih => exact ⟨ih h.1, .inr h.2⟩

theorem posC {m : Mod} (h : m.Good μ) (hp : m.PosCh) : 1 ≤ C m := by
  induction m with
  | base c => exact Circ.posC h.1 hp
  | cat1 n cs ih =>
    have hn := pos_of_ne (check1_ok h.2).2.2.1
    rw [C, dif_pos hn]
    exact ih _ (h.1 _) (hp _)
  | cat2 n cs ih =>
    have hn := pos_of_ne (check2_ok h.2.1).2.2
    have h1 := ih ⟨0, hn⟩ (h.1 _) (hp _)
    have := off_lt (fun i => C (cs i)) ⟨0, hn⟩ (j := 0) h1
    rw [C]
    omega
  | fold m ih => exact ih h hp
  | mul outer n cs ih =>
    have hn := pos_of_ne (checkMul_ok h.2.1).1
    cases outer with
    | false =>
      show 1 ≤ (counts cs).foldr max 0
      exact (ih ⟨0, hn⟩ (h.1 _) (hp _)).trans (le_foldr_max (List.mem_ofFn.2 ⟨_, rfl⟩))
    | true =>
      show 1 ≤ Outer.outChannels (counts cs)
      rw [(Outer.C19_unravel_bijective _).1, Nat.one_le_iff_ne_zero]
      intro h0
      rw [List.prod_eq_zero_iff] at h0
      obtain ⟨i, hi⟩ := List.mem_ofFn.1 h0
      have := ih i (h.1 i) (hp i)
      omega
  | sum m Co R θ ih => exact h.2.1

theorem repS_lt {r : ℕ} {m : Mod} (h : m.Good μ) (hr : m.RepS r) : r < R m := by
  induction m with
  | base c => exact Circ.repS_lt h.1 hr
  | cat1 n cs ih =>
    rw [R, dif_pos (pos_of_ne (check1_ok h.2).2.2.1)]; exact ih _ (h.1 _) (hr _)
  | cat2 n cs ih =>
    rw [R, dif_pos (pos_of_ne (check2_ok h.2.1).2.2)]; exact ih _ (h.1 _) (hr _)
  | fold m ih => exact ih h hr
  | mul outer n cs ih =>
    rw [R, dif_pos (pos_of_ne (checkMul_ok h.2.1).1)]; exact ih _ (h.1 _) (hr _)
  | sum m Co R θ ih => exact hr.2

/-- Without any observation every Sum unit has probability one. -/
theorem live_missing {m : Mod} (h : m.Good μ) {r : ℕ} (hr : m.RepS r) {e : Row} (he : ∀ v, e v = none) : m.Live e r := by
  induction m with
  | base c => exact Circ.live_missing h.1 h.2.1 hr he
  | cat1 n cs ih => exact fun i => ih i (h.1 i) (hr i)
  | cat2 n cs ih => exact fun i => ih i (h.1 i) (hr i)
  | fold m ih => exact ih h hr
  | mul outer n cs ih => exact fun i => ih i (h.1 i) (hr i)
  | sum m Co R θ ih =>
    refine ⟨ih h.1 hr.1, fun f hf co hco => ?_⟩
    rw [Ne, ← expL_eq_zero_iff, (fam (m := sum m Co R θ) h hr.repIn).miss f hf co hco e fun v _ => he v]
    exact one_ne_zero

/-! ### `_sample` on valid requests -/

theorem sample_cat1 {ev : Option Row} {r : ℕ} {n : ℕ} {cs : Fin n → Mod} (h : (cat1 n cs).Good μ) (hp : (cat1 n cs).PosCh)
    (hr : (cat1 n cs).RepS r) {ch : ℕ → ℕ} {mask : ℕ → Bool} (hch : ∀ f < F (cat1 n cs), ch f < C (cat1 n cs)) :
    sample ev r (cat1 n cs) ch mask = seqAll (List.ofFn fun i : Fin n =>
      sample ev r (cs i) (fun f => ch (off (fun i => F (cs i)) i + f)) (fun f => mask (off (fun i => F (cs i)) i + f))) := by
  funext y
  have hv : validCtx (F (cat1 n cs)) (C (cat1 n cs)) (R (cat1 n cs)) ch mask r = true :=
    validCtx_of (posC h hp) hch (repS_lt h hr)
  rw [sample]
  simp only [hv, Bool.not_true, Bool.false_eq_true, if_false, slice_off]

theorem sample_cat2 {ev : Option Row} {r : ℕ} {n : ℕ} {cs : Fin n → Mod} (h : (cat2 n cs).Good μ) (hp : (cat2 n cs).PosCh)
    (hr : (cat2 n cs).RepS r) {ch : ℕ → ℕ} {mask : ℕ → Bool} (hch : ∀ f < F (cat2 n cs), ch f < C (cat2 n cs)) :
    sample ev r (cat2 n cs) ch mask = seqAll (List.ofFn fun i : Fin n =>
      sample ev r (cs i) (fun f => if off (fun i => C (cs i)) i ≤ ch f ∧ ch f < off (fun i => C (cs i)) i + C (cs i) then
          ch f - off (fun i => C (cs i)) i else 0)
        (fun f => decide (off (fun i => C (cs i)) i ≤ ch f ∧ ch f < off (fun i => C (cs i)) i + C (cs i)) && mask f)) := by
  have hroute : routeOffsets (F (cat2 n cs)) (List.ofFn fun i : Fin n => C (cs i)) ch mask =
      .ok (routeLoop ch mask 0 (List.ofFn fun i : Fin n => C (cs i))) := by
    unfold routeOffsets
    rw [if_neg, if_neg]
    · simp only [List.any_eq_true, List.mem_range, Bool.and_eq_true, decide_eq_true_eq, not_exists, not_and]
      intro f hf _
      have := hch f hf
      simp only [C] at this
      omega
    · simp only [List.any_eq_true, List.mem_ofFn, decide_eq_true_eq, not_exists, not_and]
      rintro _ ⟨i, rfl⟩
      have := posC (h.1 i) (hp i)
      omega
  funext y
  have hv : validCtx (F (cat2 n cs)) (C (cat2 n cs)) (R (cat2 n cs)) ch mask r = true :=
    validCtx_of (posC h hp) hch (repS_lt h hr)
  rw [sample]
  simp only [hv, Bool.not_true, Bool.false_eq_true, if_false, hroute, route_off]

theorem sample_fold {ev : Option Row} {r : ℕ} {m : Mod} (h : m.Good μ) (hp : m.PosCh) (hr : m.RepS r)
    {ch : ℕ → ℕ} {mask : ℕ → Bool} (hch : ch 0 < C m) :
    sample ev r (fold m) ch mask = sample ev r m (fun _ => ch 0) (fun _ => mask 0) := by
  funext y
  have hv : validCtx 1 (C m) (R m) ch mask r = true := validCtx_of (posC h hp) (fun f hf => by
    obtain rfl : f = 0 := by omega
    exact hch) (repS_lt h hr)
  rw [sample]
  simp only [hv, Bool.not_true, Bool.false_eq_true, if_false]

theorem sample_mul {ev : Option Row} {r : ℕ} {outer : Bool} {n : ℕ} {cs : Fin n → Mod} (h : (mul outer n cs).Good μ)
    (hp : (mul outer n cs).PosCh) (hr : (mul outer n cs).RepS r) {ch : ℕ → ℕ} {mask : ℕ → Bool}
    (hch : ∀ f < F (mul outer n cs), ch f < C (mul outer n cs)) :
    sample ev r (mul outer n cs) ch mask = seqAll (List.ofFn fun i : Fin n =>
      sample ev r (cs i) (fun f => chan outer (counts cs) (ch f) i) mask) := by
  funext y
  have hv : validCtx (F (mul outer n cs)) (C (mul outer n cs)) (R (mul outer n cs)) ch mask r = true :=
    validCtx_of (posC h hp) hch (repS_lt h hr)
  have hall : ((List.range (F (mul outer n cs))).all fun f => decide (ch f < C (mul outer n cs))) = true := by
    simpa using hch
  rw [sample]
  simp only [hv, hall, Bool.not_true, Bool.and_false, Bool.false_eq_true, if_false]
  congr 1
  congr 1
  funext i
  rw [if_pos (mul_F h.2.2 i)]

theorem sample_sum {ev : Option Row} {r : ℕ} {m : Mod} {Co R : ℕ} {θ} (h : (sum m Co R θ).Good μ)
    (hr : (sum m Co R θ).RepS r) {ch : ℕ → ℕ} {mask : ℕ → Bool} (hch : ∀ f < F m, ch f < Co) :
    sample ev r (sum m Co R θ) ch mask = fun y =>
      (pickAll (C m) (sumLogits ev r m θ ch) (F m)).bind fun ch' => sample ev r m ch' mask y := by
  funext y
  have hall : ((List.range (F m)).all fun f => decide (ch f < Co)) = true := by simpa using hch
  have hv : validCtx (F m) Co R ch mask r = true := validCtx_of h.2.1 hch hr.2
  rw [sample]
  simp only [hv, hall, Bool.not_true, Bool.false_eq_true, if_false]

theorem expL_val_sum {m : Mod} {Co R : ℕ} {θ} (f : ℕ) (x : Row) (r co : ℕ) : expL (val (sum m Co R θ) f x r co) =
    ∑ ci ∈ range (C m), softmax (C m) (fun i => θ f i co (bc R r)) ci * expL (val m f x r ci) := by
  rw [val]
  beta_reduce
  rw [expL_lse]
  exact sum_congr rfl fun ci _ => by rw [expL_add, expL_logSoftmax_eq_softmax, mul_comm]

theorem sumLogits_alive {ev : Option Row} {r : ℕ} {m : Mod} {Co R : ℕ} {θ} (h : (sum m Co R θ).Good μ)
    (hr : r < R) (hev : ∀ e, ev = some e → (sum m Co R θ).Live e r) {ch : ℕ → ℕ} {f : ℕ} (hf : f < F m) (hch : ch f < Co) :
    ¬ Dead (C m) (sumLogits ev r m θ ch f) := by
  intro hd
  cases ev with
  | none =>
    obtain ⟨ci, hci, hne⟩ := h.2.2 f hf (ch f) hch r hr
    exact hne (hd ci hci)
  | some e =>
    have hl := (hev e rfl).2 f hf (ch f) hch
    rw [Ne, ← expL_eq_zero_iff, expL_val_sum, bc_of_lt hr] at hl
    apply hl
    refine Finset.sum_eq_zero fun ci hci => ?_
    have := hd ci (Finset.mem_range.1 hci)
    simp only [sumLogits] at this
    rw [← expL_eq_zero_iff, expL_logSoftmax, div_eq_zero_iff] at this
    have h0 : expL (θ f ci (ch f) r + val m f e r ci) = 0 := by
      rcases this with h0 | h0
      · exact h0
      · exact (Finset.sum_eq_zero_iff_of_nonneg fun i _ => expL_nonneg _).1 h0 ci hci
    rw [expL_add, mul_eq_zero] at h0
    rcases h0 with h0 | h0
    · rw [softmax_eq, h0]; simp
    · rw [h0, mul_zero]

/-! ### Active variables of the inputs -/

theorem act_cat1 {n : ℕ} (cs : Fin n → Mod) (mask : ℕ → Bool) (v : Var) :
    v ∈ actU (F (cat1 n cs)) (fs (cat1 n cs)) mask ↔
      ∃ i, v ∈ actU (F (cs i)) (fs (cs i)) fun f => mask (off (fun i => F (cs i)) i + f) := by
  constructor
  · rintro ⟨f, hf, hm, hv⟩
    obtain ⟨i, f', hf', rfl⟩ := exists_off (k := fun i => F (cs i)) hf
    rw [fs, blk_offset ∅ (fun i => F (cs i)) (fun i => fs (cs i)) i hf'] at hv
    exact ⟨i, f', hf', hm, hv⟩
  · rintro ⟨i, f, hf, hm, hv⟩
    exact ⟨_, off_lt (fun i => F (cs i)) i hf, hm, by
      rw [fs, blk_offset ∅ (fun i => F (cs i)) (fun i => fs (cs i)) i hf]; exact hv⟩

theorem fs_cat2 {n : ℕ} {cs : Fin n → Mod} (h : (cat2 n cs).Good μ) (i : Fin n) {f : ℕ} (hf : f < F (cs i)) :
    fs (cat2 n cs) f = fs (cs i) f := by
  have hn : 0 < n := i.pos
  rw [fs, dif_pos hn]
  exact (h.2.2 i ⟨0, hn⟩ f hf).symm

theorem act_cat2 {n : ℕ} {cs : Fin n → Mod} (h : (cat2 n cs).Good μ) {ch : ℕ → ℕ}
    (hch : ∀ f < F (cat2 n cs), ch f < C (cat2 n cs)) (mask : ℕ → Bool) (v : Var) :
    v ∈ actU (F (cat2 n cs)) (fs (cat2 n cs)) mask ↔ ∃ i, v ∈ actU (F (cs i)) (fs (cs i)) fun f =>
      decide (off (fun i => C (cs i)) i ≤ ch f ∧ ch f < off (fun i => C (cs i)) i + C (cs i)) && mask f := by
  constructor
  · rintro ⟨f, hf, hm, hv⟩
    obtain ⟨i, k, hk, he⟩ := exists_off (k := fun i => C (cs i)) (hch f hf)
    have hf' : f < F (cs i) := by rw [cat2_F h.2.1 i]; exact hf
    refine ⟨i, f, hf', ?_, by rwa [fs_cat2 h i hf'] at hv⟩
    simp only [hm, Bool.and_true, decide_eq_true_eq]
    omega
  · rintro ⟨i, f, hf, hm, hv⟩
    simp only [Bool.and_eq_true] at hm
    exact ⟨f, by rwa [← cat2_F h.2.1 i], hm.2, by rwa [fs_cat2 h i hf]⟩

theorem act_fold (m : Mod) (mask : ℕ → Bool) : actU (F (fold m)) (fs (fold m)) mask = actU (F m) (fs m) fun _ => mask 0 := by
  ext v
  constructor
  · rintro ⟨f, hf, hm, hv⟩
    obtain rfl : f = 0 := by simp only [F] at hf; omega
    simp only [fs, mem_biUnion, mem_range] at hv
    obtain ⟨g, hg, hv⟩ := hv
    exact ⟨g, hg, hm, hv⟩
  · rintro ⟨g, hg, hm, hv⟩
    refine ⟨0, by simp [F], hm, ?_⟩
    simp only [fs, mem_biUnion, mem_range]
    exact ⟨g, hg, hv⟩

theorem act_mul {outer : Bool} {n : ℕ} {cs : Fin n → Mod} (hF : ∀ i j : Fin n, F (cs i) = F (cs j)) (mask : ℕ → Bool)
    (v : Var) : v ∈ actU (F (mul outer n cs)) (fs (mul outer n cs)) mask ↔ ∃ i, v ∈ actU (F (cs i)) (fs (cs i)) mask := by
  constructor
  · rintro ⟨f, hf, hm, hv⟩
    simp only [fs, mem_biUnion, mem_univ, true_and] at hv
    obtain ⟨i, hv⟩ := hv
    exact ⟨i, f, by rw [mul_F (outer := outer) hF i]; exact hf, hm, hv⟩
  · rintro ⟨i, f, hf, hm, hv⟩
    refine ⟨f, by rw [← mul_F hF i]; exact hf, hm, ?_⟩
    simp only [fs, mem_biUnion, mem_univ, true_and]
    exact ⟨i, hv⟩

/-! ### No exception and frame condition -/

theorem sample_ok {ev : Option Row} {r : ℕ} {m : Mod} (h : m.Good μ) (hp : m.PosCh) (hr : m.RepS r)
    (hev : ∀ e, ev = some e → m.Live e r) : ∀ (ch : ℕ → ℕ) (mask : ℕ → Bool), (∀ f < F m, ch f < C m) →
      NoFail (sample ev r m ch mask) ∧ Frames (sample ev r m ch mask) (actU (F m) (fs m) mask) := by
  induction m with
  | base c =>
    intro ch mask hch
    exact Circ.sample_ok h.1 h.2.1 hp hr hev ch mask hch
  | cat1 n cs ih =>
    intro ch mask hch
    rw [sample_cat1 h hp hr hch]
    refine seq_ok (act_cat1 cs mask) fun i => ih i (h.1 i) (hp i) (hr i) (fun e he => hev e he i) _ _ fun f hf => ?_
    rw [cat1_C h.2 i]
    exact hch _ (off_lt (fun i => F (cs i)) i hf)
  | cat2 n cs ih =>
    intro ch mask hch
    rw [sample_cat2 h hp hr hch]
    refine seq_ok (act_cat2 h hch mask) fun i => ih i (h.1 i) (hp i) (hr i) (fun e he => hev e he i) _ _ fun f hf => ?_
    have := posC (h.1 i) (hp i)
    split <;> omega
  | fold m ih =>
    intro ch mask hch
    have h0 : ch 0 < C m := hch 0 (by simp [F])
    rw [sample_fold (m := m) h hp hr h0, act_fold]
    exact ih h hp hr hev _ _ fun _ _ => h0
  | mul outer n cs ih =>
    intro ch mask hch
    rw [sample_mul h hp hr hch]
    refine seq_ok (act_mul h.2.2 mask) fun i => ih i (h.1 i) (hp i) (hr i) (fun e he => hev e he i) _ _ fun f hf => ?_
    rw [mul_F (outer := outer) h.2.2 i] at hf
    exact chan_lt h.2.1 (hch f hf) i
  | sum m Co R θ ih =>
    intro ch mask hch
    replace hch : ∀ f < F m, ch f < Co := hch
    rw [sample_sum h hr hch]
    have hih := ih h.1 hp hr.1 (fun e he => (hev e he).1)
    constructor
    · intro y
      exact not_fails_bind (pickAll_noFail fun f hf => sumLogits_alive h hr.2 hev hf (hch f hf))
        fun ch' ho => (hih ch' mask (pickAll_outcome ho)).1 y
    · intro y z ho
      beta_reduce at ho
      rw [outcome_bind] at ho
      obtain ⟨ch', h1, h2⟩ := ho
      exact (hih ch' mask (pickAll_outcome h1)).2 y z h2

/-! ### The distribution -/

/-- For every request with positive likelihood on the evidence, completions have the ratio of likelihoods as their
probability. -/
theorem sample_law {ev : Option Row} {e : Row} (hE : Conv.Net.Ev ev e) {r : ℕ} {m : Mod} (h : m.Good μ) (hp : m.PosCh)
    (hr : m.RepS r) (hl : m.Live e r) : ∀ (ch : ℕ → ℕ) (mask : ℕ → Bool), (∀ f < F m, ch f < C m) →
      (∀ f < F m, mask f = true → expL (val m f e r (ch f)) ≠ 0) →
      Law (sample ev r m ch mask) (actU (F m) (fs m) mask) e (ratiosU (F m) (fun f x c => val m f x r c) e ch mask) := by
  have hev : ∀ {m : Mod}, m.Live e r → ∀ e', ev = some e' → m.Live e' r := by
    intro m hm e' he'
    rcases hE with h1 | ⟨h1, -⟩
    · rw [h1] at he'; cases he'; exact hm
    · rw [h1] at he'; cases he'
  induction m with
  | base c =>
    intro ch mask hch hpos
    have hlaw := Circ.sample_law h.1 h.2.1 hp hr hl ch mask hch hpos
    rcases hE with rfl | ⟨rfl, hm⟩
    · exact hlaw
    · intro y z h1 h2 h3
      have := hlaw y z h1 h2 h3
      refine Eq.trans ?_ this
      unfold Prog.prob
      exact sample_none_E h.1 h.2.1 hp hr hm ch mask hch _ _
  | cat1 n cs ih =>
    intro ch mask hch hpos
    rw [sample_cat1 h hp hr hch]
    obtain ⟨-, hd, hne, -⟩ := check1_ok h.2
    have hchild : ∀ i, ∀ f < F (cs i), ch (off (fun i => F (cs i)) i + f) < C (cs i) := by
      intro i f hf
      rw [cat1_C h.2 i]
      exact hch _ (off_lt (fun i => F (cs i)) i hf)
    have hval : ∀ (i : Fin n) f, f < F (cs i) → ∀ x c, val (cat1 n cs) (off (fun i => F (cs i)) i + f) x r c =
        val (cs i) f x r c := fun i f hf x c =>
      blk_offset ⊥ (fun i => F (cs i)) (fun i k => val (cs i) k x r c) i hf
    refine seq_law (act_cat1 cs mask) (fun i => (sample_ok (h.1 i) (hp i) (hr i) (hev (hl i)) _ _ (hchild i)).2)
      (fun i => ih i (h.1 i) (hp i) (hr i) (hl i) _ _ (hchild i) fun f hf hm => ?_)
      (fun i => ratiosU_local (fam (h.1 i) (hr i).repIn) (hchild i)) ?_ ?_
    · have := hpos _ (off_lt (fun i => F (cs i)) i hf) hm
      rwa [hval i f hf] at this
    · intro i j hij
      rw [Set.disjoint_left]
      rintro v ⟨f, hf, -, hv⟩ ⟨g, hg, -, hv'⟩
      exact Finset.disjoint_left.1 (children_disjoint h.1 hne hd hij hf hg) hv hv'
    · intro z
      unfold ratiosU
      rw [F, prod_off]
      refine prod_congr rfl fun i _ => prod_congr rfl fun f hf => ?_
      beta_reduce
      rw [hval i f (mem_range.1 hf), hval i f (mem_range.1 hf)]
  | cat2 n cs ih =>
    intro ch mask hch hpos
    rw [sample_cat2 h hp hr hch]
    set o : Fin n → ℕ := fun i => off (fun i => C (cs i)) i with ho
    set lch : Fin n → ℕ → ℕ := fun i f => if o i ≤ ch f ∧ ch f < o i + C (cs i) then ch f - o i else 0 with hlch
    set lm : Fin n → ℕ → Bool := fun i f => decide (o i ≤ ch f ∧ ch f < o i + C (cs i)) && mask f with hlm
    have hchild : ∀ i, ∀ f < F (cs i), lch i f < C (cs i) := by
      intro i f hf
      have := posC (h.1 i) (hp i)
      simp only [hlch]
      split <;> omega
    have hval : ∀ (x : Row) (i : Fin n) f, lm i f = true → val (cs i) f x r (lch i f) = val (cat2 n cs) f x r (ch f) := by
      intro x i f hm
      simp only [hlm, Bool.and_eq_true, decide_eq_true_eq] at hm
      simp only [hlch, if_pos hm.1]
      have := catCh_off (fun i => C (cs i)) (fun i k => val (cs i) f x r k) i (j := ch f - o i) (by omega)
      rw [val]
      beta_reduce
      rw [← this]
      congr 1
      simp only [ho] at hm ⊢
      omega
    refine seq_law (act_cat2 h hch mask) (fun i => (sample_ok (h.1 i) (hp i) (hr i) (hev (hl i)) _ _ (hchild i)).2)
      (fun i => ih i (h.1 i) (hp i) (hr i) (hl i) _ _ (hchild i) fun f hf hm => ?_)
      (fun i => ratiosU_local (fam (h.1 i) (hr i).repIn) (hchild i)) ?_ ?_
    · rw [hval e i f hm]
      simp only [hlm, Bool.and_eq_true] at hm
      exact hpos f (by rwa [← cat2_F h.2.1 i]) hm.2
    · intro i j hij
      rw [Set.disjoint_left]
      rintro v ⟨f, hf, hm, hv⟩ ⟨g, hg, hm', hv'⟩
      rw [← fs_cat2 h i hf] at hv
      rw [← fs_cat2 h j hg] at hv'
      have hfg : f = g := by
        by_contra hne
        rw [cat2_F h.2.1 i] at hf
        rw [cat2_F h.2.1 j] at hg
        exact Finset.disjoint_left.1 ((fam h hr.repIn).disj f hf g hg hne) hv hv'
      subst hfg
      simp only [Bool.and_eq_true, decide_eq_true_eq] at hm hm'
      exact hij (off_unique _ hm.1 hm'.1)
    · intro z
      have e1 : ∀ i : Fin n, ratiosU (F (cs i)) (fun f x c => val (cs i) f x r c) e (lch i) (lm i) z =
          ∏ f ∈ range (F (cat2 n cs)), if lm i f then
            ENNReal.ofReal (expL (val (cat2 n cs) f z r (ch f)) / expL (val (cat2 n cs) f e r (ch f))) else 1 := by
        intro i
        unfold ratiosU
        rw [cat2_F h.2.1 i]
        refine prod_congr rfl fun f _ => ?_
        split
        · rename_i hm
          beta_reduce
          rw [hval _ i f hm, hval _ i f hm]
        · rfl
      rw [prod_congr rfl fun i _ => e1 i, prod_comm]
      unfold ratiosU
      refine prod_congr rfl fun f hf => ?_
      obtain ⟨i, k, hk, he⟩ := exists_off (k := fun i => C (cs i)) (hch f (mem_range.1 hf))
      have hown : o i ≤ ch f ∧ ch f < o i + C (cs i) := by simp only [ho]; omega
      rw [prod_eq_single i]
      · simp [hlm, hown]
      · intro j _ hj
        have : ¬ (o j ≤ ch f ∧ ch f < o j + C (cs j)) := fun hh => hj (off_unique (fun i => C (cs i)) hh hown)
        have hz : lm j f = false := by simp only [hlm, this, decide_false, Bool.false_and]
        simp [hz]
      · simp
  | fold m ih =>
    intro ch mask hch hpos
    have h0 : ch 0 < C m := hch 0 (by simp [F])
    have hEv : ∀ x c, expL (val (fold m) 0 x r c) = ∏ f ∈ range (F m), expL (val m f x r c) := fun x c => by
      rw [val]; beta_reduce; rw [expL_sum]
    have hpos0 := hpos 0 (by simp [F])
    rw [sample_fold (m := m) h hp hr h0]
    refine law_congr (act_fold m mask) ?_ (ih h hp hr hl _ _ (fun f _ => h0) ?_)
    · intro z
      unfold ratiosU
      show ∏ f ∈ range 1, _ = _
      rw [prod_range_one]
      cases hm : mask 0 with
      | false => simp
      | true =>
        simp only [if_true]
        rw [hEv, hEv, ← prod_div_distrib,
          ENNReal.ofReal_prod_of_nonneg fun f _ => div_nonneg (expL_nonneg _) (expL_nonneg _)]
    · intro f hf hm
      have := hpos0 hm
      rw [hEv, Ne, prod_eq_zero_iff, not_exists] at this
      intro h1
      exact this f ⟨mem_range.2 hf, h1⟩
  | mul outer n cs ih =>
    intro ch mask hch hpos
    rw [sample_mul h hp hr hch]
    obtain ⟨hne, hd, -, -⟩ := checkMul_ok h.2.1
    have hFi := mul_F (outer := outer) h.2.2
    have hchild : ∀ i, ∀ f < F (cs i), chan outer (counts cs) (ch f) i < C (cs i) := by
      intro i f hf
      rw [hFi i] at hf
      exact chan_lt h.2.1 (hch f hf) i
    have hEv : ∀ f < F (mul outer n cs), ∀ x, expL (val (mul outer n cs) f x r (ch f)) =
        ∏ i, expL (val (cs i) f x r (chan outer (counts cs) (ch f) i)) := fun f hf x => by
      rw [val_mul h.2.1 h.2.2 hf (hch f hf), expL_sum]
    refine seq_law (act_mul h.2.2 mask) (fun i => (sample_ok (h.1 i) (hp i) (hr i) (hev (hl i)) _ _ (hchild i)).2)
      (fun i => ih i (h.1 i) (hp i) (hr i) (hl i) _ _ (hchild i) fun f hf hm => ?_)
      (fun i => ratiosU_local (fam (h.1 i) (hr i).repIn) (hchild i)) ?_ ?_
    · rw [hFi i] at hf
      have := hpos f hf hm
      rw [hEv f hf, Ne, prod_eq_zero_iff, not_exists] at this
      intro h1
      exact this i ⟨mem_univ i, h1⟩
    · intro i j hij
      rw [Set.disjoint_left]
      rintro v ⟨f, hf, -, hv⟩ ⟨g, hg, -, hv'⟩
      exact Finset.disjoint_left.1 (children_disjoint h.1 hne hd hij hf hg) hv hv'
    · intro z
      unfold ratiosU
      have e1 : ∀ i ∈ (univ : Finset (Fin n)), (∏ f ∈ range (F (cs i)), if mask f then
          ENNReal.ofReal (expL (val (cs i) f z r (chan outer (counts cs) (ch f) i)) /
            expL (val (cs i) f e r (chan outer (counts cs) (ch f) i))) else 1) =
          ∏ f ∈ range (F (mul outer n cs)), if mask f then
          ENNReal.ofReal (expL (val (cs i) f z r (chan outer (counts cs) (ch f) i)) /
            expL (val (cs i) f e r (chan outer (counts cs) (ch f) i))) else 1 := fun i _ => by rw [hFi i]
      rw [prod_congr rfl e1, prod_comm]
      refine prod_congr rfl fun f hf => ?_
      cases hm : mask f with
      | false => simp
      | true =>
        simp only [if_true]
        rw [hEv f (mem_range.1 hf), hEv f (mem_range.1 hf), ← prod_div_distrib,
          ENNReal.ofReal_prod_of_nonneg fun f _ => div_nonneg (expL_nonneg _) (expL_nonneg _)]
  | sum m Co R θ ih =>
    intro ch mask hch hpos
    replace hch : ∀ f < F m, ch f < Co := hch
    rw [sample_sum h hr hch]
    have hfam := fam h.1 hr.1.repIn
    have hbc : bc R r = r := bc_of_lt hr.2
    have hEq : ∀ f < F m, ∀ co < Co, ∀ x, expL (val (sum m Co R θ) f x r co) =
        ∑ ci ∈ range (C m), softmax (C m) (fun i => θ f i co r) ci * expL (val m f x r ci) := by
      intro f _ co _ x
      rw [expL_val_sum, hbc]
    have hlog : ∀ f < F m, (∀ ci < C m, softmax (C m) (sumLogits ev r m θ ch f) ci =
        softmax (C m) (fun i => θ f i (ch f) r) ci * expL (val m f e r ci) / expL (val (sum m Co R θ) f e r (ch f))) ∧
        ∑ ci ∈ range (C m), softmax (C m) (sumLogits ev r m θ ch f) ci = 1 := by
      intro f hf
      refine Conv.Net.mix_logits hE (hEq f hf _ (hch f hf) e) ?_ ?_ ?_ ?_
      · rw [Ne, expL_eq_zero_iff]; exact hl.2 f hf _ (hch f hf)
      · intro hm ci hci
        exact hfam.miss f hf ci hci e fun v _ => hm v
      · rintro rfl; rfl
      · rintro rfl; exact .inl rfl
    exact mix_law hfam (w := fun f co ci => softmax (C m) (fun i => θ f i co r) ci) hEq hch (fun f hf => (hlog f hf).1)
      (fun f hf => (hlog f hf).2) fun ch' h1 h2 => ih h.1 hp hr.1 hl.1 ch' mask h1 h2

end Mod

end Verif.LP

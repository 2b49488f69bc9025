import Verif.JEncProps

/-!
C85: densities and sampling of `ConvPcJointEncoder`.
-/

open MeasureTheory

namespace Verif.JEnc

open Finset Verif.Circ Verif.Conv Verif.Apc

variable {μ : Var → Measure ℝ}

/-! ### Specification -/

/-- Number of features at the product stage where the latents are fused: a grid of side `k ^ (depth - 1 - latent_depth)`. -/
def target (a : Args) : ℕ :=
  a.k.toNat ^ (a.depth.toNat - 1 - a.latentDepth.toNat) * a.k.toNat ^ (a.depth.toNat - 1 - a.latentDepth.toNat)

/-- Arguments for which the constructor succeeds: a square grey-scale image, symmetric padding, a latent width that can be
halved down to the fusion width, and - when the latents are fused below the first sum layer - as many leaf channels as sum
channels. -/
structure Valid (a : Args) (H : ℕ) : Prop where
  height : a.height = H
  width : a.width = H
  side : 1 ≤ H
  gray : a.inC = 1
  nz : 1 ≤ a.nz
  channels : 1 ≤ a.channels
  k : 1 ≤ a.k
  reps : 1 ≤ a.reps
  depth : 2 ≤ a.depth
  ld : 0 ≤ a.latentDepth ∧ a.latentDepth < a.depth
  xC : 1 ≤ orChannels a a.xC
  zC : 1 ≤ orChannels a a.zC
  fusable : a.latentDepth = 0 → orChannels a a.xC = a.channels
  even : Even (missing H (a.k.toNat ^ (a.depth.toNat - 1)))
  half : Halvable a.nz.toNat (target a)

/-- The factories return, for every repetition, usable leaves over exactly the requested columns. -/
structure Made (μ : Var → Measure ℝ) (a : Args) (H : ℕ) (xf zf : Factory) (xl zl : ℕ → Circ) : Prop where
  x : ∀ r < a.reps.toNat, xf (xCols a.nx) (orChannels a a.xC).toNat a.reps.toNat r = some (xl r) ∧
    Covers (xl r) (xCols a.nx) ∧ Image μ (xl r) H ∧ (xl r).C = (orChannels a a.xC).toNat
  z : ∀ r < a.reps.toNat, zf (zCols a.nx a.nz.toNat) (orChannels a a.zC).toNat a.reps.toNat r = some (zl r) ∧
    Covers (zl r) (zCols a.nx a.nz.toNat) ∧ Latent μ (zl r) a.nz.toNat

/-- What the constructor draws: finite logits and a permutation of the fused features. -/
structure Drawn (a : Args) (p : List ℕ) (d : ℕ → Draws) (mix : ℕ → LogV) : Prop where
  W : ∀ r l i j k m, (d r).W l i j k m ≠ ⊥
  z : ∀ r f i o, (d r).z f i o ≠ ⊥
  root : ∀ r f i o, (d r).root f i o ≠ ⊥
  mix : ∀ r, mix r ≠ ⊥
  perm : a.perm = true → p.Perm (List.range (target a))

/-- All columns. -/
def cols (E : Enc) : Finset Var := (xCols E.nx).toFinset ∪ (zCols E.nx E.nz).toFinset

/-- `x` fills in every missing column of `e` and changes nothing else. -/
def Fills (E : Enc) (e x : Row) : Prop :=
  (∀ v ∈ cols E, x v ≠ none) ∧ (∀ v t, e v = some t → x v = some t) ∧ ∀ v, v ∉ cols E → x v = e v

variable {a : Args} {H : ℕ} {xf zf : Factory} {xl zl : ℕ → Circ} {p : List ℕ} {d : ℕ → Draws} {mix : ℕ → LogV}

/-! ### Construction -/

theorem base_vars {c : Circ} (h : Accepted c) {l : List Var} (hc : Covers c l) (v : Var) : v ∈ (Net.base c).vars ↔ v ∈ l := by
  rw [← hc.1 v, mem_scope_iff h]
  rfl

theorem nx_eq (hv : Valid a H) : a.nx = H * H := by
  unfold Args.nx
  rw [hv.height, hv.width, hv.gray, mul_one, ← Nat.cast_mul, Int.toNat_natCast]

theorem slice_ok (hv : Valid a H) (hm : Made μ a H xf zf xl zl) (hd : Drawn a p d mix) {r : ℕ} (hr : r < a.reps.toNat) :
    ∃ n, buildSlice a (xl r) (zl r) p (d r) = .ok n ∧ n.Good μ ∧ n.F = 1 ∧ n.C = 1 ∧
      (∀ v : ℤ, v ∈ n.vars ↔ 0 ≤ v ∧ v < (a.nx + a.nz.toNat : ℕ)) ∧
      (PosCh (xl r) → RepS 0 (xl r) → PosCh (zl r) → RepS 0 (zl r) → a.k.toNat ^ (a.depth.toNat - 1) ∣ H →
        (a.perm = true → ∀ j, a.nz.toNat ≠ 2 ^ j * target a) → n.Samp) := by
  obtain ⟨-, hcx, hi, hxC⟩ := hm.x r hr
  obtain ⟨-, hcz, hz⟩ := hm.z r hr
  have hk : 1 ≤ a.k.toNat := by have := hv.k; omega
  have hc : 1 ≤ a.channels.toNat := by have := hv.channels; omega
  have ht : 1 ≤ a.k.toNat ^ (a.depth.toNat - 1) := Nat.one_le_pow _ _ hk
  have heven := hv.even
  set t := a.k.toNat ^ (a.depth.toNat - 1) with htd
  set kb := (H + t - 1) / t with hkb
  obtain ⟨c1, c2⟩ := ceil_mul (H := H) ht
  have hkb1 : 1 ≤ kb := ceil_pos hv.side ht
  obtain ⟨q, hq⟩ := heven
  have hmq : missing H t / 2 = q := by omega
  have hpad : H + 2 * q = kb * t := by unfold missing at hq; rw [← hkb] at hq c1; omega
  have hkp : kernelPadding H t = .ok (kb, q) := by
    unfold kernelPadding
    have := hv.side
    rw [if_neg (by omega), ← hmq]
    rfl
  set b : Net := .prodConv (.base (xl r)) kb kb q q with hb
  have hside : side (xl r).F = H := by rw [hi.size]; exact (square_mul H).2
  have hsq : Square (xl r).F := by rw [hi.size]; exact (square_mul H).1
  have hbg : b.Good μ := by
    refine ⟨⟨hi.acc, hi.al, hi.lf, hi.rep⟩, hkb1, hkb1, hsq, ?_, ?_⟩ <;>
    · show kb ≤ side (xl r).F + 2 * q
      rw [hside, hpad]
      exact Nat.le_mul_of_pos_right _ ht
  have hbF : b.F = t * t := by
    show (side (xl r).F + 2 * q) / kb * ((side (xl r).F + 2 * q) / kb) = _
    rw [hside, hpad, Nat.mul_div_cancel_left _ hkb1]
  have hbv : b.vars = (Net.base (xl r)).vars := by
    refine prod_vars hkb1 hkb1 hsq ?_ ?_ <;>
    · show (side (xl r).F + 2 * q) % kb ≤ q
      rw [hside, hpad, Nat.mul_mod_right]; omega
  have hbC : b.C = (xl r).C := rfl
  have hap : Apart (xl r) (zl r) := by
    intro v h1 h2
    rw [base_vars hi.acc hcx] at h1
    rw [base_vars hz.acc hcz] at h2
    unfold xCols at h1
    unfold zCols at h2
    rw [List.mem_map] at h1 h2
    obtain ⟨i, hi', rfl⟩ := h1
    obtain ⟨j, hj, he⟩ := h2
    rw [List.mem_range] at hi' hj
    have : ((a.nx + j : ℕ) : ℤ) = (i : ℤ) := he
    omega
  have hL : a.latentDepth.toNat ≤ a.depth.toNat - 1 := by have := hv.ld; omega
  have hhalf : Halvable a.nz.toNat (target a) := hv.half
  obtain ⟨m0, i1, i2, i3, i4⟩ := inject_ok (xl := xl r) (ld := a.latentDepth.toNat) (st := 0) (θ := (d r).z) (p := p)
    (permute := a.perm) hz hap hc (hd.z r) hbg (by rw [hbC]; exact hi.ch) (by rw [hbv, if_neg (by omega)]) (fun h => by
      have e1 : target a = b.F := by unfold target; rw [← h, hbF, Nat.sub_zero]
      rw [← e1]
      refine ⟨hhalf, ?_, hd.perm⟩
      rw [hbC, hxC, hv.fusable (by have := hv.ld; omega)])
  obtain ⟨m, t1, t2, t3, t4⟩ := tower_ok (conv := a.conv) (L := a.depth.toNat - 1) (p := p) (permute := a.perm) hz hap hc hk (hd.z r)
    (hd.W r) hL hhalf hd.perm (a.depth.toNat - 1) 0 m0 (by omega) i2 (by rw [i3, hbF])
  have hbuild : buildSlice a (xl r) (zl r) p (d r) = .ok (.sum m 1 (d r).root) := by
    unfold buildSlice
    simp only [hv.height, hv.width, Int.toNat_natCast, ← htd, hkp]
    show (addProd (.base (xl r)) kb kb q q >>= _) = _
    rw [addProd_ok (n := .base (xl r)) hkb1 hkb1 hsq]
    show (inject (zl r) _ _ _ _ _ 0 b >>= _) = _
    rw [i1]
    show (tower _ _ _ _ _ 0 _ m0 >>= _) = _
    rw [t1]
    exact addSum_ok _ le_rfl
  refine ⟨_, hbuild, ⟨t2.good, le_rfl, fun f _ co _ => ⟨0, t2.ch, hd.root r _ _ _⟩⟩, t3, rfl, ?_, ?_⟩
  · intro v
    show v ∈ m.vars ↔ _
    rw [t2.vars, if_pos hL, Set.mem_union, base_vars hi.acc hcx, base_vars hz.acc hcz]
    exact mem_cols
  · intro q1 q2 q3 q4 q5 q6
    refine t4 (i4 ?_ q3 q4 ?_) q3 q4 q6
    · obtain ⟨w, rfl⟩ := q5
      have hkw : kb = w := by
        rw [hkb, Nat.div_eq_iff (by omega)]
        have : w * t = t * w := mul_comm _ _
        have : 1 ≤ w := by rcases Nat.eq_zero_or_pos w with h | h; · subst h; have := hv.side; omega
                           · exact h
        omega
      have hq0 : q = 0 := by rw [hkw, mul_comm w t] at hpad; omega
      refine ⟨⟨q1, q2⟩, ⟨hq0, hq0⟩, ?_, ?_⟩ <;>
      · show kb ∣ side (xl r).F
        rw [hside, hkw]; exact Dvd.intro_left _ rfl
    · intro h h' j
      have e1 : target a = b.F := by unfold target; rw [← h, hbF, Nat.sub_zero]
      rw [← e1]; exact q6 h' j

/-- A built encoder. -/
structure Ok (μ : Var → Measure ℝ) (E : Enc) : Prop where
  ne : 1 ≤ E.slices.length
  good : ∀ r < E.slices.length, (E.slice r).Good μ
  one : ∀ r < E.slices.length, (E.slice r).F = 1
  ch : ∀ r < E.slices.length, (E.slice r).C = 1
  vars : ∀ r < E.slices.length, ∀ v : ℤ, v ∈ (E.slice r).vars ↔ 0 ≤ v ∧ v < (E.nx + E.nz : ℕ)
  mix : ∀ r, E.mix r ≠ ⊥

theorem check_ok (hv : Valid a H) : checkArgs a = .ok () := by
  have h1 := hv.side
  have h2 := hv.gray
  have h3 := hv.nz
  have h4 := hv.channels
  have h5 := hv.k
  have h6 := hv.reps
  have h7 := hv.depth
  have h8 := hv.ld
  have h9 := hv.xC
  have h10 := hv.zC
  unfold checkArgs
  rw [hv.height, hv.width]
  rw [if_neg (by omega), if_neg (by omega), if_neg (by omega), if_neg (by omega), if_neg (by omega), if_neg (by omega),
    if_neg (by omega), if_neg (by omega), if_neg (by omega), if_neg (by omega)]

theorem mapM_range {α : Type} {f : ℕ → Except Exc α} {g : ℕ → α} : ∀ (l : List ℕ), (∀ r ∈ l, f r = .ok (g r)) →
    l.mapM f = .ok (l.map g) := by
  intro l
  induction l with
  | nil => intro _; rfl
  | cons r l ih =>
    intro h
    rw [List.mapM_cons, h r (by simp), ih fun s hs => h s (by simp [hs])]
    rfl

theorem build_ok (hv : Valid a H) (hm : Made μ a H xf zf xl zl) (hd : Drawn a p d mix) :
    ∃ E, build a xf zf p d mix = .ok E ∧ Ok μ E ∧ E.nx = H * H ∧ E.nz = a.nz.toNat ∧ E.inC = 1 ∧ E.height = H ∧ E.width = H ∧
      E.slices.length = a.reps.toNat ∧
      (∀ r < E.slices.length, buildSlice a (xl r) (zl r) p (d r) = .ok (E.slice r)) ∧
      ∀ r < E.slices.length, PosCh (xl r) → RepS 0 (xl r) → PosCh (zl r) → RepS 0 (zl r) →
        a.k.toNat ^ (a.depth.toNat - 1) ∣ H → (a.perm = true → ∀ j, a.nz.toNat ≠ 2 ^ j * target a) → (E.slice r).Samp := by
  have hs : ∀ r, ∃ n, r < a.reps.toNat → buildSlice a (xl r) (zl r) p (d r) = .ok n ∧ n.Good μ ∧ n.F = 1 ∧ n.C = 1 ∧
      (∀ v : ℤ, v ∈ n.vars ↔ 0 ≤ v ∧ v < (a.nx + a.nz.toNat : ℕ)) ∧
      (PosCh (xl r) → RepS 0 (xl r) → PosCh (zl r) → RepS 0 (zl r) → a.k.toNat ^ (a.depth.toNat - 1) ∣ H →
        (a.perm = true → ∀ j, a.nz.toNat ≠ 2 ^ j * target a) → n.Samp) := by
    intro r
    by_cases hr : r < a.reps.toNat
    · obtain ⟨n, hn⟩ := slice_ok hv hm hd hr
      exact ⟨n, fun _ => hn⟩
    · exact ⟨.base (.cat1 0 fun i => i.elim0), fun h => absurd h hr⟩
  choose g hg using hs
  have hsl : ∀ r < a.reps.toNat, ((List.range a.reps.toNat).map g).getD r (.base (.cat1 0 fun i => i.elim0)) = g r := by
    intro r hr
    rw [List.getD_eq_getElem _ _ (by simpa using hr)]
    simp
  refine ⟨⟨a.nx, a.nz.toNat, a.inC.toNat, a.height.toNat, a.width.toNat, (List.range a.reps.toNat).map g, mix⟩, ?_, ?_, nx_eq hv,
    rfl, by simp [hv.gray], by simp [hv.height], by simp [hv.width], by simp, ?_, ?_⟩
  · unfold build
    rw [check_ok hv]
    dsimp only
    rw [mapM_range (g := g)]
    intro r hr
    rw [List.mem_range] at hr
    rw [(hm.x r hr).1, validateLeaf_some.2 (hm.x r hr).2.1]
    dsimp only
    rw [(hm.z r hr).1, validateLeaf_some.2 (hm.z r hr).2.1]
    exact (hg r hr).1
  · have hlen : ((List.range a.reps.toNat).map g).length = a.reps.toNat := by simp
    refine ⟨?_, ?_, ?_, ?_, ?_, hd.mix⟩
    · show 1 ≤ ((List.range a.reps.toNat).map g).length
      rw [hlen]; have := hv.reps; omega
    all_goals
      intro r hr
      have hr' : r < a.reps.toNat := hlen ▸ hr
      unfold Enc.slice
      rw [hsl r hr']
    · exact (hg r hr').2.1
    · exact (hg r hr').2.2.1
    · exact (hg r hr').2.2.2.1
    · exact (hg r hr').2.2.2.2.1
  all_goals
    intro r hr
    have hr' : r < a.reps.toNat := by simpa using hr
    unfold Enc.slice
    rw [hsl r hr']
  · exact (hg r hr').1
  · exact (hg r hr').2.2.2.2.2

/-! ### Likelihood -/

namespace Enc

/-- Log-density of a row: the mixture over the repetitions. -/
noncomputable def den (E : Enc) (x : Row) : LogV :=
  if E.slices.length ≤ 1 then (E.slice 0).val 0 x 0 else E.mixLL fun r => (E.slice r).val 0 x 0

end Enc

variable {E : Enc}

theorem slice_mem {n : Net} (hn : n ∈ E.slices) : ∃ r < E.slices.length, E.slice r = n := by
  obtain ⟨r, hr, rfl⟩ := List.mem_iff_getElem.1 hn
  exact ⟨r, hr, List.getD_eq_getElem _ _ hr⟩

theorem logLik_ok (h : Ok μ E) (x : Row) : E.logLik x = .ok (E.den x) := by
  have h1 : E.slices1 x = .ok (E.slices.map fun n => n.val 0 x 0) := by
    unfold Enc.slices1
    have : ∀ l : List Net, (∀ n ∈ l, n.Good μ) → (l.mapM fun n => match n.logLik x with
        | .error e => .error e
        | .ok T => .ok (T 0 0 0)) = (.ok (l.map fun n => n.val 0 x 0) : Except Exc (List LogV)) := by
      intro l
      induction l with
      | nil => intro _; rfl
      | cons n l ih =>
        intro hl
        obtain ⟨T, hT⟩ := (Net.good_fam (hl n (by simp))).1 x
        rw [List.mapM_cons, hT, ih fun m hm => hl m (by simp [hm])]
        simp only [List.map_cons, Net.val_of hT]
        rfl
    exact this _ fun n hn => by
      obtain ⟨r, hr, rfl⟩ := slice_mem hn
      exact h.good r hr
  have h2 : (E.slices.any fun n => decide (n.F ≠ 1)) = false := by
    rw [List.any_eq_false]
    intro n hn
    obtain ⟨r, hr, rfl⟩ := slice_mem hn
    simp [h.one r hr]
  have h3 : ∀ r < E.slices.length, (E.slices.map fun n => n.val 0 x 0).getD r ⊥ = (E.slice r).val 0 x 0 := by
    intro r hr
    rw [List.getD_eq_getElem _ _ (by simpa using hr), List.getElem_map]
    unfold Enc.slice
    rw [List.getD_eq_getElem _ _ hr]
  unfold Enc.logLik Enc.den
  rw [h1]
  dsimp only
  rw [h2]
  simp only [Bool.false_eq_true, if_false]
  split_ifs
  · rw [h3 0 h.ne]
  · unfold Enc.mixLL
    refine congrArg Except.ok (expL_injective ?_)
    rw [expL_lse, expL_lse]
    refine sum_congr rfl fun r hr => ?_
    dsimp only
    rw [h3 r (mem_range.mp hr)]

theorem fscope_cols (h : Ok μ E) {r : ℕ} (hr : r < E.slices.length) : (E.slice r).fscope 0 = cols E := by
  ext v
  unfold cols
  rw [mem_union, List.mem_toFinset, List.mem_toFinset]
  have e1 := (mem_cols (nx := E.nx) (nz := E.nz) (v := v))
  rw [e1, ← h.vars r hr v]
  constructor
  · intro hv; exact ⟨0, by rw [h.one r hr]; exact Nat.one_pos, hv⟩
  · rintro ⟨f, hf, hv⟩
    rw [h.one r hr] at hf
    obtain rfl : f = 0 := by omega
    exact hv

theorem slice_fam (h : Ok μ E) {r : ℕ} (hr : r < E.slices.length) :
    Fam μ 1 1 (fun _ => cols E) fun _ x _ => (E.slice r).val 0 x 0 := by
  have hfam := (Net.good_fam (h.good r hr)).2
  rw [h.one r hr, h.ch r hr] at hfam
  have hs := fscope_cols h hr
  constructor
  · intro f hf g hg hne; omega
  all_goals
    intro f hf ch hch
    try rw [← hs]
  · exact hfam.loc 0 Nat.one_pos 0 Nat.one_pos
  · exact hfam.meas 0 Nat.one_pos 0 Nat.one_pos
  · exact hfam.miss 0 Nat.one_pos 0 Nat.one_pos
  · exact hfam.int 0 Nat.one_pos 0 Nat.one_pos
  · exact hfam.mono 0 Nat.one_pos 0 Nat.one_pos

theorem expL_den (h : Ok μ E) (hR : ¬ E.slices.length ≤ 1) (x : Row) : expL (E.den x) =
    ∑ r ∈ range E.slices.length, softmax E.slices.length E.mix r * expL ((E.slice r).val 0 x 0) := by
  unfold Enc.den Enc.mixLL
  rw [if_neg hR, expL_lse]
  exact sum_congr rfl fun r _ => by rw [expL_add, expL_logSoftmax_eq_softmax, mul_comm]

theorem den_fam (h : Ok μ E) : Fam μ 1 1 (fun _ => cols E) fun _ x _ => E.den x := by
  by_cases hR : E.slices.length ≤ 1
  · refine (slice_fam h h.ne).congr fun _ _ _ _ x => ?_
    unfold Enc.den; rw [if_pos hR]
  · have hP : Fam μ 1 E.slices.length (fun _ => cols E) fun _ x r => (E.slice r).val 0 x 0 :=
      Fam.pack (fun r hr => slice_fam h hr) (by have := h.ne; omega)
    exact hP.sum (w := fun _ _ r => softmax E.slices.length E.mix r) (fun _ _ _ => softmax_nonneg _ _ _)
      (fun _ _ _ _ => sum_softmax ⟨0, by have := h.ne; omega, h.mix 0⟩) fun _ _ _ _ x => expL_den h hR x

end Verif.JEnc

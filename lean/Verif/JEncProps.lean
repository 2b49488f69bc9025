import Verif.JEnc
import Verif.ConvSample
import Verif.RatModel
import Verif.ApcEncProps

/-!
C85, lemmas: construction of a `ConvPcJointEncoder`.
-/

open MeasureTheory

namespace Verif.JEnc

open Finset Verif.Circ Verif.Conv Verif.Apc

variable {μ : Var → Measure ℝ}

/-! ### Specification -/

/-- Halving the width `n` while it exceeds `t` never meets an odd number. -/
def Halvable (n t : ℕ) : Prop := ∃ j m, n = 2 ^ j * m ∧ m ≤ t ∧ (j = 0 ∨ t < 2 * m)

/-- The latent leaf: an accepted, normalised module with one feature per latent and one repetition (slice). -/
structure Latent (μ : Var → Measure ℝ) (leaf : Circ) (nz : ℕ) : Prop where
  acc : Accepted leaf
  al : Aligned leaf
  lf : LeafOk μ leaf
  rep : tensorR leaf = some 1
  ch : 1 ≤ leaf.C
  size : leaf.F = nz

/-- The two leaves have no variable in common. -/
def Apart (xl zl : Circ) : Prop := ∀ v, v ∈ (Net.base xl).vars → v ∉ (Net.base zl).vars

/-! ### The latent stream -/

theorem pair_vars {n : Net} (h : 2 ∣ n.F) : (Net.pair n).vars = n.vars := by
  ext v
  constructor
  · rintro ⟨f, hf, hv⟩
    have hf' : f < n.F / 2 := hf
    rw [Net.fscope, Finset.mem_union] at hv
    rcases hv with hv | hv
    · exact ⟨_, by omega, hv⟩
    · exact ⟨_, by omega, hv⟩
  · rintro ⟨f, hf, hv⟩
    refine ⟨f / 2, show f / 2 < n.F / 2 by omega, ?_⟩
    rw [Net.fscope, Finset.mem_union]
    have : f = 2 * (f / 2) ∨ f = 2 * (f / 2) + 1 := by omega
    rcases this with h1 | h1
    · left; rw [← h1]; exact hv
    · right; rw [← h1]; exact hv

theorem pack_vars {n : Net} {t : ℕ} {perm : Option (List ℕ)} (hle : n.F ≤ t) (hp : PermOk t perm) :
    (Net.pack n t perm).vars = n.vars := by
  ext v
  constructor
  · rintro ⟨f, hf, hv⟩
    have hv' : v ∈ (if permAt perm f < n.F then n.fscope (permAt perm f) else ∅) := hv
    split_ifs at hv' with h1
    · exact ⟨_, h1, hv'⟩
    · simp at hv'
  · rintro ⟨f, hf, hv⟩
    obtain ⟨h1, h2⟩ := permAt_permInv hp (show f < t by omega)
    refine ⟨permInv perm f, h1, ?_⟩
    show v ∈ (if permAt perm (permInv perm f) < n.F then n.fscope (permAt perm (permInv perm f)) else ∅)
    rw [h2, if_pos hf]; exact hv

theorem reduce_ok {t : ℕ} : ∀ (fuel : ℕ) (n : Net), n.F ≤ fuel → n.Good μ → Halvable n.F t → ∃ m, reduceLoop t fuel n = .ok m ∧
    m.Good μ ∧ m.C = n.C ∧ m.F ≤ t ∧ m.vars = n.vars ∧ (n.Samp → m.Samp) ∧ ∃ j, n.F = 2 ^ j * m.F := by
  intro fuel
  induction fuel with
  | zero =>
    intro n hF hg _
    exact ⟨n, rfl, hg, rfl, by omega, rfl, id, 0, by simp⟩
  | succ fuel ih =>
    rintro n hF hg ⟨j, m, h1, h2, h3⟩
    rw [reduceLoop]
    by_cases hle : n.F ≤ t
    · rw [if_pos hle]
      exact ⟨n, rfl, hg, rfl, hle, rfl, id, 0, by simp⟩
    · rw [if_neg hle]
      cases j with
      | zero => omega
      | succ j =>
        have hj : t < 2 * m := h3.resolve_left (Nat.succ_ne_zero _)
        have he : n.F = 2 * (2 ^ j * m) := by rw [h1, pow_succ]; ring
        have hpF : (Net.pair n).F = 2 ^ j * m := by show n.F / 2 = _; omega
        rw [if_neg (by omega)]
        obtain ⟨q, q1, q2, q3, q4, q5, q6, i, q7⟩ := ih (.pair n) (by omega) ⟨hg, ⟨_, he⟩⟩ ⟨j, m, hpF, h2, .inr hj⟩
        refine ⟨q, q1, q2, q3, q4, by rw [q5, pair_vars ⟨_, he⟩], fun h => q6 h, i + 1, ?_⟩
        rw [he, ← hpF, q7, pow_succ]; ring

theorem reduce_error {t : ℕ} : ∀ (fuel : ℕ) (n : Net), n.F ≤ fuel → ¬ Halvable n.F t →
    reduceLoop t fuel n = .error .invalidParameter := by
  intro fuel
  induction fuel with
  | zero => intro n hF h; exact absurd ⟨0, n.F, by simp, by omega, .inl rfl⟩ h
  | succ fuel ih =>
    intro n hF h
    rw [reduceLoop]
    by_cases hle : n.F ≤ t
    · exact absurd ⟨0, n.F, by simp, hle, .inl rfl⟩ h
    · rw [if_neg hle]
      by_cases ho : n.F % 2 ≠ 0
      · rw [if_pos ho]
      · rw [if_neg ho]
        have hpF : (Net.pair n).F = n.F / 2 := rfl
        refine ih _ (by omega) ?_
        rintro ⟨j, m, h1, h2, h3⟩
        refine h ⟨j + 1, m, ?_, h2, .inr ?_⟩
        · rw [pow_succ]
          have : n.F = 2 * (2 ^ j * m) := by omega
          rw [this]; ring
        · rcases h3 with rfl | h3
          · rw [pow_zero, one_mul] at h1; omega
          · exact h3

/-- The latent stream has the width and the channels it is fused with, and the variables of the latent leaf. -/
theorem latent_ok {zl : Circ} {nz t channels : ℕ} {permute : Bool} {p : List ℕ} {θ : ℕ → ℕ → ℕ → LogV} (hz : Latent μ zl nz)
    (hh : Halvable nz t) (hc : 1 ≤ channels) (hp : permute = true → p.Perm (List.range t)) (hθ : ∀ f i o, θ f i o ≠ ⊥) :
    ∃ l, latentStream (.base zl) t channels permute p θ = .ok l ∧ l.Good μ ∧ l.F = t ∧ l.C = channels ∧
      l.vars = (Net.base zl).vars ∧
      (PosCh zl → RepS 0 zl → (permute = true → ∀ j, nz ≠ 2 ^ j * t) → l.Samp) := by
  have hg : (Net.base zl).Good μ := ⟨hz.acc, hz.al, hz.lf, hz.rep⟩
  obtain ⟨m, h1, h2, h3, h4, h5, h6, j, h7⟩ := reduce_ok (t := t) (Net.base zl).F (.base zl) le_rfl hg (by
    show Halvable zl.F t; rw [hz.size]; exact hh)
  have h7' : nz = 2 ^ j * m.F := by rw [← hz.size]; exact h7
  have hC : 1 ≤ m.C := by rw [h3]; exact hz.ch
  unfold latentStream
  rw [h1]
  dsimp only
  by_cases hb : m.F < t ∨ permute = true
  · rw [if_pos hb, addSum_ok _ hc]
    have hperm : PermOk t (if permute then some p else none) := by
      intro q hq
      cases permute with
      | false => simp at hq
      | true => simp only [if_true, Option.some.injEq] at hq; subst hq; exact hp rfl
    refine ⟨_, rfl, ⟨⟨h2, h4, hperm⟩, hc, fun f _ co _ => ⟨0, hC, hθ _ _ _⟩⟩, rfl, rfl, ?_, fun p1 p2 p3 => ?_⟩
    · exact (pack_vars h4 hperm).trans h5
    · refine ⟨h6 ⟨p1, p2⟩, ?_⟩
      cases permute with
      | false => exact .inl rfl
      | true => exact .inr fun he => p3 rfl j (he ▸ h7')
  · rw [if_neg hb, addSum_ok _ hc]
    push Not at hb
    exact ⟨_, rfl, ⟨h2, hc, fun f _ co _ => ⟨0, hC, hθ _ _ _⟩⟩, le_antisymm h4 hb.1, rfl, h5, fun p1 p2 _ => h6 ⟨p1, p2⟩⟩

/-! ### Fusion -/

theorem fuse_vars {a b : Net} (hF : a.F = b.F) : (Net.fuse a b).vars = a.vars ∪ b.vars := by
  ext v
  constructor
  · rintro ⟨f, hf, hv⟩
    have hf' : f < a.F := hf
    rw [Net.fscope, Finset.mem_union] at hv
    rcases hv with hv | hv
    · exact .inl ⟨f, hf', hv⟩
    · exact .inr ⟨f, hF ▸ hf', hv⟩
  · rintro (⟨f, hf, hv⟩ | ⟨f, hf, hv⟩)
    · exact ⟨f, hf, by rw [Net.fscope, Finset.mem_union]; exact .inl hv⟩
    · exact ⟨f, show f < a.F by omega, by rw [Net.fscope, Finset.mem_union]; exact .inr hv⟩

/-- What the builder keeps true at product stage `st`. -/
structure Stage (μ : Var → Measure ℝ) (xl zl : Circ) (ld st : ℕ) (n : Net) : Prop where
  good : n.Good μ
  ch : 1 ≤ n.C
  vars : n.vars = if ld ≤ st then (Net.base xl).vars ∪ (Net.base zl).vars else (Net.base xl).vars

theorem inject_ok {xl zl : Circ} {nz ld st channels : ℕ} {permute : Bool} {p : List ℕ} {θ : ℕ → ℕ → ℕ → LogV} {n : Net}
    (hz : Latent μ zl nz) (hap : Apart xl zl) (hc : 1 ≤ channels) (hθ : ∀ f i o, θ f i o ≠ ⊥) (hg : n.Good μ) (h1 : 1 ≤ n.C)
    (hv : n.vars = if ld < st then (Net.base xl).vars ∪ (Net.base zl).vars else (Net.base xl).vars)
    (hh : st = ld → Halvable nz n.F ∧ n.C = channels ∧ (permute = true → p.Perm (List.range n.F))) :
    ∃ m, inject zl ld channels permute p θ st n = .ok m ∧ Stage μ xl zl ld st m ∧ m.F = n.F ∧
      (n.Samp → PosCh zl → RepS 0 zl → (st = ld → permute = true → ∀ j, nz ≠ 2 ^ j * n.F) → m.Samp) := by
  unfold inject
  by_cases he : st = ld
  · rw [if_neg (not_not.2 he)]
    obtain ⟨hh1, hh2, hh3⟩ := hh he
    obtain ⟨l, l1, l2, l3, l4, l5, l6⟩ := latent_ok hz hh1 hc hh3 hθ
    rw [l1]
    dsimp only
    rw [if_neg (by rw [l3]; exact not_not.2 rfl), if_neg (by rw [l4]; exact not_not.2 hh2)]
    have hv' : n.vars = (Net.base xl).vars := by rw [hv, if_neg (by omega)]
    refine ⟨_, rfl, ⟨⟨hg, l2, l3.symm, by rw [l4]; exact hh2, ?_⟩, h1, ?_⟩, rfl, fun q1 q2 q3 q4 => ⟨q1, l6 q2 q3 (q4 he)⟩⟩
    · intro f hf g hg'
      rw [Finset.disjoint_left]
      intro v hvf hvg
      have e1 : v ∈ n.vars := ⟨f, hf, hvf⟩
      have e2 : v ∈ l.vars := ⟨g, hg', hvg⟩
      rw [hv'] at e1
      rw [l5] at e2
      exact hap v e1 e2
    · rw [fuse_vars l3.symm, l5, hv', if_pos (by omega)]
  · rw [if_pos he]
    refine ⟨n, rfl, ⟨hg, h1, ?_⟩, rfl, fun q _ _ _ => q⟩
    rw [hv]
    by_cases hlt : ld < st
    · rw [if_pos hlt, if_pos (by omega)]
    · rw [if_neg hlt, if_neg (by omega)]

theorem sumLayer_samp {conv : Bool} {channels k s : ℕ} {θ : ℕ → ℕ → ℕ → ℕ → LogV} {n : Net} (hs : n.Samp) (hF : n.F = s * s)
    (hd : k ∣ s) : (sumLayer conv channels k θ n).Samp := by
  cases conv
  · exact hs
  · refine ⟨hs, ?_⟩
    rw [hF, (square_mul s).2]; exact hd

theorem tower_succ {conv : Bool} {channels k : ℕ} {W} {inj : ℕ → Net → Except Exc Net} {st d : ℕ} {n : Net} (hc : 1 ≤ channels)
    (hk : 1 ≤ k) (hs : Square n.F) : tower conv channels k W inj st (d + 1) n =
      (inj (st + 1) (.prodConv (sumLayer conv channels k (W d) n) k k 0 0) >>= fun m => tower conv channels k W inj (st + 1) d m) := by
  rw [tower]
  cases conv
  · simp only [Bool.false_eq_true, if_false, addSum_ok _ hc]
    show (addProd _ k k 0 0 >>= _) = _
    rw [addProd_ok hk hk (by exact hs)]
    rfl
  · simp only [if_true, addSumConv_ok _ hc hk]
    show (addProd _ k k 0 0 >>= _) = _
    rw [addProd_ok hk hk (by exact hs)]
    rfl

theorem tower_ok {xl zl : Circ} {nz ld channels k L : ℕ} {conv permute : Bool} {p : List ℕ} {θ : ℕ → ℕ → ℕ → LogV}
    {W : ℕ → ℕ → ℕ → ℕ → ℕ → LogV} (hz : Latent μ zl nz) (hap : Apart xl zl) (hc : 1 ≤ channels) (hk : 1 ≤ k)
    (hθ : ∀ f i o, θ f i o ≠ ⊥) (hW : ∀ l a b c d, W l a b c d ≠ ⊥) (hl : ld ≤ L)
    (hh : Halvable nz (k ^ (L - ld) * k ^ (L - ld))) (hp : permute = true → p.Perm (List.range (k ^ (L - ld) * k ^ (L - ld)))) :
    ∀ (d st : ℕ) (n : Net), st + d = L → Stage μ xl zl ld st n → n.F = k ^ d * k ^ d →
      ∃ m, tower conv channels k W (inject zl ld channels permute p θ) st d n = .ok m ∧ Stage μ xl zl ld L m ∧ m.F = 1 ∧
        (n.Samp → PosCh zl → RepS 0 zl → (permute = true → ∀ j, nz ≠ 2 ^ j * (k ^ (L - ld) * k ^ (L - ld))) → m.Samp) := by
  intro d
  induction d with
  | zero =>
    intro st n he hs hF
    have : st = L := by omega
    subst this
    exact ⟨n, rfl, hs, by simpa using hF, fun q _ _ _ => q⟩
  | succ d ih =>
    intro st n he hs hF
    have hsq := square_mul (k ^ (d + 1))
    rw [← hF] at hsq
    have hdvd : k ∣ k ^ (d + 1) := Dvd.intro_left (k ^ d) (pow_succ k d).symm
    set s := sumLayer conv channels k (W d) n with hsd
    have hsF : s.F = n.F := sumLayer_F ..
    have hdiv : k ^ (d + 1) / k = k ^ d := by rw [pow_succ]; exact Nat.mul_div_cancel _ hk
    have hside : side s.F = k ^ (d + 1) := by rw [hsF]; exact hsq.2
    have hgs : s.Good μ := sumLayer_good hs.good hc hk hs.ch hF hdvd (hW d)
    have hpg : (Net.prodConv s k k 0 0).Good μ := by
      refine ⟨hgs, hk, hk, by rw [hsF]; exact hsq.1, ?_, ?_⟩ <;>
      · rw [hside]
        calc k = 1 * k := (one_mul k).symm
          _ ≤ k ^ d * k := Nat.mul_le_mul_right _ (Nat.one_le_pow _ _ hk)
          _ = k ^ (d + 1) := (pow_succ k d).symm
    have hpF : (Net.prodConv s k k 0 0).F = k ^ d * k ^ d := by
      show (side s.F + 2 * 0) / k * ((side s.F + 2 * 0) / k) = _
      rw [hside, mul_zero, add_zero, hdiv]
    have hpC : (Net.prodConv s k k 0 0).C = channels := sumLayer_C ..
    have hpv : (Net.prodConv s k k 0 0).vars = n.vars := by
      rw [prod_vars hk hk (by rw [hsF]; exact hsq.1) _ _, hsd, sumLayer_vars]
      all_goals rw [hside, mul_zero, add_zero, pow_succ, Nat.mul_mod_left]
    have hdl : st + 1 = ld → d = L - ld := by omega
    obtain ⟨m, m1, m2, m3, m4⟩ := inject_ok (xl := xl) (ld := ld) (θ := θ) (p := p) (permute := permute) (st := st + 1) hz hap hc hθ hpg (by rw [hpC]; exact hc)
      (by
        rw [hpv, hs.vars]
        by_cases h : ld ≤ st
        · rw [if_pos h, if_pos (by omega)]
        · rw [if_neg h, if_neg (by omega)])
      (fun h => ⟨by rw [hpF, hdl h]; exact hh, hpC, by rw [hpF, hdl h]; exact hp⟩)
    obtain ⟨q, q1, q2, q3, q4⟩ := ih (st + 1) m (by omega) m2 (by rw [m3]; exact hpF)
    refine ⟨q, ?_, q2, q3, fun r1 r2 r3 r4 => q4 (m4 ?_ r2 r3 ?_) r2 r3 r4⟩
    · rw [tower_succ hc hk hsq.1, m1]; exact q1
    · refine ⟨sumLayer_samp r1 hF hdvd, ⟨rfl, rfl⟩, ?_, ?_⟩ <;>
      · rw [hside]; exact hdvd
    · intro h h'
      rw [hpF, hdl h]; exact r4 h'

end Verif.JEnc

import Verif.JEncMain
import Verif.RatSample
import Verif.ApcEncLaw

/-!
C85: likelihoods and sampling of a built `ConvPcJointEncoder`.
-/

open MeasureTheory

namespace Verif.JEnc

open Finset Verif.Circ Verif.Conv Verif.Apc Verif.Simple
open Verif.Prog hiding bind

variable {μ : Var → Measure ℝ}

/-! ### Rows that are possible -/

/-- The leaf modules below a network. -/
def bases : Net → List Circ
  | .base c => [c]
  | .sum n _ _ => bases n
  | .sumConv n _ _ _ => bases n
  | .prodConv n _ _ _ _ => bases n
  | .pair n => bases n
  | .pack n _ _ => bases n
  | .fuse a b => bases a ++ bases b

/-- No component of the leaf module has density zero on row `e`. -/
def Possible (e : Row) (c : Circ) : Prop := Circ.Live e 0 c ∧ ∀ f < c.F, ∀ ch < c.C, featAt (den c) f e 0 ch ≠ ⊥

theorem add_ne_bot {a b : LogV} (ha : a ≠ ⊥) (hb : b ≠ ⊥) : a + b ≠ ⊥ := by
  rw [Ne, ← expL_eq_zero_iff, expL_add]
  exact mul_ne_zero (by rw [Ne, expL_eq_zero_iff]; exact ha) (by rw [Ne, expL_eq_zero_iff]; exact hb)

theorem mean_ne_zero {C : ℕ} {θ : ℕ → LogV} {u : ℕ → LogV} (h : ∃ i < C, θ i ≠ ⊥) (hu : ∀ i < C, u i ≠ ⊥) :
    ∑ i ∈ range C, softmax C θ i * expL (u i) ≠ 0 := by
  obtain ⟨i, hi, hne⟩ := h
  refine ne_of_gt (sum_pos' (fun j _ => mul_nonneg (softmax_nonneg _ _ _) (expL_nonneg _)) ⟨i, mem_range.2 hi, ?_⟩)
  exact mul_pos (softmax_pos hi hne) ((expL_pos_iff _).2 (hu i hi))

/-- A row possible for the leaves is possible for every unit. -/
theorem live_of {n : Net} (h : n.Good μ) (hs : n.Samp) {e : Row} (hb : ∀ c ∈ bases n, Possible e c) :
    n.Live e ∧ ∀ f < n.F, ∀ ch < n.C, n.val f e ch ≠ ⊥ := by
  induction n with
  | base c =>
    obtain ⟨h1, h2⟩ := hb c (by simp [bases])
    refine ⟨h1, fun f hf ch hch => ?_⟩
    have hok : Net.logLik (.base c) e = .ok fun f ch r => featAt (den c) f e r ch := by
      show Circ.logLik c e = _
      unfold Circ.logLik; rw [h.2.2.2]
    rw [Net.val_of hok]
    exact h2 f hf ch hch
  | sum n Co θ ih =>
    obtain ⟨i1, i2⟩ := ih h.1 hs hb
    have hv : ∀ f < n.F, ∀ co < Co, Net.val (.sum n Co θ) f e co ≠ ⊥ := fun f hf co hco => by
      rw [Ne, ← expL_eq_zero_iff, Net.val_sum h.1]
      exact mean_ne_zero (h.2.2 f hf co hco) fun ci hci => i2 f hf ci hci
    exact ⟨⟨i1, hv⟩, hv⟩
  | sumConv n Co K θ ih =>
    obtain ⟨i1, i2⟩ := ih h.1 hs.1 hb
    have hv : ∀ f < n.F, ∀ co < Co, Net.val (.sumConv n Co K θ) f e co ≠ ⊥ := fun f hf co hco => by
      rw [Ne, ← expL_eq_zero_iff, Net.val_sumConv h]
      refine mean_ne_zero ?_ fun ci hci => i2 f hf ci hci
      unfold Net.pixLogits
      split_ifs
      · exact h.2.2.2.2.2 co hco 0 h.2.2.1 0 h.2.2.1
      · exact h.2.2.2.2.2 co hco _ (Nat.mod_lt _ h.2.2.1) _ (Nat.mod_lt _ h.2.2.1)
    exact ⟨⟨i1, hv⟩, hv⟩
  | prodConv n kh kw ph pw ih =>
    obtain ⟨i1, i2⟩ := ih h.1 hs.1 hb
    refine ⟨i1, fun f hf ch hch => ?_⟩
    obtain ⟨_, _, hr, -⟩ := Net.sample_prodConv h hs none (fun _ => true) (ch := fun _ => 0) fun _ _ => Net.posC h.1 hs.1
    rw [Ne, ← expL_eq_zero_iff, Net.val_prodConv h hf (fun f hf => (hr f hf).1)]
    refine prod_ne_zero_iff.2 fun g hg => ?_
    rw [mem_filter, mem_range] at hg
    rw [Ne, expL_eq_zero_iff]
    exact i2 g hg.1 ch hch
  | pair n ih =>
    obtain ⟨i1, i2⟩ := ih h.1 hs hb
    refine ⟨i1, fun f hf ch hch => ?_⟩
    have hf' : f < n.F / 2 := hf
    rw [Net.val_pair h.1]
    exact add_ne_bot (i2 _ (by omega) ch hch) (i2 _ (by omega) ch hch)
  | pack n t perm ih =>
    obtain ⟨i1, i2⟩ := ih h.1 hs.1 hb
    refine ⟨i1, fun f hf ch hch => ?_⟩
    rw [Net.val_pack h.1]
    split_ifs with hlt
    · exact i2 _ hlt ch hch
    · simp
  | fuse a b iha ihb =>
    obtain ⟨ha, hb', hF, hC, -⟩ := h
    obtain ⟨a1, a2⟩ := iha ha hs.1 fun c hc => hb c (by simp [bases, hc])
    obtain ⟨b1, b2⟩ := ihb hb' hs.2 fun c hc => hb c (by simp [bases, hc])
    refine ⟨⟨a1, b1⟩, fun f hf ch hch => ?_⟩
    have hf' : f < a.F := hf
    rw [Net.val_fuse ha hb']
    exact add_ne_bot (a2 f hf ch hch) (b2 f (hF ▸ hf') ch (hC ▸ hch))

/-! ### The leaves of a built slice -/

theorem reduce_bases {t : ℕ} : ∀ (fuel : ℕ) (n m : Net), reduceLoop t fuel n = .ok m → bases m = bases n := by
  intro fuel
  induction fuel with
  | zero => intro n m h; simp only [reduceLoop, Except.ok.injEq] at h; rw [h]
  | succ fuel ih =>
    intro n m h
    rw [reduceLoop] at h
    split_ifs at h with h1 h2
    · cases h; rfl
    · exact (ih _ _ h).trans rfl

theorem addSum_bases {n m : Net} {Co : ℕ} {θ} (h : addSum n Co θ = .ok m) : bases m = bases n := by
  unfold addSum at h
  split_ifs at h
  cases h; rfl

theorem addProd_bases {n m : Net} {kh kw ph pw : ℕ} (h : addProd n kh kw ph pw = .ok m) : bases m = bases n := by
  unfold addProd at h
  rcases hp : ProdConv.mk? n.F kh kw ph pw with e | L <;> rw [hp] at h
  · cases h
  · cases h; rfl

theorem addSumConv_bases {n m : Net} {Co K : ℕ} {θ} (h : addSumConv n Co K θ = .ok m) : bases m = bases n := by
  unfold addSumConv at h
  rcases hp : SumConv.mk? n.C Co K 1 (fun co ci kh kw _ => θ co ci kh kw) with e | L <;> rw [hp] at h
  · cases h
  · cases h; rfl

theorem inject_bases {zl : Circ} {ld channels : ℕ} {permute : Bool} {p : List ℕ} {θ st} {n m : Net}
    (h : inject zl ld channels permute p θ st n = .ok m) : ∀ c ∈ bases m, c = zl ∨ c ∈ bases n := by
  unfold inject at h
  split_ifs at h with h1
  · cases h; exact fun c hc => .inr hc
  · rcases hl : latentStream (.base zl) n.F channels permute p θ with e | l <;> rw [hl] at h
    · cases h
    · dsimp only at h
      split_ifs at h
      cases h
      have hb : bases l = [zl] := by
        unfold latentStream at hl
        rcases hr : reduceLoop n.F (Net.base zl).F (Net.base zl) with e | m <;> rw [hr] at hl
        · cases hl
        · dsimp only at hl
          have hm := reduce_bases _ _ _ hr
          split_ifs at hl
          all_goals
            rw [addSum_bases hl]
            exact hm
      intro c hc
      simp only [bases, hb, List.mem_append, List.mem_singleton] at hc
      exact hc.symm

theorem tower_bases {conv : Bool} {channels k : ℕ} {W} {zl : Circ} {ld ch' : ℕ} {permute : Bool} {p : List ℕ} {θ} :
    ∀ (d st : ℕ) (n m : Net), tower conv channels k W (inject zl ld ch' permute p θ) st d n = .ok m →
      ∀ c ∈ bases m, c = zl ∨ c ∈ bases n := by
  intro d
  induction d with
  | zero => intro st n m h; simp only [tower, Except.ok.injEq] at h; rw [h]; exact fun c hc => .inr hc
  | succ d ih =>
    intro st n m h
    have key : ∀ s : Net, bases s = bases n → ((do
        let m ← addProd s k k 0 0
        let m' ← inject zl ld ch' permute p θ (st + 1) m
        tower conv channels k W (inject zl ld ch' permute p θ) (st + 1) d m') : Except Exc Net) = .ok m →
        ∀ c ∈ bases m, c = zl ∨ c ∈ bases n := by
      intro s hs h
      rcases h1 : addProd s k k 0 0 with e | q <;> rw [h1] at h
      · cases h
      · change (inject zl ld ch' permute p θ (st + 1) q >>= _) = _ at h
        rcases h2 : inject zl ld ch' permute p θ (st + 1) q with e | q' <;> rw [h2] at h
        · cases h
        · intro c hc
          rcases ih _ _ _ h c hc with h3 | h3
          · exact .inl h3
          · rw [← hs, ← addProd_bases h1]
            exact inject_bases h2 c h3
    rw [tower] at h
    cases conv with
    | true =>
      rcases h1 : addSumConv n channels k (W d) with e | s
      · simp only [if_true, h1] at h; cases h
      · simp only [if_true, h1] at h
        exact key s (addSumConv_bases h1) h
    | false =>
      rcases h1 : addSum n channels (fun f ci co => W d f ci co 0) with e | s
      · simp only [Bool.false_eq_true, if_false, h1] at h; cases h
      · simp only [Bool.false_eq_true, if_false, h1] at h
        exact key s (addSum_bases h1) h

theorem slice_bases {a : Args} {xl zl : Circ} {p : List ℕ} {d : Draws} {n : Net} (h : buildSlice a xl zl p d = .ok n) :
    ∀ c ∈ bases n, c = xl ∨ c = zl := by
  unfold buildSlice at h
  dsimp only at h
  rcases h1 : kernelPadding a.height.toNat (a.k.toNat ^ (a.depth.toNat - 1)) with e | hh <;> rw [h1] at h
  · cases h
  change (kernelPadding a.width.toNat (a.k.toNat ^ (a.depth.toNat - 1)) >>= _) = _ at h
  rcases h2 : kernelPadding a.width.toNat (a.k.toNat ^ (a.depth.toNat - 1)) with e | hw <;> rw [h2] at h
  · cases h
  change (addProd (.base xl) hh.1 hw.1 hh.2 hw.2 >>= _) = _ at h
  rcases h3 : addProd (.base xl) hh.1 hw.1 hh.2 hw.2 with e | b <;> rw [h3] at h
  · cases h
  change (inject zl _ _ _ p d.z 0 b >>= _) = _ at h
  rcases h4 : inject zl a.latentDepth.toNat a.channels.toNat a.perm p d.z 0 b with e | b' <;> rw [h4] at h
  · cases h
  change (tower _ _ _ _ _ 0 _ b' >>= _) = _ at h
  rcases h5 : tower a.conv a.channels.toNat a.k.toNat d.W (inject zl a.latentDepth.toNat a.channels.toNat a.perm p d.z) 0
      (a.depth.toNat - 1) b' with e | m <;> rw [h5] at h
  · cases h
  change addSum m 1 d.root = _ at h
  intro c hc
  rw [addSum_bases h] at hc
  rcases tower_bases _ _ _ _ h5 c hc with h6 | h6
  · exact .inr h6
  rcases inject_bases h4 c h6 with h7 | h7
  · exact .inr h7
  · rw [addProd_bases h3] at h7
    simp only [bases, List.mem_singleton] at h7
    exact .inl h7

end Verif.JEnc

import Verif.RatLL

/-!
Helper lemmas for C67 and C68: `log_likelihood` never raises on the constructed shapes, and one impossible leaf component
turns the whole row into NaN.
-/

open MeasureTheory

namespace Verif.Rat

open Finset Verif.Circ

variable {μ : Var → Measure ℝ}

theorem nanLse_none {n : ℕ} {g : ℕ → Option LogV} {w : ℕ → LogV} (h : ∃ i < n, g i = none) : Net.nanLse n g w = none := by
  unfold Net.nanLse
  rw [allSome_none h]; rfl

namespace Net

/-- The leaves of the network. -/
def leafOf : Net → Circ
  | fact c _ _ _ => c
  | prod n _ _ _ => leafOf n
  | sum n _ _ => leafOf n
  | einsum n _ _ _ => leafOf n
  | linsum n _ _ => leafOf n
  | collapse n => leafOf n

/-- Depth of the Factorize layer at the bottom. -/
def depthOf : Net → ℕ
  | fact _ d _ _ => d
  | prod n _ _ _ => depthOf n
  | sum n _ _ => depthOf n
  | einsum n _ _ _ => depthOf n
  | linsum n _ _ => depthOf n
  | collapse n => depthOf n

theorem alive_iff {n : Net} {x : Row} : n.Alive x ↔ ∀ r < R n, ∀ i < (leafOf n).F, ∀ ch < (leafOf n).C,
    featAt (Circ.den (leafOf n)) i x r ch ≠ ⊥ := by
  induction n with
  | fact c d R G => exact Iff.rfl
  | prod n mode k outer ih => exact ih
  | sum n Co θ ih => exact ih
  | einsum n Co p θ ih => exact ih
  | linsum n Co θ ih => exact ih
  | collapse n ih => exact ih

/-- `log_likelihood` raises for no row. -/
theorem logLik_ok {n : Net} (h : n.Good μ) (x : Row) : ∃ T, logLik n x = .ok T := by
  induction n with
  | fact c d R G =>
    obtain ⟨-, -, ht, hG⟩ := h
    rcases ht with ht | ht
    · exact ⟨_, by simp [logLik, ht]; rfl⟩
    · exact ⟨_, by simp [logLik, ht]; rfl⟩
  | prod n mode k outer ih =>
    obtain ⟨hn, rfl, he⟩ := h
    obtain ⟨T, hT⟩ := ih hn
    obtain ⟨e1, e2⟩ := even_F he
    obtain ⟨c0, c1, hc, l0, l1, hg⟩ := chunks_two mode e2
    rw [← e1] at hc
    have hpF : prodF (F n) 2 outer = F n / 2 := prodF_two e1 outer
    refine ⟨prodVal T [c0, c1] (C n) outer, ?_⟩
    have hb : ([c0, c1].all fun l => l.length == prodF (F n) 2 outer) = true := by simp [l0, l1, hpF]
    simp only [logLik, hT, hc, bind, Except.bind, pure, Except.pure, throw, throwThe, MonadExceptOf.throw, hb]
    simp
  | sum n Co θ ih =>
    obtain ⟨T, hT⟩ := ih h.1
    exact ⟨_, by simp only [logLik, hT, bind, Except.bind, pure, Except.pure]; rfl⟩
  | einsum n Co p θ ih =>
    obtain ⟨T, hT⟩ := ih h.1
    exact ⟨_, by simp only [logLik, hT, bind, Except.bind, pure, Except.pure]; rfl⟩
  | linsum n Co θ ih =>
    obtain ⟨T, hT⟩ := ih h.1
    exact ⟨_, by simp only [logLik, hT, bind, Except.bind, pure, Except.pure]; rfl⟩
  | collapse n ih =>
    obtain ⟨T, hT⟩ := ih h
    exact ⟨_, by simp only [logLik, hT, bind, Except.bind, pure, Except.pure]; rfl⟩

/-- Is every feature NaN? -/
def allF : Net → Prop
  | fact _ _ _ _ => False
  | prod _ _ _ _ => True
  | sum n _ _ => allF n
  | einsum _ _ _ _ => True
  | linsum _ _ _ => True
  | collapse _ => True

/-- Is every channel NaN? -/
def allC : Net → Prop
  | fact _ _ _ _ => False
  | prod n _ _ _ => allC n
  | sum _ _ _ => True
  | einsum _ _ _ _ => True
  | linsum _ _ _ => True
  | collapse n => allC n

/-- Every Product over the features has at least two of them. -/
def Wide : Net → Prop
  | fact _ _ _ _ => True
  | prod n _ _ _ => Wide n
  | sum n _ _ => Wide n
  | einsum n _ _ _ => Wide n
  | linsum n _ _ => Wide n
  | collapse n => Wide n ∧ 2 ≤ F n

theorem poison {n : Net} (h : n.Good μ) (hw : n.Wide) (hd : 1 ≤ n.depthOf) {x : Row} {r i ch : ℕ} (hr : r < R n)
    (hi : i < (leafOf n).F) (hch : ch < (leafOf n).C) (hbot : featAt (Circ.den (leafOf n)) i x r ch = ⊥) {T : NT}
    (hT : logLik n x = .ok T) :
    ∃ f0, ∃ c0 < C n, ∀ f < F n, (allF n ∨ f ≠ f0) → ∀ c < C n, (allC n ∨ c = c0) → T f c r = none := by
  induction n generalizing T with
  | fact c d R G =>
    obtain ⟨-, -, ht, hG⟩ := h
    have hT' : T = fun o ch r => Fact.logLik (G r) c.F (fun i => featAt (Circ.den c) i x r ch) o := by
      rcases ht with ht | ht
      · simp [logLik, ht] at hT; exact hT.symm
      · simp [logLik, ht] at hT; exact hT.symm
    subst hT'
    refine ⟨Fact.owner (G r) i, ch, hch, ?_⟩
    intro f hf hne c' hc' hcc
    rcases hne with hne | hne
    · exact hne.elim
    rcases hcc with hcc | rfl
    · exact hcc.elim
    exact Fact.C20_neg_inf_poisons c.F (G r) (hG r hr).1 _ f (by rw [(hG r hr).2]; exact hf) i hi (Ne.symm hne) hbot
  | prod n mode k outer ih =>
    obtain ⟨hn, rfl, he⟩ := h
    obtain ⟨T', hT'⟩ := logLik_ok hn x
    obtain ⟨f0, c0, hc0, hp⟩ := ih hn hw hd hr hi hch hbot hT'
    obtain ⟨e1, e2⟩ := even_F he
    obtain ⟨k0, k1, hk, l0, l1, hg⟩ := chunks_two mode e2
    rw [← e1] at hk
    have hpF : prodF (F n) 2 outer = F n / 2 := prodF_two e1 outer
    have hTe : T = prodVal T' [k0, k1] (C n) outer := by
      have hb : ([k0, k1].all fun l => l.length == prodF (F n) 2 outer) = true := by simp [l0, l1, hpF]
      simp only [logLik, hT', hk, bind, Except.bind, pure, Except.pure, throw, throwThe, MonadExceptOf.throw, hb] at hT
      simp at hT
      exact hT.symm
    subst hTe
    have hC : 0 < C n := by omega
    have hval : ∀ f < F n / 2, ∀ co < prodC (C n) outer, prodVal T' [k0, k1] (C n) outer f co r =
        Routing.fsum [T' (feat mode (F n / 2) f 0) (chan outer (C n) 0 co) r,
          T' (feat mode (F n / 2) f 1) (chan outer (C n) 1 co) r] := by
      intro f hf co _
      rw [← (hg f hf).1, ← (hg f hf).2]
      unfold prodVal chan
      cases outer <;> rfl
    have hc' : ∃ c1 < prodC (C n) outer, ∀ i, chan outer (C n) i c1 = c0 := by
      cases outer
      · exact ⟨c0, hc0, fun i => rfl⟩
      · refine ⟨c0 * C n + c0, ?_, fun i => ?_⟩
        · show c0 * C n + c0 < C n * C n
          calc c0 * C n + c0 < c0 * C n + C n := by omega
            _ = (c0 + 1) * C n := by ring
            _ ≤ C n * C n := Nat.mul_le_mul_right _ hc0
        · have := Einsum.div_flat (J := C n) (i := c0) hc0
          unfold chan
          simp only [if_true, this]
          split_ifs <;> rfl
    obtain ⟨c1, hc1, hcc⟩ := hc'
    refine ⟨0, c1, by rw [C_prod]; exact hc1, ?_⟩
    intro f hf _ c hc hac
    have hf' : f < F n / 2 := by rw [← hpF]; exact hf
    rw [C_prod] at hc
    rw [hval f hf' c hc]
    have hn0 : ∀ i < 2, feat mode (F n / 2) f i ≠ f0 → T' (feat mode (F n / 2) f i) (chan outer (C n) i c) r = none := by
      intro i hi' hne
      have b := feat_lt (mode := mode) hf' hi'
      rw [← e1] at b
      refine hp _ b (.inr hne) _ (chan_lt hc) ?_
      rcases hac with hac | rfl
      · exact .inl hac
      · exact .inr (hcc i)
    apply fsum_none
    by_cases h0 : feat mode (F n / 2) f 0 = f0
    · have : feat mode (F n / 2) f 1 ≠ f0 := fun h1 => feat_ne (mode := mode) hf' (h0.trans h1.symm)
      rw [hn0 1 (by omega) this]; simp
    · rw [hn0 0 (by omega) h0]; simp
  | sum n Co θ ih =>
    obtain ⟨T', hT'⟩ := logLik_ok h.1 x
    obtain ⟨f0, c0, hc0, hp⟩ := ih h.1 hw hd hr hi hch hbot hT'
    simp only [logLik, hT', bind, Except.bind, pure, Except.pure] at hT
    cases hT
    refine ⟨f0, 0, h.2.1, fun f hf hne c _ _ => nanLse_none ⟨c0, hc0, hp f hf hne c0 hc0 (.inr rfl)⟩⟩
  | einsum n Co p θ ih =>
    obtain ⟨T', hT'⟩ := logLik_ok h.1 x
    obtain ⟨f0, c0, hc0, hp⟩ := ih h.1 hw hd hr hi hch hbot hT'
    simp only [logLik, hT', bind, Except.bind, pure, Except.pure] at hT
    cases hT
    refine ⟨0, 0, h.2.2.1, fun f hf _ c _ _ => ?_⟩
    have hf' : f < F n / 2 := hf
    beta_reduce
    by_cases h0 : 2 * f = f0
    · have hb : allSome (C n) (fun j => T' (2 * f + 1) j r) = none :=
        allSome_none ⟨c0, hc0, hp (2 * f + 1) (by omega) (.inr (by omega)) c0 hc0 (.inr rfl)⟩
      rw [hb]
      cases allSome (C n) (fun i => T' (2 * f) i r) <;> rfl
    · have ha : allSome (C n) (fun j => T' (2 * f) j r) = none :=
        allSome_none ⟨c0, hc0, hp (2 * f) (by omega) (.inr h0) c0 hc0 (.inr rfl)⟩
      rw [ha]; rfl
  | linsum n Co θ ih =>
    obtain ⟨T', hT'⟩ := logLik_ok h.1 x
    obtain ⟨f0, c0, hc0, hp⟩ := ih h.1 hw hd hr hi hch hbot hT'
    simp only [logLik, hT', bind, Except.bind, pure, Except.pure] at hT
    cases hT
    refine ⟨0, 0, h.2.2.1, fun f hf _ c _ _ => ?_⟩
    have hf' : f < F n / 2 := hf
    beta_reduce
    by_cases h0 : 2 * f = f0
    · have hb : allSome (C n) (fun j => T' (2 * f + 1) j r) = none :=
        allSome_none ⟨c0, hc0, hp (2 * f + 1) (by omega) (.inr (by omega)) c0 hc0 (.inr rfl)⟩
      rw [hb]
      cases allSome (C n) (fun i => T' (2 * f) i r) <;> rfl
    · have ha : allSome (C n) (fun j => T' (2 * f) j r) = none :=
        allSome_none ⟨c0, hc0, hp (2 * f) (by omega) (.inr h0) c0 hc0 (.inr rfl)⟩
      rw [ha]; rfl
  | collapse n ih =>
    obtain ⟨T', hT'⟩ := logLik_ok (n := n) h x
    obtain ⟨f0, c0, hc0, hp⟩ := ih h hw.1 hd hr hi hch hbot hT'
    simp only [logLik, hT', bind, Except.bind, pure, Except.pure] at hT
    cases hT
    refine ⟨0, c0, hc0, fun f _ _ c hc hcc => fsum_none ?_⟩
    rw [List.mem_map]
    have h2 := hw.2
    have : ∃ f1 < F n, f1 ≠ f0 := by
      by_cases h0 : f0 = 0
      · exact ⟨1, by omega, by omega⟩
      · exact ⟨0, by omega, Ne.symm h0⟩
    obtain ⟨f1, hf1, hne⟩ := this
    exact ⟨f1, List.mem_range.2 hf1, hp f1 hf1 (.inr hne) c hc hcc⟩

end Net

end Verif.Rat

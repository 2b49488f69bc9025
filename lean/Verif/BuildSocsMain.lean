import Verif.BuildSocsProps

/-!
# C79: inner products of compatible components, and the density of `build_socs`
-/

open MeasureTheory

namespace Verif
namespace BuildSocs

open Inner

/-- No leaf is a `Gamma` (whose inner product may be undefined for small concentrations). -/
def Tpl.NoGamma : Tpl → Prop
  | leaf _ _ _ par => (tag (par 0 0 0)).1 ≠ 10
  | cat1 _ cs => ∀ i, (cs i).NoGamma
  | cat2 _ cs => ∀ i, (cs i).NoGamma
  | prod c => c.NoGamma
  | sum _ c _ _ _ => c.NoGamma

/-- The pairs of leaf classes with a closed form. -/
def pairOk (x y : ℕ × ℕ) : Prop := x.2 = y.2 ∧ (x.1 = y.1 ∨ ((x.1 = 1 ∨ x.1 = 2) ∧ (y.1 = 1 ∨ y.1 = 2)))

theorem ipPar_iff {a b : LeafPar} (ha : (tag a).1 ≠ 10) : (∃ z, ipPar a b = .ok z) ↔ pairOk (tag a) (tag b) := by
  have hK : ∀ (K K' : ℕ) (x : ℝ), (∃ z, (if K ≠ K' then (.error .shapeError : Except Exc ℝ) else .ok x) = .ok z) ↔ K = K' := by
    intro K K' x
    by_cases h : K = K' <;> simp [h]
  cases a <;> cases b <;> simp only [tag, pairOk, ipPar, hK] at ha ⊢ <;> simp at ha ⊢

theorem leaf_ip_iff {q q' : List Var} {C R C' R' : ℕ} {p p' : ℕ → ℕ → ℕ → LeafPar}
    (u : (Tpl.leaf q C R p).Uniform) (u' : (Tpl.leaf q' C' R' p').Uniform) (g : (tag (p 0 0 0)).1 ≠ 10) :
    (∃ k, ip (.leaf q C R p) (.leaf q' C' R' p') = .ok k) ↔
      q.toFinset = q'.toFinset ∧ q.length = q'.length ∧ R = R' ∧
        (q.length = 0 ∨ C = 0 ∨ C' = 0 ∨ R = 0 ∨ pairOk (tag (p 0 0 0)) (tag (p' 0 0 0))) := by
  unfold ip
  by_cases h1 : q.toFinset = q'.toFinset
  swap
  · rw [if_pos h1]
    simp [h1]
  by_cases h2 : q.length = q'.length
  swap
  · rw [if_neg (not_not.2 h1), if_pos h2]
    simp [h2]
  by_cases h3 : R = R'
  swap
  · rw [if_neg (not_not.2 h1), if_neg (not_not.2 h2), if_pos h3]
    simp [h3]
  rw [if_neg (not_not.2 h1), if_neg (not_not.2 h2), if_neg (not_not.2 h3)]
  simp only [h1, h2, h3, true_and]
  subst h3
  have hcell : ∀ f < q.length, ∀ i < C, ∀ j < C', ∀ r < R,
      ((∃ z, ipPar (p f i r) (p' f j r) = .ok z) ↔ pairOk (tag (p 0 0 0)) (tag (p' 0 0 0))) := by
    intro f hf i hi j hj r hr
    rw [ipPar_iff (by rw [u f hf i hi r hr]; exact g), u f hf i hi r hr, u' f (h2 ▸ hf) j hj r hr]
  constructor
  · rintro ⟨k, hk⟩
    split at hk
    · cases hk
    · rename_i k' hk'
      by_contra hcon
      push Not at hcon
      obtain ⟨c1, c2, c3, c4, c5⟩ := hcon
      have hl : 0 < q.length := by omega
      refine c5 ((hcell 0 hl 0 (by omega) 0 (by omega) 0 (by omega)).1 ?_)
      exact ⟨_, seqFin_ok (seqFin_ok (seqFin_ok (seqFin_ok hk' ⟨0, hl⟩) ⟨0, by omega⟩) ⟨0, by omega⟩) ⟨0, by omega⟩⟩
  · intro h
    have hall : ∀ (f : Fin q.length) (i : Fin C) (j : Fin C') (r : Fin R), ∃ z, ipPar (p f i r) (p' f j r) = .ok z := by
      intro f i j r
      refine (hcell f f.2 i i.2 j j.2 r r.2).2 ?_
      have := f.2
      have := i.2
      have := j.2
      have := r.2
      rcases h with h | h | h | h | h
      · omega
      · omega
      · omega
      · omega
      · exact h
    obtain ⟨k, hk⟩ := seqFin_exists fun f : Fin q.length => seqFin_exists fun i : Fin C => seqFin_exists fun j : Fin C' =>
      seqFin_exists fun r : Fin R => hall f i j r
    rw [hk]
    exact ⟨_, rfl⟩

theorem ip_skel : ∀ {a b a' b' : Tpl}, a.skel = a'.skel → b.skel = b'.skel → a.Uniform → b.Uniform → a'.Uniform → b'.Uniform →
    a.NoGamma → a'.NoGamma → (∃ k, ip a.ic b.ic = .ok k) → ∃ k, ip a'.ic b'.ic = .ok k := by
  intro a
  induction a with
  | leaf q C R p =>
    intro b a' b' ha hb u1 u2 u3 u4 g g' hk
    cases b with
    | leaf q' C' R' p' =>
      have sa := skel_shape ha
      have sb := skel_shape hb
      cases a' <;> simp only [Tpl.skel, reduceCtorEq, Skel.leaf.injEq] at ha
      cases b' <;> simp only [Tpl.skel, reduceCtorEq, Skel.leaf.injEq] at hb
      obtain ⟨v1, v2, v3, v4⟩ := (leaf_ip_iff u1 u2 g).1 hk
      refine (leaf_ip_iff u3 u4 g').2 ?_
      rw [← ha.1, ← ha.2.1, ← ha.2.2.1, ← ha.2.2.2.1, ← ha.2.2.2.2, ← hb.1, ← hb.2.1, ← hb.2.2.1, ← hb.2.2.2.1, ← hb.2.2.2.2]
      exact ⟨v1, v2, v3, v4⟩
    | _ => obtain ⟨k, hk⟩ := hk; simp only [Tpl.ic, ip, reduceCtorEq] at hk
  | cat1 n cs ih =>
    intro b a' b' ha hb u1 u2 u3 u4 g g' hk
    cases b with
    | cat1 m ds =>
      obtain ⟨va, fa, -, ra⟩ := skel_shape ha
      obtain ⟨vb, fb, -, rb⟩ := skel_shape hb
      cases a' <;> simp only [Tpl.skel, reduceCtorEq, Skel.cat1.injEq] at ha
      cases b' <;> simp only [Tpl.skel, reduceCtorEq, Skel.cat1.injEq] at hb
      obtain ⟨rfl, ha⟩ := ha
      obtain ⟨rfl, hb⟩ := hb
      have ha := congrFun (eq_of_heq ha)
      have hb := congrFun (eq_of_heq hb)
      obtain ⟨k, hk⟩ := hk
      simp only [Tpl.ic] at *
      unfold ip at hk ⊢
      rw [← va, ← vb, ← fa, ← fb, ← ra, ← rb]
      split_ifs at hk ⊢ with c1 c2 c3 c4
      subst c4
      split at hk
      · cases hk
      · rename_i k' hk'
        obtain ⟨k2, hk2⟩ := seqFin_exists fun i => ih i (ha i) (hb (i.cast rfl)) (u1 i) (u2 _) (u3 i) (u4 _) (g i) (g' i) ⟨_, seqFin_ok hk' i⟩
        rw [hk2]
        exact ⟨_, rfl⟩
    | _ => obtain ⟨k, hk⟩ := hk; simp only [Tpl.ic, ip, reduceCtorEq] at hk
  | cat2 n cs ih =>
    intro b a' b' ha hb u1 u2 u3 u4 g g' hk
    cases b with
    | cat2 m ds =>
      obtain ⟨va, fa, -, ra⟩ := skel_shape ha
      obtain ⟨vb, fb, -, rb⟩ := skel_shape hb
      cases a' <;> simp only [Tpl.skel, reduceCtorEq, Skel.cat2.injEq] at ha
      cases b' <;> simp only [Tpl.skel, reduceCtorEq, Skel.cat2.injEq] at hb
      obtain ⟨rfl, ha⟩ := ha
      obtain ⟨rfl, hb⟩ := hb
      have ha := congrFun (eq_of_heq ha)
      have hb := congrFun (eq_of_heq hb)
      obtain ⟨k, hk⟩ := hk
      simp only [Tpl.ic] at *
      unfold ip at hk ⊢
      rw [← va, ← vb, ← fa, ← fb, ← ra, ← rb]
      split_ifs at hk ⊢ with c1 c2 c3
      split at hk
      · cases hk
      · rename_i k' hk'
        obtain ⟨k2, hk2⟩ := seqFin_exists fun i => seqFin_exists fun j =>
          ih i (ha i) (hb j) (u1 i) (u2 j) (u3 i) (u4 j) (g i) (g' i) ⟨_, seqFin_ok (seqFin_ok hk' i) j⟩
        rw [hk2]
        exact ⟨_, rfl⟩
    | _ => obtain ⟨k, hk⟩ := hk; simp only [Tpl.ic, ip, reduceCtorEq] at hk
  | prod c ih =>
    intro b a' b' ha hb u1 u2 u3 u4 g g' hk
    cases b with
    | prod d =>
      cases a' <;> simp only [Tpl.skel, reduceCtorEq, Skel.prod.injEq] at ha
      cases b' <;> simp only [Tpl.skel, reduceCtorEq, Skel.prod.injEq] at hb
      obtain ⟨va, -, -, ra⟩ := skel_shape ha
      obtain ⟨vb, -, -, rb⟩ := skel_shape hb
      obtain ⟨k, hk⟩ := hk
      simp only [Tpl.ic] at *
      unfold ip at hk ⊢
      rw [← va, ← vb, ← ra, ← rb]
      split_ifs at hk ⊢ with c1 c2
      split at hk
      · cases hk
      · rename_i k' hk'
        obtain ⟨k2, hk2⟩ := ih ha hb u1 u2 u3 u4 g g' ⟨_, hk'⟩
        rw [hk2]
        exact ⟨_, rfl⟩
    | _ => obtain ⟨k, hk⟩ := hk; simp only [Tpl.ic, ip, reduceCtorEq] at hk
  | sum s c Co R w ih =>
    intro b a' b' ha hb u1 u2 u3 u4 g g' hk
    cases b with
    | sum s' d Co' R' w' =>
      cases a' <;> simp only [Tpl.skel, reduceCtorEq, Skel.sum.injEq] at ha
      cases b' <;> simp only [Tpl.skel, reduceCtorEq, Skel.sum.injEq] at hb
      obtain ⟨-, ha, -, rfl⟩ := ha
      obtain ⟨-, hb, -, rfl⟩ := hb
      obtain ⟨va, fa, -, -⟩ := skel_shape ha
      obtain ⟨vb, fb, -, -⟩ := skel_shape hb
      obtain ⟨k, hk⟩ := hk
      simp only [Tpl.ic] at *
      unfold ip at hk ⊢
      rw [← va, ← vb, ← fa, ← fb]
      split_ifs at hk ⊢ with c1 c2 c3
      split at hk
      · cases hk
      · rename_i k' hk'
        obtain ⟨k2, hk2⟩ := ih ha hb u1 u2 u3 u4 g g' ⟨_, hk'⟩
        rw [hk2]
        exact ⟨_, rfl⟩
    | _ => obtain ⟨k, hk⟩ := hk; simp only [Tpl.ic, ip, reduceCtorEq] at hk

/-- **C79 (compatible components have inner products).** In a list accepted by `check_compatible_components` (leaves other than
`Gamma`), either the inner products of all pairs of components are defined, or of none. -/
theorem C79_inner_products {l : List Tpl} (h : checkAll l = .ok ()) (hu : ∀ a ∈ l, a.Uniform ∧ a.NoGamma) {c : Tpl} (hc : c ∈ l)
    (hk : ∃ k, ip c.ic c.ic = .ok k) : ∀ a ∈ l, ∀ b ∈ l, ∃ k, ip a.ic b.ic = .ok k := by
  intro a ha b hb
  have hs := (C79_check l).1.1 h
  exact ip_skel (hs c hc a ha) (hs c hc b hb) (hu c hc).1 (hu c hc).1 (hu a ha).1 (hu b hb).1 (hu c hc).2 (hu a ha).2 hk

end BuildSocs
end Verif
